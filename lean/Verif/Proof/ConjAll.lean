import Verif.Proof.UnreducedMap
import Verif.Proof.TwoBody
/-
Products and conjugation for generators of any spin: the library computes in the universal enveloping algebra and drops
the monomials with too high ladder powers.
-/
set_option linter.unusedSectionVars false
set_option linter.unusedSimpArgs false
set_option linter.unusedVariables false
namespace LC
open Terms
section Lists
variable {ι : Type _} [LinearOrder ι]

/-- In the monomial no `S_-` of the spin is to the left of an `S_+`. -/
def NoMP (n : Nat) (i : ι) (m : List (Gen ι)) : Prop :=
  m.Pairwise fun a b => ¬ (a = .spin n .minus i ∧ b = .spin n .plus i)

theorem NoMP.ladders {n : Nat} {i : ι} {m : List (Gen ι)} (h : NoMP n i m) :
    Ladders n i (m.count (.spin n .plus i)) (m.count (.spin n .minus i)) m := by
  induction m with
  | nil => rfl
  | cons g m ih =>
    rw [NoMP, List.pairwise_cons] at h
    have ih := ih h.2
    rw [Ladders] at ih ⊢
    by_cases hp : g = .spin n .plus i
    · subst hp
      rw [List.filter_cons_of_pos (by simp [isLadder]), ih]
      simp [List.replicate_succ]
    · by_cases hm : g = .spin n .minus i
      · subst hm
        have h0 : m.count (Gen.spin n .plus i) = 0 := by
          rw [List.count_eq_zero]
          intro hh
          exact h.1 _ hh ⟨rfl, rfl⟩
        rw [List.filter_cons_of_pos (by simp [isLadder]), ih]
        simp [h0, List.replicate_succ]
      · have : isLadder n i g = false := by
          cases g with
          | fermion d k => rfl
          | boson d k => rfl
          | spin k c j =>
            simp only [isLadder]
            by_contra hh
            cases c <;> simp at hh hp hm
            · exact hp hh.1 hh.2
            · exact hm hh.1 hh.2
        rw [List.filter_cons_of_neg (by simp [this]), ih]
        rw [List.count_cons_of_ne hp, List.count_cons_of_ne hm]

theorem NoMP.of_chain {n : Nat} {i : ι} {m : List (Gen ι)} (h : m.IsChain (OKPair (G := Gen ι))) : NoMP n i m := by
  refine (pairwise_of_chain h).imp ?_
  rintro a b hab ⟨rfl, rfl⟩
  simp [GenOps.gt, Gen.gtOp, Gen.algebraId, Gen.greater, SpinComp.toNat] at hab

theorem NoMP.rev_dag {n : Nat} {i : ι} {m : List (Gen ι)} (h : NoMP n i m) : NoMP n i (m.reverse.map Gen.dag) := by
  rw [NoMP, List.pairwise_map, List.pairwise_reverse]
  refine h.imp ?_
  rintro a b hab ⟨h1, h2⟩
  apply hab
  constructor
  · rw [← a.dag_dag, h2]; rfl
  · rw [← b.dag_dag, h1]; rfl

theorem count_rev_dag (m : List (Gen ι)) (g : Gen ι) : (m.reverse.map Gen.dag).count g.dag = m.count g := by
  rw [List.count_map_of_injective _ _ (Function.LeftInverse.injective Gen.dag_dag), List.count_reverse]

/-- No ladder power is reduced. -/
def GoodCnt (m : List (Gen ι)) : Prop :=
  ∀ n i c, n ≠ 2 → c ≠ .z → ∀ p, 2 < p → p ≤ m.count (.spin n c i) → ¬ n ≤ p

theorem GoodCnt.mono {m m' : List (Gen ι)} (h : GoodCnt m')
    (hc : ∀ n i c, n ≠ 2 → c ≠ SpinComp.z → m.count (.spin n c i) ≤ m'.count (.spin n c i)) : GoodCnt m :=
  fun n i c hn hz p hp hle => h n i c hn hz p hp (hle.trans (hc n i c hn hz))

theorem GoodCnt.rev_dag {m : List (Gen ι)} : GoodCnt (m.reverse.map Gen.dag) ↔ GoodCnt m := by
  have e : ∀ n (i : ι) c, (m.reverse.map Gen.dag).count (Gen.spin n c i) = m.count (Gen.spin n c i).dag := by
    intro n i c
    have := count_rev_dag m (Gen.spin n c i).dag
    rwa [Gen.dag_dag] at this
  constructor
  · intro h n i c hn hz p hp hle
    cases c with
    | plus => exact h n i .minus hn (by simp) p hp (by rw [e]; exact hle)
    | minus => exact h n i .plus hn (by simp) p hp (by rw [e]; exact hle)
    | z => exact absurd rfl hz
  · intro h n i c hn hz p hp hle
    rw [e] at hle
    cases c with
    | plus => exact h n i .minus hn (by simp) p hp hle
    | minus => exact h n i .plus hn (by simp) p hp hle
    | z => exact absurd rfl hz

variable {M : Nat → ι → Prop}

theorem canon_U_of_chain {m : List (Gen ι)} (hP : ∀ g ∈ m, Allowed M g) (hc : m.IsChain (OKPair (G := Gen ι))) :
    @CanonMon (Gen ι) (genOpsU ι) (Allowed M) m := Reg.canonU hP hc

theorem canon_iff_good {m : List (Gen ι)} (hP : ∀ g ∈ m, Allowed M g) (hc : m.IsChain (OKPair (G := Gen ι))) :
    CanonMon (Allowed M) m ↔ GoodCnt m := by
  have hcount : ∀ g : Gen ι, m.countP (GenOps.eq g) = m.count g := by
    intro g
    rw [List.count]
    congr 1
    funext x
    have : GenOps.eq g x = true ↔ g = x := LawfulGen.eq_iff g x
    by_cases h : g = x
    · rw [this.2 h]; simp [h]
    · have h' : ¬ x = g := fun h'' => h h''.symm
      cases hh : GenOps.eq g x
      · simp [h']
      · exact absurd (this.1 hh) h
  constructor
  · intro h n i c hn hz p hp hle hnp
    have hmem : Gen.spin n c i ∈ m := by
      rw [← List.count_pos_iff]; omega
    have := h.pow _ hmem p hp (by rw [hcount]; exact hle)
    simp [GenOps.reducePower, Gen.reducePower, hz] at this
    omega
  · intro h
    refine ⟨hP, hc, ?_⟩
    intro g hg p hp hle
    rw [hcount] at hle
    cases g with
    | fermion d i => rfl
    | boson d i => rfl
    | spin n c i =>
      by_cases hz : c = .z
      · simp [GenOps.reducePower, Gen.reducePower, hz]
      · by_cases hn : n = 2
        · subst hn
          have : m.count (Gen.spin 2 c i) ≤ 1 := by
            rw [Reg.countU_st (canon_U_of_chain hP hc)]
            simp only [Reg.cntU, if_true]
            split <;> simp
          omega
        · have := h n i c hn hz p hp hle
          simp [GenOps.reducePower, Gen.reducePower, hz]
          omega

theorem keeps_iff_good (hM : HalfAlone M) {m : List (Gen ι)} (hP : ∀ g ∈ m, Allowed M g)
    (hc : m.IsChain (OKPair (G := Gen ι))) : keeps m = true ↔ GoodCnt m :=
  (keeps_iff hM hP hc).trans (canon_iff_good hP hc)

end Lists

section Emits
variable {ι S A : Type _} [LinearOrder ι] [CommRing S] [DecidableEq S] [ConstScalar S] [ScalarLaws S] [IsDomain S]
  [CharZero S] [Ring A] [Algebra S A] {M : Nat → ι → Prop}

/-- The monomials stored without power reduction. -/
abbrev emitsU (m : List (Gen ι)) (c : S) : List (List (Gen ι) × S) := @emits (Gen ι) S (genOpsU ι) _ _ _ m c

theorem emitsU_mem (hM : HalfAlone M) {m : List (Gen ι)} (hP : ∀ g ∈ m, Allowed M g) (c : S) :
    ∀ r ∈ emitsU m c, (∀ g ∈ r.1, Allowed M g) ∧ r.1.IsChain (OKPair (G := Gen ι)) := by
  intro r hr
  have := @emits_canon (Gen ι) S (genOpsU ι) lawfulU _ _ _ _ (nfGenU M hM) m hP c r hr
  exact ⟨@CanonMon.mem _ (genOpsU ι) _ _ this, @CanonMon.chain _ (genOpsU ι) _ _ this⟩

theorem emitsU_count (hM : HalfAlone M) {m : List (Gen ι)} (hP : ∀ g ∈ m, Allowed M g) (c : S)
    {n : Nat} (hn : n ≠ 2) {i : ι} (h : NoMP n i m) {s : SpinComp} (hs : s ≠ .z) :
    ∀ r ∈ emitsU m c, r.1.count (.spin n s i) = m.count (.spin n s i) := by
  intro r hr
  have := (emitsU_stable (ladders_stable hM n i hn _ _) m c ⟨hP, h.ladders⟩ r hr).2
  cases s with
  | plus => exact this.count_plus
  | minus => exact this.count_minus
  | z => exact absurd rfl hs

theorem emitsU_good (hM : HalfAlone M) {m : List (Gen ι)} (hP : ∀ g ∈ m, Allowed M g) (c : S)
    (h : ∀ n i, n ≠ 2 → NoMP n i m) : ∀ r ∈ emitsU m c, (GoodCnt r.1 ↔ GoodCnt m) := by
  intro r hr
  have e : ∀ n (i : ι) s, n ≠ 2 → s ≠ SpinComp.z → r.1.count (.spin n s i) = m.count (.spin n s i) :=
    fun n i s hn hs => emitsU_count hM hP c hn (h n i hn) hs r hr
  constructor
  · exact fun hg => hg.mono fun n i s hn hs => (e n i s hn hs).ge
  · exact fun hg => hg.mono fun n i s hn hs => (e n i s hn hs).le

theorem emits_eq_U (hM : HalfAlone M) {m : List (Gen ι)} (hP : ∀ g ∈ m, Allowed M g) (c : S)
    (h : ∀ n i, n ≠ 2 → NoMP n i m) (hg : GoodCnt m) : emits (G := Gen ι) m c = emitsU m c := by
  rw [emits_drop, List.filter_eq_self]
  intro r hr
  obtain ⟨h1, h2⟩ := emitsU_mem hM hP c r hr
  exact (keeps_iff_good hM h1 h2).2 ((emitsU_good hM hP c h r hr).2 hg)

variable {ρ : Gen ι → A}

theorem eval_emitsU (hM : HalfAlone M) (h : TextbookCore S M ρ) {m : List (Gen ι)} (hP : ∀ g ∈ m, Allowed M g) (c : S) :
    evalTerms ρ (emitsU m c) = c • evalMon ρ m :=
  @emits_sound (Gen ι) S A (genOpsU ι) _ _ _ _ _ _ _ _ lawfulU (representsU hM h) m hP c

/-- Functionals that vanish on the dropped monomials do not see the power reduction. -/
theorem drop_emits (hM : HalfAlone M) (h : TextbookCore S M ρ) {B : Type _} [AddCommGroup B] (φ : A →+ B)
    (hφ : ∀ (s : S) (m : List (Gen ι)), (∀ g ∈ m, Allowed M g) → m.IsChain (OKPair (G := Gen ι)) → ¬ GoodCnt m →
      φ (s • evalMon ρ m) = 0) {m : List (Gen ι)} (hP : ∀ g ∈ m, Allowed M g) (c : S) :
    φ (evalTerms ρ (emits (G := Gen ι) m c)) = φ (c • evalMon ρ m) := by
  rw [← eval_emitsU hM h hP c, emits_drop]
  have hm := emitsU_mem hM hP c
  change φ (evalTerms ρ ((emitsU m c).filter _)) = _
  revert hm
  generalize emitsU m c = l
  intro hm
  induction l with
  | nil => rfl
  | cons r l ih =>
    have ih := ih fun q hq => hm q (by simp [hq])
    obtain ⟨h1, h2⟩ := hm r (by simp)
    rw [List.filter_cons, Expr.evalTerms_cons, map_add]
    by_cases hk : GoodCnt r.1
    · rw [if_pos ((keeps_iff_good hM h1 h2).2 hk), Expr.evalTerms_cons, map_add, ih]
    · rw [if_neg fun hh => hk ((keeps_iff_good hM h1 h2).1 hh), ih, hφ _ _ h1 h2 hk, zero_add]

theorem drop_mul (hM : HalfAlone M) (h : TextbookCore S M ρ) {B : Type _} [AddCommGroup B] (φ : A →+ B)
    (hφ : ∀ (s : S) (m : List (Gen ι)), (∀ g ∈ m, Allowed M g) → m.IsChain (OKPair (G := Gen ι)) → ¬ GoodCnt m →
      φ (s • evalMon ρ m) = 0) {a b : Expr (Gen ι) S} (ha : a.InP (Allowed M)) (hb : b.InP (Allowed M)) :
    φ (evalExpr ρ (a * b)) = φ (evalExpr ρ a * evalExpr ρ b) := by
  rw [Expr.mul_def]
  simp only [evalExpr]
  rw [evalTerms_storeAll]
  simp only [show evalTerms ρ ([] : List (List (Gen ι) × S)) = 0 from rfl, zero_add]
  revert ha hb
  simp only [Expr.InP]
  generalize a.terms = a
  generalize b.terms = b
  intro ha hb
  have inner : ∀ (p : List (Gen ι) × S) (b : List (List (Gen ι) × S)), (∀ g ∈ p.1, Allowed M g) →
      (∀ q ∈ b, ∀ g ∈ q.1, Allowed M g) →
      φ (evalTerms ρ (b.flatMap fun q => emits (p.1 ++ q.1) (p.2 * q.2))) = φ ((p.2 • evalMon ρ p.1) * evalTerms ρ b) := by
    intro p b hp hb
    induction b with
    | nil => simp [evalTerms]
    | cons q b ih =>
      rw [List.flatMap_cons, Expr.evalTerms_append, map_add, ih fun r hr => hb r (by simp [hr]), Expr.evalTerms_cons,
        mul_add, map_add]
      congr 1
      rw [drop_emits hM h φ hφ, Expr.evalMon_append, mul_smul, smul_mul_smul_comm, mul_smul]
      intro g hg
      rcases List.mem_append.1 hg with h | h
      · exact hp g h
      · exact hb q (by simp) g h
  induction a with
  | nil => simp [Expr.mulLog, evalTerms]
  | cons p a ih =>
    have := ih fun r hr => ha r (by simp [hr])
    simp only [Expr.mulLog, List.flatMap_cons] at this ⊢
    rw [Expr.evalTerms_append, map_add, this, Expr.evalTerms_cons, add_mul, map_add, inner p b (ha p (by simp)) hb]

theorem ofLinFun_conj (g : Gen ι) : (Expr.ofLinFun (GenOps.conj g) : Expr (Gen ι) S) = ⟨[([g.dag], 1)]⟩ := by
  have : GenOps.conj g = (⟨.integer 0, [(g.dag, .integer 1)]⟩ : LinFun (Gen ι)) := by cases g <;> rfl
  rw [this]
  simp only [Expr.ofLinFun, List.foldl_cons, List.foldl_nil, ConstScalar.mk_integer]
  simp only [VarNumber.isZero, Int.cast_one, one_ne_zero, if_false]
  have h := ofMonomial_single_terms (S := S) g.dag
  have : Expr.ofMonomial (1 : S) [g.dag] = ⟨[([g.dag], 1)]⟩ := Expr.ext h
  rw [this]
  simp [Expr.addAssign, Terms.emplace, Terms.find?]

/-- Invariant of the loop over the generators of one monomial in `conj`: no power is reduced. -/
theorem conj_loop (hM : HalfAlone M) (h : TextbookCore S M ρ) (co : S) (l : List (Gen ι)) :
    ∀ (u : List (Gen ι)) (e : Expr (Gen ι) S), (∀ g ∈ u, Allowed M g) → (∀ g ∈ l, Allowed M g) →
      (∀ n i, n ≠ 2 → NoMP n i (u ++ l.map Gen.dag)) → GoodCnt (u ++ l.map Gen.dag) →
      e.AllCanon (Allowed M) →
      (∀ p ∈ e.terms, ∀ n i s, n ≠ 2 → s ≠ SpinComp.z → p.1.count (.spin n s i) = u.count (.spin n s i)) →
      evalExpr ρ e = co • evalMon ρ u →
      evalExpr ρ (l.foldl (fun e g => Expr.mulAssign e (Expr.ofLinFun (GenOps.conj g))) e)
        = co • evalMon ρ (u ++ l.map Gen.dag) := by
  induction l with
  | nil => intro u e _ _ _ _ _ _ he; simpa using he
  | cons g l ih =>
    intro u e hu hl hmp hgood hac hcnt he
    have hg : Allowed M g.dag := by
      have := hl g (by simp)
      cases g <;> exact this
    have hsplit : u ++ (g :: l).map Gen.dag = (u ++ [g.dag]) ++ l.map Gen.dag := by simp
    rw [hsplit] at hmp hgood ⊢
    rw [List.foldl_cons]
    have hmul : Expr.mulAssign e (Expr.ofLinFun (GenOps.conj g)) = e * (⟨[([g.dag], 1)]⟩ : Expr (Gen ι) S) := by
      rw [ofLinFun_conj]; rfl
    rw [hmul]
    have hmp' : ∀ n i, n ≠ 2 → NoMP n i (u ++ [g.dag]) := fun n i hn => (List.pairwise_append.1 (hmp n i hn)).1
    -- every product of a stored monomial with the new factor
    have hP : ∀ p ∈ e.terms, ∀ x ∈ p.1 ++ [g.dag], Allowed M x := by
      intro p hp x hx
      rcases List.mem_append.1 hx with hx | hx
      · exact (hac p hp).mem x hx
      · simp at hx; subst hx; exact hg
    have hcnt' : ∀ p ∈ e.terms, ∀ n i s, n ≠ 2 → s ≠ SpinComp.z →
        (p.1 ++ [g.dag]).count (.spin n s i) = (u ++ [g.dag]).count (.spin n s i) := by
      intro p hp n i s hn hs
      rw [List.count_append, List.count_append, hcnt p hp n i s hn hs]
    have hno : ∀ p ∈ e.terms, ∀ n i, n ≠ 2 → NoMP n i (p.1 ++ [g.dag]) := by
      intro p hp n i hn
      rw [NoMP, List.pairwise_append]
      refine ⟨NoMP.of_chain (hac p hp).chain, by simp, ?_⟩
      rintro x hx y hy ⟨rfl, rfl⟩
      have h1 := hcnt p hp n i .minus hn (by simp)
      have h2 := List.count_pos_iff.2 hx
      have h3 : Gen.spin n .minus i ∈ u := List.count_pos_iff.1 (by omega)
      have := hmp' n i hn
      rw [NoMP, List.pairwise_append] at this
      exact this.2.2 _ h3 _ hy ⟨rfl, rfl⟩
    have hgd : ∀ p ∈ e.terms, GoodCnt (p.1 ++ [g.dag]) := by
      intro p hp
      refine hgood.mono fun n i s hn hs => ?_
      rw [hcnt' p hp n i s hn hs, List.count_append (l₁ := u ++ [g.dag])]
      omega
    have hem : ∀ p ∈ e.terms, ∀ c : S, emits (G := Gen ι) (p.1 ++ [g.dag]) c = emitsU (p.1 ++ [g.dag]) c :=
      fun p hp c => emits_eq_U hM (hP p hp) c (hno p hp) (hgd p hp)
    refine ih (u ++ [g.dag]) _ ?_ (fun x hx => hl x (by simp [hx])) hmp hgood ?_ ?_ ?_
    · intro x hx
      rcases List.mem_append.1 hx with hx | hx
      · exact hu x hx
      · simp at hx; subst hx; exact hg
    · refine Expr.ac_mul (nfGen M hM) hac ?_
      intro p hp
      simp at hp; subst hp
      exact ⟨by simpa using hg, by simp, fun x hx p hp hle => by
        have h2 := hle.trans List.countP_le_length
        simp at h2; omega⟩
    · intro r hr n i s hn hs
      rw [Expr.mul_def] at hr
      rcases mem_storeAll hr with h' | ⟨q, hq, h'⟩
      · cases h'
      · simp only [Expr.mulLog, List.mem_flatMap] at hq
        obtain ⟨p, hp, p', hp', hq⟩ := hq
        simp at hp'; subst hp'
        rw [hem p hp] at hq
        rw [← h', emitsU_count hM (hP p hp) _ hn (hno p hp n i hn) hs q hq, hcnt' p hp n i s hn hs]
    · rw [Expr.evalMon_append, ← smul_mul_assoc, ← he, Expr.mul_def]
      simp only [evalExpr]
      rw [evalTerms_storeAll]
      simp only [show evalTerms ρ ([] : List (List (Gen ι) × S)) = 0 from rfl, zero_add, Expr.mulLog]
      have : ∀ t : List (List (Gen ι) × S), (∀ p ∈ t, p ∈ e.terms) →
          evalTerms ρ (t.flatMap fun p => [([g.dag], (1 : S))].flatMap fun q => emits (p.1 ++ q.1) (p.2 * q.2))
            = evalTerms ρ t * evalMon ρ [g.dag] := by
        intro t ht
        induction t with
        | nil => simp [evalTerms]
        | cons p t ih' =>
          rw [List.flatMap_cons, Expr.evalTerms_append, ih' fun q hq => ht q (by simp [hq]), Expr.evalTerms_cons, add_mul]
          congr 1
          simp only [List.flatMap_cons, List.flatMap_nil, List.append_nil]
          have hp := ht p (by simp)
          rw [hem p hp, eval_emitsU hM h (hP p hp), Expr.evalMon_append, mul_one, smul_mul_assoc]
      exact this _ fun p hp => hp

variable [StarRing S]

/-- `conj` is exact: it is evaluation in the opposite algebra, for every spin. -/
theorem eval_conj_U (hM : HalfAlone M) (h : TextbookCore S M ρ) {a : Expr (Gen ι) S}
    (ha : a.AllCanon (Allowed M)) (h0 : ∀ p ∈ a.terms, p.2 ≠ 0) :
    tw (evalExpr ρ a.conj) = evalExpr (twRep ρ) a := by
  have key : ∀ (l : List (List (Gen ι) × S)) (s : Expr (Gen ι) S × Expr (Gen ι) S), (∀ p ∈ l, CanonMon (Allowed M) p.1) →
      (∀ p ∈ l, p.2 ≠ 0) →
      tw (evalExpr ρ (l.foldl (fun (s : Expr (Gen ι) S × Expr (Gen ι) S) m =>
      let co := star m.2
      let contrib :=
        if co = 0 then s.2
        else m.1.reverse.foldl (fun e g => Expr.mulAssign e (Expr.ofLinFun (GenOps.conj g))) (Expr.const co)
      (Expr.addAssign s.1 contrib, contrib)) s).1)
      = tw (evalExpr ρ s.1) + evalTerms (twRep ρ) l := by
    intro l
    induction l with
    | nil => intro s _ _; simp [evalTerms]
    | cons p l ih =>
      intro s hl h0
      rw [List.foldl_cons, ih _ (fun q hq => hl q (by simp [hq])) fun q hq => h0 q (by simp [hq])]
      have hne : star p.2 ≠ 0 := by rw [star_ne_zero]; exact h0 p (by simp)
      simp only [if_neg hne]
      have hp := hl p (by simp)
      have hmp : ∀ n i, n ≠ 2 → NoMP n i ([] ++ p.1.reverse.map Gen.dag) :=
        fun n i _ => (NoMP.of_chain hp.chain).rev_dag
      have hgd : GoodCnt ([] ++ p.1.reverse.map Gen.dag) := GoodCnt.rev_dag.2 ((canon_iff_good hp.mem hp.chain).1 hp)
      have h1 := conj_loop hM h (star p.2) p.1.reverse [] (Expr.const (star p.2)) (by simp)
        (by simpa using hp.mem) hmp hgd (Expr.ac_const _)
        (by
          intro q hq n i s _ _
          simp only [Expr.const, if_neg hne] at hq
          simp at hq; subst hq; rfl)
        (by rw [Expr.eval_const]; simp [evalMon, Algebra.algebraMap_eq_smul_one])
      have := Expr.eval_add (ρ := ρ) s.1
        (p.1.reverse.foldl (fun e g => Expr.mulAssign e (Expr.ofLinFun (GenOps.conj g))) (Expr.const (star p.2)))
      change evalExpr ρ (Expr.addAssign s.1 _) = _ at this
      rw [this, h1, Expr.evalTerms_cons, evalMon_tw, tw_smul, tw_add, List.nil_append]
      simp only [evalMon, List.map_map, add_assoc]
      rfl
  rw [Expr.conj, key _ _ ha h0]
  simp only [evalExpr, evalTerms, List.map_nil, List.sum_nil, tw_zero, zero_add]

end Emits

section Coefficients
variable {ι S : Type _} [LinearOrder ι] [CommRing S] [DecidableEq S] [ConstScalar S] [ScalarLaws S] [IsDomain S]
  [CharZero S] {M : Nat → ι → Prop}
open Reg

/-- The coefficient in front of a sorted monomial, read off the operator. -/
noncomputable def kap (k : List (Gen ι)) : Module.End S (V ι S) →+ S where
  toFun x := x (delta (stU [])) (stU k).F (stU k).B (stU k).L
  map_zero' := rfl
  map_add' _ _ := rfl

theorem kap_smul (k : List (Gen ι)) (s : S) (x : Module.End S (V ι S)) : kap k (s • x) = s * kap k x := rfl

open Classical in
theorem kap_mon {k m : List (Gen ι)} (hk : ∀ g ∈ k, Allowed M g) (hkc : k.IsChain (OKPair (G := Gen ι)))
    (hm : ∀ g ∈ m, Allowed M g) (hmc : m.IsChain (OKPair (G := Gen ι))) :
    kap k (evalMon (repU (S := S)) m) = if m = k then 1 else 0 := by
  show evalMon (repU (S := S)) m (delta (stU [])) (stU k).F (stU k).B (stU k).L = _
  rw [evalU_delta (canon_U_of_chain hm hmc), delta_apply]
  refine if_congr ⟨fun h => stU_inj (canon_U_of_chain hm hmc) (canon_U_of_chain hk hkc) h, fun h => by rw [h]⟩ rfl rfl

theorem kap_bad {k m : List (Gen ι)} (hk : CanonMon (Allowed M) k)
    (hm : ∀ g ∈ m, Allowed M g) (hmc : m.IsChain (OKPair (G := Gen ι))) (hb : ¬ GoodCnt m) (s : S) :
    kap k (s • evalMon (repU (S := S)) m) = 0 := by
  classical
  rw [kap_smul, kap_mon hk.mem hk.chain hm hmc, if_neg, mul_zero]
  rintro rfl
  exact hb ((canon_iff_good hm hmc).1 hk)

theorem coeff_kap {e : Expr (Gen ι) S} (hw : e.WF) (hc : e.AllCanon (Allowed M)) {k : List (Gen ι)}
    (hk : CanonMon (Allowed M) k) : e.coeff k = kap k (evalExpr (repU (S := S)) e) := by
  rw [← coeff_U]
  exact coeffU_eq (P := Allowed M) ((wf_U e).2 hw) (fun p hp => canon_U_of_chain (hc p hp).mem (hc p hp).chain)
    (canon_U_of_chain hk.mem hk.chain)

theorem ext_kap {a b : Expr (Gen ι) S} (ha : a.WF) (hb : b.WF) (hca : a.AllCanon (Allowed M)) (hcb : b.AllCanon (Allowed M))
    (h : ∀ k, CanonMon (Allowed M) k → kap k (evalExpr (repU (S := S)) a) = kap k (evalExpr (repU (S := S)) b)) :
    a = b := by
  classical
  refine Expr.ext_coeff ha hb fun k => ?_
  by_cases hk : CanonMon (Allowed M) k
  · rw [coeff_kap ha hca hk, coeff_kap hb hcb hk, h k hk]
  · have : ∀ e : Expr (Gen ι) S, e.AllCanon (Allowed M) → e.coeff k = 0 := by
      intro e hc
      simp only [Expr.coeff, Terms.coeff]
      cases hf : e.terms.find? k with
      | none => rfl
      | some v => exact absurd (hc _ (Terms.find?_mem hf)) hk
    rw [this a hca, this b hcb]

/-- Coefficients of a product. -/
theorem kap_mul (hM : HalfAlone M) {a b : Expr (Gen ι) S} (ha : a.InP (Allowed M)) (hb : b.InP (Allowed M))
    {k : List (Gen ι)} (hk : CanonMon (Allowed M) k) :
    kap k (evalExpr (repU (S := S)) (a * b)) = kap k (evalExpr repU a * evalExpr repU b) :=
  drop_mul hM (repU_core M) (kap k) (fun s m hm hmc hb => kap_bad hk hm hmc hb s) ha hb

variable [StarRing S]

/-- The coefficient of a monomial, read off the element of the opposite algebra. -/
noncomputable def kapTw (k : List (Gen ι)) : Tw (Module.End S (V ι S)) →+ S where
  toFun x := kap k (MulOpposite.unop x)
  map_zero' := rfl
  map_add' _ _ := rfl

theorem kapTw_tw (k : List (Gen ι)) (x : Module.End S (V ι S)) : kapTw k (tw x) = kap k x := rfl

theorem kapTw_bad (hM : HalfAlone M) {k m : List (Gen ι)} (hk : CanonMon (Allowed M) k)
    (hm : ∀ g ∈ m, Allowed M g) (hmc : m.IsChain (OKPair (G := Gen ι))) (hb : ¬ GoodCnt m) (s : S) :
    kapTw k (s • evalMon (twRep (repU (S := S))) m) = 0 := by
  rw [evalMon_tw, tw_smul, kapTw_tw]
  have hw : ∀ g ∈ m.reverse.map Gen.dag, Allowed M g := by
    intro g hg
    simp only [List.mem_map, List.mem_reverse] at hg
    obtain ⟨x, hx, rfl⟩ := hg
    have := hm x hx
    cases x <;> exact this
  have e : (m.reverse.map fun g => repU (S := S) g.dag).prod = evalMon repU (m.reverse.map Gen.dag) := by
    simp only [evalMon, List.map_map]; rfl
  rw [e, ← eval_emitsU hM (repU_core M) hw]
  have hmem := emitsU_mem hM hw (star s)
  have hgood := emitsU_good hM hw (star s) fun n i _ => (NoMP.of_chain hmc).rev_dag
  revert hmem hgood
  generalize emitsU (m.reverse.map Gen.dag) (star s) = l
  intro hmem hgood
  induction l with
  | nil => exact (kap k).map_zero
  | cons r l ih =>
    rw [Expr.evalTerms_cons, map_add, ih (fun q hq => hmem q (by simp [hq])) (fun q hq => hgood q (by simp [hq])), add_zero]
    refine kap_bad hk (hmem r (by simp)).1 (hmem r (by simp)).2 ?_ _
    rw [hgood r (by simp), GoodCnt.rev_dag]
    exact hb

theorem kapTw_mul (hM : HalfAlone M) {a b : Expr (Gen ι) S} (ha : a.InP (Allowed M)) (hb : b.InP (Allowed M))
    {k : List (Gen ι)} (hk : CanonMon (Allowed M) k) :
    kapTw k (evalExpr (twRep (repU (S := S))) (a * b))
      = kapTw k (evalExpr (twRep repU) a * evalExpr (twRep repU) b) :=
  drop_mul hM (tw_core (repU_core M)) (kapTw k) (fun s m hm hmc hb => kapTw_bad hM hk hm hmc hb s) ha hb

end Coefficients
end LC
