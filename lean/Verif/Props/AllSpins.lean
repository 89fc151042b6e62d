import Verif.Proof.LowPower
import Verif.Proof.LOpReach
/-
C17 and C16 (for expressions) with spins of any multiplicity; C11 for products of low degree.
-/
set_option linter.unusedSectionVars false
set_option linter.unusedSimpArgs false
namespace LC
open Expr Terms Factory Reg
universe u v
variable {ι : Type u} {S : Type v} [LinearOrder ι] [CommRing S] [DecidableEq S] [ConstScalar S] [ScalarLaws S] [IsDomain S]
  [CharZero S] {M : Nat → ι → Prop}

section
variable [Star S] {a b c : Expr (Gen ι) S}

theorem Reachable.wfA (h : Reachable (Allowed M) a) : a.WF := h.wf (conjOK (fun _ _ => True)).good
theorem Reachable.canonA (hM : HalfAlone M) (h : Reachable (Allowed M) a) : a.AllCanon (Allowed M) :=
  h.allCanon (nfGen M hM) (conjOK M)

/-- **C16** for expressions with spins of any multiplicity: two expressions that act on different modes commute, unless
both contain fermions. -/
theorem C16_expressions_commute_all_spins (hM : HalfAlone M) {Q₁ Q₂ : Mode ι → Prop}
    (ha : Reachable (fun g => Allowed M g ∧ Q₁ g.mode) a) (hb : Reachable (fun g => Allowed M g ∧ Q₂ g.mode) b)
    (hQ : ∀ x y, Q₁ x → Q₂ y → x ≠ y ∧ ¬ ((∃ i, x = .fermion i) ∧ ∃ j, y = .fermion j)) :
    (a * b).eqOp (b * a) = true := by
  rw [eqOp_iff]
  have hca : a.AllCanon (AllowedOn M Q₁) := ha.allCanon (nfGen_on hM) conjOK_on
  have hcb : b.AllCanon (AllowedOn M Q₂) := hb.allCanon (nfGen_on hM) conjOK_on
  have up : ∀ {Q : Mode ι → Prop} {e : Expr (Gen ι) S}, e.AllCanon (AllowedOn M Q) → e.AllCanon (Allowed M) := by
    intro Q e h p hp
    exact ⟨fun g hg => ((h p hp).mem g hg).1, (h p hp).chain, (h p hp).pow⟩
  have hA := up hca
  have hB := up hcb
  have hwa : a.WF := ha.wf (conjOK (fun _ _ => True)).good
  have hwb : b.WF := hb.wf (conjOK (fun _ _ => True)).good
  refine ext_kap (M := M) (wf_mul hwa hwb) (wf_mul hwb hwa) (ac_mul (nfGen M hM) hA hB) (ac_mul (nfGen M hM) hB hA) ?_
  intro k hk
  rw [kap_mul hM hA.inP hB.inP hk, kap_mul hM hB.inP hA.inP hk]
  congr 1
  have T := repU_core (ι := ι) (S := S) M
  have gen : ∀ g h : Gen ι, AllowedOn M Q₁ g → AllowedOn M Q₂ h →
      Commute (repU (S := S) g) (repU (S := S) h) := by
    intro g h hg hh
    have hq := hQ _ _ hg.2 hh.2
    cases g with
    | fermion d i =>
      cases h with
      | fermion e j => exact absurd ⟨⟨i, rfl⟩, ⟨j, rfl⟩⟩ hq.2
      | boson e j => exact T.comm_fb d i e j
      | spin n s j => exact T.comm_fs d i n s j hh.1
    | boson d i =>
      cases h with
      | fermion e j => exact (T.comm_fb e j d i).symm
      | boson e j =>
        have hij : i ≠ j := by rintro rfl; exact hq.1 rfl
        by_cases hde : d = e
        · subst hde; exact T.ccr_same d i j
        · cases d <;> cases e <;> first | exact absurd rfl hde | skip
          · have := T.ccr i j
            rw [if_neg hij] at this
            exact sub_eq_zero.1 this
          · have := T.ccr j i
            rw [if_neg (Ne.symm hij)] at this
            exact (sub_eq_zero.1 this).symm
      | spin n s j => exact T.comm_bs d i n s j hh.1
    | spin n s i =>
      cases h with
      | fermion e j => exact (T.comm_fs e j n s i hg.1).symm
      | boson e j => exact (T.comm_bs e j n s i hg.1).symm
      | spin n' s' j =>
        refine T.spin_comm n s i n' s' j hg.1 hh.1 ?_
        by_contra hcon
        push Not at hcon
        obtain ⟨rfl, rfl⟩ := hcon
        exact hq.1 rfl
  have mon : ∀ m m' : List (Gen ι), (∀ g ∈ m, AllowedOn M Q₁ g) → (∀ g ∈ m', AllowedOn M Q₂ g) →
      Commute (evalMon (repU (S := S)) m) (evalMon (repU (S := S)) m') := by
    intro m m' hm hm'
    refine Commute.list_prod_left _ _ ?_
    intro x hx
    refine Commute.list_prod_right _ _ ?_
    intro y hy
    simp only [List.mem_map] at hx hy
    obtain ⟨g, hg, rfl⟩ := hx
    obtain ⟨h, hh, rfl⟩ := hy
    exact gen g h (hm g hg) (hm' h hh)
  refine Commute.list_sum_left _ _ ?_
  intro x hx
  refine Commute.list_sum_right _ _ ?_
  intro y hy
  simp only [List.mem_map] at hx hy
  obtain ⟨p, hp, rfl⟩ := hx
  obtain ⟨q, hq, rfl⟩ := hy
  exact ((mon p.1 q.1 (hca p hp).mem (hcb q hq).mem).smul_left _).smul_right _

/-- The number of times `S_+` or `S_-` (component `s`) of the spin `n` at the index `i` occurs in a monomial. -/
def ladderPower (n : Nat) (s : SpinComp) (i : ι) (m : List (Gen ι)) : Nat := m.count (.spin n s i)

/-- **C11** with spins of any multiplicity: products are associative when the ladder operators in the three factors are
together too few for a power to be removed (the multiplicity, but at least 3). -/
theorem C11_mul_assoc_low_powers (hM : HalfAlone M) (ha : Reachable (Allowed M) a) (hb : Reachable (Allowed M) b)
    (hc : Reachable (Allowed M) c)
    (hlow : ∀ p ∈ a.terms, ∀ q ∈ b.terms, ∀ r ∈ c.terms, ∀ n s i, n ≠ 2 → s ≠ SpinComp.z →
      ladderPower n s i p.1 + ladderPower n s i q.1 + ladderPower n s i r.1 < max n 3) :
    ((a * b) * c).eqOp (a * (b * c)) = true := by
  rw [eqOp_iff]
  by_cases hea : a.terms = []
  · have h1 : a = 0 := Expr.ext hea
    subst h1
    have z : ∀ e : Expr (Gen ι) S, (0 : Expr (Gen ι) S) * e = 0 := fun e => by rw [mul_def]; rfl
    rw [z, z, z]
  by_cases hec : c.terms = []
  · have h1 : c = 0 := Expr.ext hec
    subst h1
    have z : ∀ e : Expr (Gen ι) S, e * (0 : Expr (Gen ι) S) = 0 := fun e => by
      rw [mul_def]
      have : mulLog e.terms (0 : Expr (Gen ι) S).terms = [] := by
        rw [show (0 : Expr (Gen ι) S).terms = [] from rfl]
        simp [mulLog]
      rw [this]; rfl
    rw [z, z, z]
  obtain ⟨p₀, hp₀⟩ := List.exists_mem_of_ne_nil _ hea
  obtain ⟨r₀, hr₀⟩ := List.exists_mem_of_ne_nil _ hec
  have iA := (ha.canonA hM).inP
  have iB := (hb.canonA hM).inP
  have iC := (hc.canonA hM).inP
  have iAB := ((ha.mul hb).canonA hM).inP
  have iBC := ((hb.mul hc).canonA hM).inP
  have T := repU_core (ι := ι) (S := S) M
  have good : ∀ m : List (Gen ι), (∀ n s i, n ≠ 2 → s ≠ SpinComp.z → ladderPower n s i m < max n 3) → GoodCnt m := by
    intro m h n i s hn hs p hp hle hnp
    have := h n s i hn hs
    simp only [ladderPower] at this
    omega
  have L : ∀ n s i (x y : List (Gen ι)), ladderPower n s i (x ++ y) = ladderPower n s i x + ladderPower n s i y :=
    fun n s i x y => List.count_append
  have hwl := ((ha.mul hb).mul hc)
  have hwr := (ha.mul (hb.mul hc))
  refine ext_kap hwl.wfA hwr.wfA (hwl.canonA hM) (hwr.canonA hM) ?_
  intro k _
  congr 1
  rw [eval_mul_good hM T iAB iC, eval_mul_good hM T iA iB, eval_mul_good hM T iA iBC, eval_mul_good hM T iB iC, mul_assoc]
  · intro q hq r hr
    refine good _ fun n s i hn hs => ?_
    have := hlow p₀ hp₀ q hq r hr n s i hn hs
    rw [L]; omega
  · intro p hp x hx
    obtain ⟨q, hq, r, hr, hle⟩ := mul_count_le hM iB iC x hx
    refine good _ fun n s i hn hs => ?_
    have h1 := hlow p hp q hq r hr n s i hn hs
    have h2 := hle n i s hn hs
    rw [L]; simp only [ladderPower] at h1 ⊢; omega
  · intro p hp q hq
    refine good _ fun n s i hn hs => ?_
    have := hlow p hp q hq r₀ hr₀ n s i hn hs
    rw [L]; omega
  · intro x hx r hr
    obtain ⟨p, hp, q, hq, hle⟩ := mul_count_le hM iA iB x hx
    refine good _ fun n s i hn hs => ?_
    have h1 := hlow p hp q hq r hr n s i hn hs
    have h2 := hle n i s hn hs
    rw [L]; simp only [ladderPower] at h1 ⊢; omega

end

section Conj
variable [StarRing S] {a b : Expr (Gen ι) S}

theorem tw_conjA (hM : HalfAlone M) {e : Expr (Gen ι) S} (he : Reachable (Allowed M) e) :
    tw (evalExpr (repU (S := S)) e.conj) = evalExpr (twRep (repU (S := S))) e :=
  eval_conj_U hM (repU_core M) (he.canonA hM) he.wfA.2

theorem extA (hM : HalfAlone M) (ha : Reachable (Allowed M) a) (hb : Reachable (Allowed M) b)
    (h : evalExpr (repU (S := S)) a = evalExpr (repU (S := S)) b) : a = b :=
  ext_kap ha.wfA hb.wfA (ha.canonA hM) (hb.canonA hM) fun k _ => by rw [h]

theorem twRep_twRep_mon (m : List (Gen ι)) :
    (m.reverse.map fun g => twRep (repU (S := S)) g.dag).prod = tw (evalMon repU m) := by
  induction m with
  | nil => rfl
  | cons g m ih =>
    rw [List.reverse_cons, List.map_append, List.prod_append, ih]
    have h1 : (List.map (fun g => twRep (repU (S := S)) g.dag) [g]).prod = tw (repU g) := by
      simp [twRep, Gen.dag_dag]
    rw [h1, ← tw_mul]
    simp [evalMon]

theorem conj_conjA (hM : HalfAlone M) (ha : Reachable (Allowed M) a) :
    evalExpr (repU (S := S)) a.conj.conj = evalExpr (repU (S := S)) a := by
  apply tw_inj
  rw [tw_conjA hM (.conj ha)]
  -- evaluate `conj a` in the opposite algebra
  have h := eval_conj_U hM (tw_core (repU_core (ι := ι) (S := S) M)) (ha.canonA hM) ha.wfA.2
  have h2 : evalExpr (twRep (twRep (repU (S := S)))) a = tw (tw (evalExpr repU a)) := by
    simp only [evalExpr, evalTerms]
    induction a.terms with
    | nil => rfl
    | cons p t ih =>
      simp only [List.map_cons, List.sum_cons]
      rw [ih, evalMon_tw, twRep_twRep_mon, tw_smul, tw_smul, star_star]
      rfl
  rw [h2] at h
  exact tw_inj h

/-- **C17** Hermitian conjugation is involutive, additive, antilinear and reverses products, for spins of any
multiplicity. -/
theorem C17_conj_all_spins (hM : HalfAlone M) (x : S) (ha : Reachable (Allowed M) a) (hb : Reachable (Allowed M) b) :
    a.conj.conj.eqOp a = true ∧ (a + b).conj.eqOp (a.conj + b.conj) = true ∧
    (x • a).conj.eqOp (star x • a.conj) = true ∧ (a * b).conj.eqOp (b.conj * a.conj) = true ∧
    (Expr.const x : Expr (Gen ι) S).conj.eqOp (Expr.const (star x)) = true := by
  simp only [eqOp_iff]
  refine ⟨?_, ?_, ?_, ?_, ?_⟩
  · exact extA hM (.conj (.conj ha)) ha (conj_conjA hM ha)
  · refine extA hM (.conj (ha.add hb)) (.add (.conj ha) (.conj hb)) (tw_inj ?_)
    rw [tw_conjA hM (ha.add hb), eval_add, eval_add, tw_add, tw_conjA hM ha, tw_conjA hM hb]
  · have hx : Reachable (Allowed M) (x • a) := Reachable.smulPrefix x ha
    have hy : Reachable (Allowed M) (star x • a.conj) := Reachable.smulPrefix _ (.conj ha)
    refine extA hM (.conj hx) hy (tw_inj ?_)
    rw [tw_conjA hM hx]
    simp only [smul_def]
    rw [eval_smul, eval_smul, ← tw_conjA hM ha, tw_smul]
  · have hl : Reachable (Allowed M) (a * b).conj := .conj (ha.mul hb)
    have hr : Reachable (Allowed M) (b.conj * a.conj) := .mul (.conj hb) (.conj ha)
    refine ext_kap hl.wfA hr.wfA (hl.canonA hM) (hr.canonA hM) ?_
    intro k hk
    have iA := (ha.canonA hM).inP
    have iB := (hb.canonA hM).inP
    have iA' := (ha.conj.canonA hM).inP
    have iB' := (hb.conj.canonA hM).inP
    rw [kap_mul hM iB' iA' hk, ← kapTw_tw, tw_conjA hM (ha.mul hb), kapTw_mul hM iA iB hk, ← tw_conjA hM ha,
      ← tw_conjA hM hb, ← tw_mul, kapTw_tw]
  · refine extA (M := M) hM (.conj (.const x)) (.const _) (tw_inj ?_)
    rw [tw_conjA (M := M) hM (.const x), eval_const, eval_const]
    rfl

/-- **C17** `e + hc` is Hermitian and `e - hc` anti-Hermitian, for spins of any multiplicity. -/
theorem C17_hc_all_spins (hM : HalfAlone M) (ha : Reachable (Allowed M) a) :
    a.plusHc.conj.eqOp a.plusHc = true ∧ a.minusHc.conj.eqOp (-a.minusHc) = true := by
  have h1 : evalExpr (twRep (repU (S := S))) a.conj = tw (evalExpr (repU (S := S)) a) := by
    rw [← tw_conjA hM (.conj ha), conj_conjA hM ha]
  simp only [eqOp_iff, plusHc, minusHc]
  constructor
  · refine extA hM (.conj (ha.add (.conj ha))) (ha.add (.conj ha)) (tw_inj ?_)
    rw [tw_conjA hM (ha.add (.conj ha)), eval_add, eval_add, tw_add, h1, tw_conjA hM ha, add_comm]
  · refine extA hM (.conj (ha.sub (.conj ha))) (.neg (ha.sub (.conj ha))) (tw_inj ?_)
    rw [tw_conjA hM (ha.sub (.conj ha)), eval_sub, eval_neg, eval_sub, neg_sub, tw_sub, h1, tw_conjA hM ha]

end Conj

/-- Spins of all multiplicities at every index, except that spins-1/2 live at index 0 only. -/
def manySpins (n : Nat) (i : Nat) : Prop := n = 2 ↔ i = 0

theorem manySpins_alone : HalfAlone manySpins := by
  intro i n h h'
  exact h'.2 (h.1 rfl)

example : Reachable (Allowed manySpins) ((2 : ℚ) • (spin 3 .plus (1 : Nat) * spin 3 .minus 1 * cDag 2)
    + spin 5 .z 1 * spin 2 .plus 0 : Expr (Gen Nat) ℚ) :=
  .add (.smulPrefix _ (.mul (.mul (.ofMonomial _ _ (by simp [Allowed, manySpins])) (.ofMonomial _ _ (by simp [Allowed, manySpins])))
    (.ofMonomial _ _ (by simp [Allowed])))) (.mul (.ofMonomial _ _ (by simp [Allowed, manySpins]))
      (.ofMonomial _ _ (by simp [Allowed, manySpins])))

/-- The conjugate of `S_+ S_-^2` for spin 3/2, computed. -/
example : ((spin 4 .plus (0 : Nat) : Expr _ ℚ) * spin 4 .minus 0 * spin 4 .minus 0).conj.eqOp
    (spin 4 .plus 0 * spin 4 .plus 0 * spin 4 .minus 0) = true := by decide +kernel

/-- The hypothesis of C11_mul_assoc_low_powers for three spin-3/2 operators. -/
example : ∀ p ∈ (spin 4 .plus (0 : Nat) : Expr _ ℚ).terms, ∀ q ∈ (spin 4 .minus 0 : Expr _ ℚ).terms,
    ∀ r ∈ (spin 4 .plus 0 : Expr _ ℚ).terms, ∀ n s i, n ≠ 2 → s ≠ SpinComp.z →
      ladderPower n s i p.1 + ladderPower n s i q.1 + ladderPower n s i r.1 < max n 3 := by
  have h : ∀ s : SpinComp, (spin 4 s (0 : Nat) : Expr _ ℚ).terms = [([.spin 4 s 0], 1)] :=
    fun s => ofMonomial_single_terms _
  simp only [h, List.mem_singleton]
  rintro p rfl q rfl r rfl n s i hn hs
  simp only [ladderPower, List.count_cons, List.count_nil]
  cases s <;> simp <;> split_ifs <;> omega

end LC
