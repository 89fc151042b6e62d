import Verif.Proof.FaithfulU
/-
The container operations do not depend on `reduce_power`; invariants of normalisation.
-/
set_option linter.unusedSectionVars false
set_option linter.unusedSimpArgs false
set_option linter.unusedVariables false
namespace LC
section Agree
variable {ι S : Type _} [LinearOrder ι] [CommRing S] [DecidableEq S] [ConstScalar S]

theorem monLt_U (m n : List (Gen ι)) : @monLt (Gen ι) (genOpsU ι) m n = monLt m n := rfl

theorem find?_U (k : List (Gen ι)) (t : Terms (Gen ι) S) : @Terms.find? (Gen ι) S (genOpsU ι) k t = t.find? k := by
  induction t with
  | nil => rfl
  | cons p t ih => simp only [Terms.find?, ih, monLt_U]; rfl

theorem emplace_U (k : List (Gen ι)) (v : S) (t : Terms (Gen ι) S) :
    @Terms.emplace (Gen ι) S (genOpsU ι) k v t = t.emplace k v := by
  induction t with
  | nil => rfl
  | cons p t ih => simp only [Terms.emplace, ih, monLt_U]; rfl

theorem assign_U (k : List (Gen ι)) (v : S) (t : Terms (Gen ι) S) :
    @Terms.assign (Gen ι) S (genOpsU ι) k v t = t.assign k v := by
  induction t with
  | nil => rfl
  | cons p t ih => simp only [Terms.assign, ih, monLt_U]; rfl

theorem erase_U (k : List (Gen ι)) (t : Terms (Gen ι) S) :
    @Terms.erase (Gen ι) S (genOpsU ι) k t = t.erase k := by
  induction t with
  | nil => rfl
  | cons p t ih => simp only [Terms.erase, ih, monLt_U]; rfl

theorem store_U (k : List (Gen ι)) (c : S) (t : Terms (Gen ι) S) :
    @Terms.store (Gen ι) S (genOpsU ι) _ _ k c t = t.store k c := by
  simp only [Terms.store, find?_U, emplace_U, assign_U, erase_U]

theorem addAssign_U (a b : Expr (Gen ι) S) :
    @Expr.addAssign (Gen ι) S (genOpsU ι) _ _ a b = Expr.addAssign a b := by
  simp only [Expr.addAssign, find?_U, emplace_U, assign_U, erase_U]

theorem coeff_U (a : Expr (Gen ι) S) (k : List (Gen ι)) : @Expr.coeff (Gen ι) S (genOpsU ι) _ a k = a.coeff k := by
  simp only [Expr.coeff, Terms.coeff, find?_U]

theorem wf_U (a : Expr (Gen ι) S) : @Expr.WF (Gen ι) S (genOpsU ι) _ a ↔ a.WF := Iff.rfl

end Agree

section Invariant
variable {G S T : Type _} [GenOps G] [CommRing S] [DecidableEq S] [ConstScalar S]

/-- A property of monomials that is preserved by every rewriting step. -/
structure Stable (Q : List G → Prop) : Prop where
  swap : ∀ pre x y post, Q (pre ++ x :: y :: post) → GenOps.gt x y = true →
    (GenOps.swapWith x y).1.eq (.integer 0) = false → Q (pre ++ y :: x :: post)
  swap_const : ∀ pre x y post, Q (pre ++ x :: y :: post) → GenOps.gt x y = true →
    (GenOps.swapWith x y).2.const.isZero = false → Q (pre ++ post)
  swap_term : ∀ pre x y post, Q (pre ++ x :: y :: post) → GenOps.gt x y = true →
    ∀ p ∈ (GenOps.swapWith x y).2.terms, Q (pre ++ p.1 :: post)
  simp_const : ∀ pre x y post f, Q (pre ++ x :: y :: post) → GenOps.gt x y = false →
    GenOps.simplifyProd x y = some f → f.const.isZero = false → Q (pre ++ post)
  simp_term : ∀ pre x y post f, Q (pre ++ x :: y :: post) → GenOps.gt x y = false →
    GenOps.simplifyProd x y = some f → ∀ p ∈ f.terms, Q (pre ++ p.1 :: post)

variable {Q : List G → Prop} {I : T → Prop}

theorem processF_stable {N : List G → S → T → T} {L : Nat} (h : ∀ m c t, m.length < L → Q m → I t → I (N m c t))
    (pre post : List G) (hl : pre.length + post.length + 1 < L) (f : LinFun G)
    (hc : f.const.isZero = false → Q (pre ++ post)) (hf : ∀ p ∈ f.terms, Q (pre ++ p.1 :: post))
    (c : S) (t : T) (ht : I t) : I (processF N pre post f c t) := by
  simp only [processF]
  apply foldl_inv
  · intro p hp t ht
    exact h _ _ _ (by simp; omega) (hf p hp) ht
  · split
    · exact ht
    · rename_i h0
      exact h _ _ _ (by simp; omega) (hc (by simpa using h0)) ht

/-- Outcome of a sorting pass. -/
def StableRes (Q : List G → Prop) (I : T → Prop) : PassRes G S T → Prop
  | .done t => I t
  | .cont m _ _ t => Q m ∧ I t

theorem pass_stable (hQ : Stable Q) {N : List G → S → T → T} {L : Nat}
    (h : ∀ m c t, m.length < L → Q m → I t → I (N m c t)) (cnt : Nat) (pre : List G) (x : G) (rest : List G)
    (hl : pre.length + 1 + rest.length ≤ L) (hq : Q (pre ++ x :: rest)) (c : S) (sw : Bool) (t : T) (ht : I t) :
    StableRes Q I (pass N cnt pre x rest c sw t) := by
  induction cnt generalizing pre x rest c sw t with
  | zero => exact ⟨hq, ht⟩
  | succ cnt ih =>
    cases rest with
    | nil => exact ⟨hq, ht⟩
    | cons y rest =>
      simp only [List.length_cons] at hl
      simp only [pass]
      split
      · rename_i hgt
        have ht' := processF_stable h pre rest (by omega) _ (hQ.swap_const pre x y rest hq hgt)
          (hQ.swap_term pre x y rest hq hgt) c t ht
        split
        · exact ht'
        · rename_i h0
          exact ih _ _ _ (by simp; omega) (by simpa using hQ.swap pre x y rest hq hgt (by simpa using h0)) _ _ _ ht'
      · rename_i hgt
        have hgt : GenOps.gt x y = false := by simpa using hgt
        split
        · rename_i f hf
          exact processF_stable h pre rest (by omega) _ (hQ.simp_const pre x y rest f hq hgt hf)
            (hQ.simp_term pre x y rest f hq hgt hf) c t ht
        · exact ih _ _ _ (by simp; omega) (by simpa using hq) _ _ _ ht

theorem sortLoop_stable (hQ : Stable Q) {N : List G → S → T → T} {L : Nat}
    (h : ∀ m c t, m.length < L → Q m → I t → I (N m c t)) (n : Nat) (m : List G) (hl : m.length ≤ L) (hq : Q m)
    (c : S) (t : T) (ht : I t) : StableRes Q I (sortLoop N n m c t) := by
  induction n generalizing m c t with
  | zero =>
    cases m with
    | nil => exact ⟨hq, ht⟩
    | cons x rest =>
      have := pass_stable hQ h 0 [] x rest (by simp at hl ⊢; omega) hq c false t ht
      simp only [sortLoop]
      cases hp : pass N 0 [] x rest c false t with
      | done t' => rw [hp] at this; exact this
      | cont m' c' sw t' => rw [hp] at this; cases sw <;> exact this
  | succ n ih =>
    cases m with
    | nil => exact ⟨hq, ht⟩
    | cons x rest =>
      have := pass_stable hQ h (n + 1) [] x rest (by simp at hl ⊢; omega) hq c false t ht
      simp only [sortLoop]
      cases hp : pass N (n + 1) [] x rest c false t with
      | done t' => rw [hp] at this; exact this
      | cont m' c' sw t' =>
        rw [hp] at this
        cases sw
        · exact this
        · exact ih m' (by rw [pass_length _ _ _ _ _ _ _ hp]; simp at hl ⊢; omega) this.1 c' t' this.2

theorem normalize_stable (hQ : Stable Q) (st : List G → S → T → T)
    (hR : ∀ m c t, Q m → I t → I (reduce st m c t)) (L : Nat) :
    ∀ (m : List G) (c : S) (t : T), m.length < L → Q m → I t → I (normalize st m c t) := by
  induction L with
  | zero => intro m c t h; omega
  | succ L ih =>
    intro m c t hl hq ht
    rw [normalize_eq]
    simp only [normStep]
    split
    · have := sortLoop_stable hQ ih (m.length - 1) m (by omega) hq c t ht
      cases hp : sortLoop (normalize st) (m.length - 1) m c t with
      | done t' => rw [hp] at this; exact this
      | cont m' c' sw t' =>
        rw [hp] at this
        simp only
        split
        · exact this.2
        · exact hR _ _ _ this.1 this.2
    · exact hR _ _ _ hq ht

end Invariant

section
variable {ι S : Type _} [LinearOrder ι] [CommRing S] [DecidableEq S] [ConstScalar S]

/-- Without power reduction every stored monomial has the stable property. -/
theorem emitsU_stable {Q : List (Gen ι) → Prop} (hQ : @Stable (Gen ι) (genOpsU ι) Q) (m : List (Gen ι)) (c : S) (hq : Q m) :
    ∀ p ∈ @emits (Gen ι) S (genOpsU ι) _ _ _ m c, Q p.1 :=
  @normalize_stable (Gen ι) S _ (genOpsU ι) _ _ _ Q (fun l : List (List (Gen ι) × S) => ∀ p ∈ l, Q p.1) hQ
    (@logStore (Gen ι) S)
    (by
      intro m c t hq ht
      rw [@reduce_eq _ _ _ (genOpsU ι), reduceStep_U]
      intro p hp
      rcases List.mem_append.1 hp with h | h
      · exact ht p h
      · simp at h; rw [h]; exact hq) (m.length + 1) m c [] (by omega) hq (by simp)

/-- Is the generator a ladder operator of the spin `n` at the index `i`? -/
def isLadder (n : Nat) (i : ι) : Gen ι → Bool
  | .spin m c j => m == n && c != .z && decide (j = i)
  | _ => false

/-- The ladder operators of one spin, in the order in which they stand in the monomial: first `p` operators `S_+`, then
`q` operators `S_-`. -/
def Ladders (n : Nat) (i : ι) (p q : Nat) (m : List (Gen ι)) : Prop :=
  m.filter (isLadder n i) = List.replicate p (.spin n .plus i) ++ List.replicate q (.spin n .minus i)

theorem Ladders.count_plus {n : Nat} {i : ι} {p q : Nat} {m : List (Gen ι)} (h : Ladders n i p q m) :
    m.count (.spin n .plus i) = p := by
  rw [← List.count_filter (p := isLadder n i) (by simp [isLadder]), h]
  simp [List.count_append, List.count_replicate]

theorem Ladders.count_minus {n : Nat} {i : ι} {p q : Nat} {m : List (Gen ι)} (h : Ladders n i p q m) :
    m.count (.spin n .minus i) = q := by
  rw [← List.count_filter (p := isLadder n i) (by simp [isLadder]), h]
  simp [List.count_append, List.count_replicate]

/-- No `S_-` stands to the left of an `S_+`. -/
theorem Ladders.not_mp {n : Nat} {i : ι} {p q : Nat} {a b : List (Gen ι)}
    (h : Ladders n i p q (a ++ .spin n .minus i :: .spin n .plus i :: b)) : False := by
  have hp : (List.replicate p (Gen.spin n .plus i) ++ List.replicate q (Gen.spin n .minus i)).Pairwise
      fun x y => ¬ (x = Gen.spin n .minus i ∧ y = Gen.spin n .plus i) := by
    rw [List.pairwise_append]
    refine ⟨?_, ?_, ?_⟩
    · exact List.pairwise_replicate.2 (Or.inr (by simp))
    · exact List.pairwise_replicate.2 (Or.inr (by simp))
    · intro x hx y hy
      rw [List.eq_of_mem_replicate hx]; simp
  rw [Ladders] at h
  rw [← h] at hp
  simp [isLadder, List.pairwise_append] at hp

/-- The two factors keep the ladder operators of the spin. -/
theorem ladders_pair {n : Nat} {i : ι} (hn : n ≠ 2) {x y : Gen ι} (hgt : Gen.gtOp x y = true)
    (hmp : ¬ (x = .spin n .minus i ∧ y = .spin n .plus i)) :
    [y, x].filter (isLadder n i) = [x, y].filter (isLadder n i) ∧
    ((Gen.swapWith x y).2.const.isZero = false → [x, y].filter (isLadder n i) = []) ∧
    ∀ p ∈ (Gen.swapWith x y).2.terms, [p.1].filter (isLadder n i) = [x, y].filter (isLadder n i) := by
  cases x with
  | fermion d k => cases y <;> simp [isLadder, Gen.swapWith, VarNumber.isZero, List.filter_cons]
  | boson d k => cases y <;> simp [isLadder, Gen.swapWith, VarNumber.isZero, List.filter_cons]
  | spin m c k =>
    cases y with
    | fermion d l => simp [isLadder, Gen.swapWith, VarNumber.isZero, List.filter_cons]
    | boson d l => simp [isLadder, Gen.swapWith, VarNumber.isZero, List.filter_cons]
    | spin m' e l =>
      by_cases hs : k = l ∧ m = m'
      · obtain ⟨rfl, rfl⟩ := hs
        by_cases h2 : m = 2
        · subst h2
          have : ∀ (c : SpinComp) (j : ι), isLadder n i (.spin 2 c j) = false := by
            intro c j; simp [isLadder, Ne.symm hn]
          refine ⟨by simp [this], by simp [this], ?_⟩
          intro p hp
          have hp' : ∃ c j, p.1 = Gen.spin 2 c j := by
            simp only [Gen.swapWith, and_self, if_true, Gen.swapSpinHalf] at hp
            split at hp
            · split at hp <;> (simp at hp; subst hp; exact ⟨_, _, rfl⟩)
            · simp at hp; subst hp; exact ⟨_, _, rfl⟩
          obtain ⟨c', j', hp'⟩ := hp'
          simp [hp', this]
        · by_cases hsite : m = n ∧ k = i
          · obtain ⟨rfl, rfl⟩ := hsite
            cases c <;> cases e <;>
              simp [Gen.gtOp, Gen.algebraId, Gen.greater, SpinComp.toNat, isLadder, List.filter_cons, Gen.swapWith, h2, Gen.swapHigherSpin,
                VarNumber.isZero] at hgt hmp ⊢
          · have : ∀ c : SpinComp, isLadder n i (.spin m c k) = false := by
              intro c; simp only [isLadder]; by_contra hh; apply hsite; simp at hh; tauto
            refine ⟨by simp [this], by simp [this], ?_⟩
            intro p hp
            have hp' : ∃ c, p.1 = Gen.spin m c k := by
              simp only [Gen.swapWith, and_self, if_true, Gen.swapHigherSpin, h2, if_false] at hp
              split at hp
              · split at hp <;> (simp at hp; subst hp; exact ⟨_, rfl⟩)
              · simp at hp; subst hp; exact ⟨_, rfl⟩
            obtain ⟨c', hp'⟩ := hp'
            simp [hp', this]
      · have hs' : ¬ (isLadder n i (.spin m c k) = true ∧ isLadder n i (.spin m' e l) = true) := by
          simp only [isLadder]
          rintro ⟨h1, h2⟩
          simp at h1 h2
          exact hs ⟨h1.2.trans h2.2.symm, h1.1.1.trans h2.1.1.symm⟩
        refine ⟨?_, ?_, ?_⟩
        · rcases h1 : isLadder n i (.spin m c k) <;> rcases h2 : isLadder n i (.spin m' e l) <;> simp_all
        · simp [Gen.swapWith, hs, VarNumber.isZero]
        · simp [Gen.swapWith, hs, VarNumber.isZero]

theorem ladders_simp {n : Nat} {i : ι} (hn : n ≠ 2) {M : Nat → ι → Prop} (hM : HalfAlone M) {x y : Gen ι} (hx : Allowed M x)
    (hy : Allowed M y) {f : LinFun (Gen ι)} (hf : Gen.simplifyProd x y = some f) :
    (f.const.isZero = false → [x, y].filter (isLadder n i) = []) ∧
    ∀ p ∈ f.terms, [p.1].filter (isLadder n i) = [x, y].filter (isLadder n i) := by
  cases x with
  | fermion d k => cases y <;> simp [isLadder, Gen.simplifyProd] at hf ⊢; simp [← hf.2]
  | boson d k => cases y <;> simp [isLadder, Gen.simplifyProd] at hf ⊢
  | spin m c k =>
    cases y with
    | fermion d l => simp [Gen.simplifyProd] at hf
    | boson d l => simp [Gen.simplifyProd] at hf
    | spin m' e l =>
      by_cases hs : k = l ∧ m = 2
      · obtain ⟨rfl, rfl⟩ := hs
        have := hM k m' hx hy
        subst this
        have : ∀ (c : SpinComp) (j : ι), isLadder n i (.spin 2 c j) = false := by
          intro c j; simp [isLadder, Ne.symm hn]
        refine ⟨by simp [this], ?_⟩
        intro p hp
        have hp' : ∃ c j, p.1 = Gen.spin 2 c j := by
          simp only [Gen.simplifyProd, not_true_eq_false, ne_eq, or_self, if_false] at hf
          split at hf
          · simp at hf; subst hf; simp at hp
          · split at hf
            · split at hf <;> (simp at hf; subst hf; simp at hp; subst hp; exact ⟨_, _, rfl⟩)
            · simp at hf; subst hf; simp at hp; subst hp; exact ⟨_, _, rfl⟩
        obtain ⟨c', j', hp'⟩ := hp'
        simp [hp', this]
      · have : ¬ k = l ∨ m ≠ 2 := by tauto
        simp [Gen.simplifyProd, this] at hf

theorem ladders_stable {M : Nat → ι → Prop} (hM : HalfAlone M) (n : Nat) (i : ι) (hn : n ≠ 2) (p q : Nat) :
    @Stable (Gen ι) (genOpsU ι) fun m => (∀ g ∈ m, Allowed M g) ∧ Ladders n i p q m := by
  have N := nfGen M hM
  have split2 : ∀ (pre post : List (Gen ι)) (x y : Gen ι), (pre ++ x :: y :: post).filter (isLadder n i)
      = pre.filter (isLadder n i) ++ [x, y].filter (isLadder n i) ++ post.filter (isLadder n i) := by
    intro pre post x y
    rw [show pre ++ x :: y :: post = pre ++ [x, y] ++ post by simp, List.filter_append, List.filter_append]
  have split1 : ∀ (pre post : List (Gen ι)) (x : Gen ι), (pre ++ x :: post).filter (isLadder n i)
      = pre.filter (isLadder n i) ++ [x].filter (isLadder n i) ++ post.filter (isLadder n i) := by
    intro pre post x
    rw [show pre ++ x :: post = pre ++ [x] ++ post by simp, List.filter_append, List.filter_append]
  have hmp : ∀ (pre post : List (Gen ι)) (x y : Gen ι), Ladders n i p q (pre ++ x :: y :: post) →
      ¬ (x = .spin n .minus i ∧ y = .spin n .plus i) := by
    rintro pre post x y h ⟨rfl, rfl⟩
    exact h.not_mp
  refine @Stable.mk _ (genOpsU ι) _ ?_ ?_ ?_ ?_ ?_
  · intro pre x y post h hgt _
    refine ⟨fun g hg => h.1 g (by simp at hg ⊢; tauto), ?_⟩
    have := (ladders_pair hn hgt (hmp _ _ _ _ h.2)).1
    rw [Ladders, split2, this, ← split2]; exact h.2
  · intro pre x y post h hgt h0
    refine ⟨fun g hg => h.1 g (by simp at hg ⊢; tauto), ?_⟩
    have := (ladders_pair hn hgt (hmp _ _ _ _ h.2)).2.1 h0
    have h2 := h.2
    rw [Ladders, split2, this] at h2
    rw [Ladders, List.filter_append, ← h2]; simp
  · intro pre x y post h hgt r hr
    refine ⟨?_, ?_⟩
    · intro g hg
      have := N.swap_mem x y (h.1 x (by simp)) (h.1 y (by simp)) hgt r hr
      simp only [List.mem_append, List.mem_cons] at hg
      rcases hg with hg | rfl | hg
      · exact h.1 g (by simp [hg])
      · exact this
      · exact h.1 g (by simp [hg])
    · have := (ladders_pair hn hgt (hmp _ _ _ _ h.2)).2.2 r hr
      rw [Ladders, split1, this, ← split2]; exact h.2
  · intro pre x y post f h hgt hf h0
    refine ⟨fun g hg => h.1 g (by simp at hg ⊢; tauto), ?_⟩
    have := (ladders_simp (i := i) hn hM (h.1 x (by simp)) (h.1 y (by simp)) hf).1 h0
    have h2 := h.2
    rw [Ladders, split2, this] at h2
    rw [Ladders, List.filter_append, ← h2]; simp
  · intro pre x y post f h hgt hf r hr
    refine ⟨?_, ?_⟩
    · intro g hg
      have := N.simp_mem x y f (h.1 x (by simp)) (h.1 y (by simp)) hgt hf r hr
      simp only [List.mem_append, List.mem_cons] at hg
      rcases hg with hg | rfl | hg
      · exact h.1 g (by simp [hg])
      · exact this
      · exact h.1 g (by simp [hg])
    · have := (ladders_simp (i := i) hn hM (h.1 x (by simp)) (h.1 y (by simp)) hf).2 r hr
      rw [Ladders, split1, this, ← split2]; exact h.2

end
end LC
