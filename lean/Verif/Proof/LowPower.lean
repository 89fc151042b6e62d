import Verif.Proof.ConjAll
/-
Products in which no ladder power reaches its multiplicity.
-/
set_option linter.unusedSectionVars false
set_option linter.unusedSimpArgs false
set_option linter.unusedVariables false
namespace LC
open Terms
section
variable {ι : Type _} [LinearOrder ι]

theorem count_pair {n : Nat} {i : ι} (hn : n ≠ 2) {s : SpinComp} (hs : s ≠ .z) {x y : Gen ι} :
    ∀ p ∈ (Gen.swapWith x y).2.terms, [p.1].count (.spin n s i) ≤ [x, y].count (.spin n s i) := by
  cases x with
  | fermion d k => cases y <;> simp [Gen.swapWith]
  | boson d k => cases y <;> simp [Gen.swapWith]
  | spin m c k =>
    cases y with
    | fermion d l => simp [Gen.swapWith]
    | boson d l => simp [Gen.swapWith]
    | spin m' e l =>
      by_cases hc : k = l ∧ m = m'
      · obtain ⟨rfl, rfl⟩ := hc
        by_cases h2 : m = 2
        · subst h2
          intro p hp
          have : [p.1].count (Gen.spin n s i) = 0 := by
            have hp' : ∃ c j, p.1 = Gen.spin 2 c j := by
              simp only [Gen.swapWith, and_self, if_true, Gen.swapSpinHalf] at hp
              split at hp
              · split at hp <;> (simp at hp; subst hp; exact ⟨_, _, rfl⟩)
              · simp at hp; subst hp; exact ⟨_, _, rfl⟩
            obtain ⟨c', j', hp'⟩ := hp'
            rw [hp', List.count_cons_of_ne (by simp [Ne.symm hn])]; rfl
          omega
        · intro p hp
          simp only [Gen.swapWith, and_self, if_true, Gen.swapHigherSpin, h2, if_false] at hp
          split at hp
          · split at hp <;> (simp at hp; subst hp; simp [List.count_cons])
          · simp at hp; subst hp
            rw [List.count_cons_of_ne (by simp [Ne.symm hs])]; simp
      · simp [Gen.swapWith, hc]

theorem count_simp {n : Nat} {i : ι} (hn : n ≠ 2) {s : SpinComp} {M : Nat → ι → Prop} (hM : HalfAlone M)
    {x y : Gen ι} (hx : Allowed M x) (hy : Allowed M y) {f : LinFun (Gen ι)} (hf : Gen.simplifyProd x y = some f) :
    ∀ p ∈ f.terms, [p.1].count (.spin n s i) ≤ [x, y].count (.spin n s i) := by
  cases x with
  | fermion d k => cases y <;> simp [Gen.simplifyProd] at hf ⊢; simp [← hf.2]
  | boson d k => cases y <;> simp [Gen.simplifyProd] at hf ⊢
  | spin m c k =>
    cases y with
    | fermion d l => simp [Gen.simplifyProd] at hf
    | boson d l => simp [Gen.simplifyProd] at hf
    | spin m' e l =>
      by_cases hc : k = l ∧ m = 2
      · obtain ⟨rfl, rfl⟩ := hc
        have := hM k m' hx hy
        subst this
        intro p hp
        have hp' : ∃ c j, p.1 = Gen.spin 2 c j := by
          simp only [Gen.simplifyProd, not_true_eq_false, ne_eq, or_self, if_false] at hf
          split at hf
          · simp at hf; subst hf; simp at hp
          · split at hf
            · split at hf <;> (simp at hf; subst hf; simp at hp; subst hp; exact ⟨_, _, rfl⟩)
            · simp at hf; subst hf; simp at hp; subst hp; exact ⟨_, _, rfl⟩
        obtain ⟨c', j', hp'⟩ := hp'
        rw [hp', List.count_cons_of_ne (by simp [Ne.symm hn])]; simp
      · have : ¬ k = l ∨ m ≠ 2 := by tauto
        simp [Gen.simplifyProd, this] at hf

theorem count_stable {M : Nat → ι → Prop} (hM : HalfAlone M) (n : Nat) (i : ι) (hn : n ≠ 2) {s : SpinComp} (hs : s ≠ .z)
    (d : Nat) : @Stable (Gen ι) (genOpsU ι) fun m => (∀ g ∈ m, Allowed M g) ∧ m.count (.spin n s i) ≤ d := by
  have N := nfGen M hM
  have split2 : ∀ (pre post : List (Gen ι)) (x y : Gen ι), (pre ++ x :: y :: post).count (.spin n s i)
      = pre.count (.spin n s i) + [x, y].count (.spin n s i) + post.count (.spin n s i) := by
    intro pre post x y
    rw [show pre ++ x :: y :: post = pre ++ [x, y] ++ post by simp, List.count_append, List.count_append]
  have split1 : ∀ (pre post : List (Gen ι)) (x : Gen ι), (pre ++ x :: post).count (.spin n s i)
      = pre.count (.spin n s i) + [x].count (.spin n s i) + post.count (.spin n s i) := by
    intro pre post x
    rw [show pre ++ x :: post = pre ++ [x] ++ post by simp, List.count_append, List.count_append]
  refine @Stable.mk _ (genOpsU ι) _ ?_ ?_ ?_ ?_ ?_
  · intro pre x y post h hgt _
    refine ⟨fun g hg => h.1 g (by simp at hg ⊢; tauto), ?_⟩
    have h2 := h.2
    rw [split2] at h2 ⊢
    simp only [List.count_cons, List.count_nil] at h2 ⊢
    omega
  · intro pre x y post h hgt h0
    refine ⟨fun g hg => h.1 g (by simp at hg ⊢; tauto), ?_⟩
    have h2 := h.2
    rw [split2] at h2
    rw [List.count_append]; omega
  · intro pre x y post h hgt r hr
    refine ⟨?_, ?_⟩
    · intro g hg
      have := N.swap_mem x y (h.1 x (by simp)) (h.1 y (by simp)) hgt r hr
      simp only [List.mem_append, List.mem_cons] at hg
      rcases hg with hg | rfl | hg
      · exact h.1 g (by simp [hg])
      · exact this
      · exact h.1 g (by simp [hg])
    · have := count_pair (i := i) hn hs r hr
      have h2 := h.2
      rw [split2] at h2
      rw [split1]; omega
  · intro pre x y post f h hgt hf h0
    refine ⟨fun g hg => h.1 g (by simp at hg ⊢; tauto), ?_⟩
    have h2 := h.2
    rw [split2] at h2
    rw [List.count_append]; omega
  · intro pre x y post f h hgt hf r hr
    refine ⟨?_, ?_⟩
    · intro g hg
      have := N.simp_mem x y f (h.1 x (by simp)) (h.1 y (by simp)) hgt hf r hr
      simp only [List.mem_append, List.mem_cons] at hg
      rcases hg with hg | rfl | hg
      · exact h.1 g (by simp [hg])
      · exact this
      · exact h.1 g (by simp [hg])
    · have := count_simp (i := i) (s := s) hn hM (h.1 x (by simp)) (h.1 y (by simp)) hf r hr
      have h2 := h.2
      rw [split2] at h2
      rw [split1]; omega

end

section
variable {ι S A : Type _} [LinearOrder ι] [CommRing S] [DecidableEq S] [ConstScalar S] [ScalarLaws S] [IsDomain S]
  [CharZero S] [Ring A] [Algebra S A] {M : Nat → ι → Prop} {ρ : Gen ι → A}

theorem emitsU_count_le (hM : HalfAlone M) {m : List (Gen ι)} (hP : ∀ g ∈ m, Allowed M g) (c : S)
    {n : Nat} (hn : n ≠ 2) (i : ι) {s : SpinComp} (hs : s ≠ .z) :
    ∀ r ∈ emitsU m c, r.1.count (.spin n s i) ≤ m.count (.spin n s i) :=
  fun r hr => (emitsU_stable (count_stable hM n i hn hs _) m c ⟨hP, le_refl _⟩ r hr).2

theorem emits_count_le (hM : HalfAlone M) {m : List (Gen ι)} (hP : ∀ g ∈ m, Allowed M g) (c : S)
    {n : Nat} (hn : n ≠ 2) (i : ι) {s : SpinComp} (hs : s ≠ .z) :
    ∀ r ∈ emits (G := Gen ι) m c, r.1.count (.spin n s i) ≤ m.count (.spin n s i) := by
  intro r hr
  rw [emits_drop] at hr
  exact emitsU_count_le hM hP c hn i hs r (List.mem_filter.1 hr).1

theorem emits_eq_U' (hM : HalfAlone M) {m : List (Gen ι)} (hP : ∀ g ∈ m, Allowed M g) (c : S) (hg : GoodCnt m) :
    emits (G := Gen ι) m c = emitsU m c := by
  rw [emits_drop, List.filter_eq_self]
  intro r hr
  obtain ⟨h1, h2⟩ := emitsU_mem hM hP c r hr
  exact (keeps_iff_good hM h1 h2).2 (hg.mono fun n i s hn hs => emitsU_count_le hM hP c hn i hs r hr)

/-- A product in which no ladder power reaches the multiplicity is the product of the operators. -/
theorem eval_mul_good (hM : HalfAlone M) (h : TextbookCore S M ρ) {a b : Expr (Gen ι) S} (ha : a.InP (Allowed M))
    (hb : b.InP (Allowed M)) (hg : ∀ p ∈ a.terms, ∀ q ∈ b.terms, GoodCnt (p.1 ++ q.1)) :
    evalExpr ρ (a * b) = evalExpr ρ a * evalExpr ρ b := by
  rw [Expr.mul_def]
  simp only [evalExpr]
  rw [evalTerms_storeAll]
  simp only [show evalTerms ρ ([] : List (List (Gen ι) × S)) = 0 from rfl, zero_add]
  revert ha hb hg
  simp only [Expr.InP]
  generalize a.terms = a
  generalize b.terms = b
  intro ha hb hg
  have inner : ∀ (p : List (Gen ι) × S) (b : List (List (Gen ι) × S)), (∀ g ∈ p.1, Allowed M g) →
      (∀ q ∈ b, ∀ g ∈ q.1, Allowed M g) → (∀ q ∈ b, GoodCnt (p.1 ++ q.1)) →
      evalTerms ρ (b.flatMap fun q => emits (p.1 ++ q.1) (p.2 * q.2)) = (p.2 • evalMon ρ p.1) * evalTerms ρ b := by
    intro p b hp hb hg
    induction b with
    | nil => simp [evalTerms]
    | cons q b ih =>
      rw [List.flatMap_cons, Expr.evalTerms_append, ih (fun r hr => hb r (by simp [hr])) (fun r hr => hg r (by simp [hr])),
        Expr.evalTerms_cons, mul_add]
      congr 1
      have hpq : ∀ g ∈ p.1 ++ q.1, Allowed M g := by
        intro g hg
        rcases List.mem_append.1 hg with h | h
        · exact hp g h
        · exact hb q (by simp) g h
      rw [emits_eq_U' hM hpq _ (hg q (by simp)), eval_emitsU hM h hpq, Expr.evalMon_append, mul_smul, smul_mul_smul_comm,
        mul_smul]
  induction a with
  | nil => simp [Expr.mulLog, evalTerms]
  | cons p a ih =>
    have := ih (fun r hr => ha r (by simp [hr])) (fun r hr => hg r (by simp [hr]))
    simp only [Expr.mulLog, List.flatMap_cons] at this ⊢
    rw [Expr.evalTerms_append, this, Expr.evalTerms_cons, add_mul, inner p b (ha p (by simp)) hb (hg p (by simp))]

theorem mul_count_le (hM : HalfAlone M) {a b : Expr (Gen ι) S} (ha : a.InP (Allowed M)) (hb : b.InP (Allowed M)) :
    ∀ r ∈ (a * b).terms, ∃ p ∈ a.terms, ∃ q ∈ b.terms, ∀ n i s, n ≠ 2 → s ≠ SpinComp.z →
      r.1.count (.spin n s i) ≤ p.1.count (.spin n s i) + q.1.count (.spin n s i) := by
  intro r hr
  rw [Expr.mul_def] at hr
  rcases mem_storeAll hr with h' | ⟨x, hx, h'⟩
  · cases h'
  · simp only [Expr.mulLog, List.mem_flatMap] at hx
    obtain ⟨p, hp, q, hq, hx⟩ := hx
    refine ⟨p, hp, q, hq, fun n i s hn hs => ?_⟩
    rw [← h', ← List.count_append]
    refine emits_count_le hM ?_ _ hn i hs x hx
    intro g hg
    rcases List.mem_append.1 hg with h | h
    · exact ha p hp g h
    · exact hb q hq g h

end
end LC
