import Verif.Spec.FloatAction
import Verif.Proof.LOpApply
import Verif.Proof.FockOp
/-
C98: error analysis of linear operators in floating-point arithmetic.
-/
set_option linter.unusedSectionVars false
set_option linter.unusedSimpArgs false
namespace LC
open Classical
namespace Flo
variable {ι D S T V W 𝕜 : Type _} [LinearOrder ι] [RCLike 𝕜]

/-- `x` is `y` up to `k` roundings. -/
def Near (u : ℝ) (k : Nat) (x y : 𝕜) : Prop := ‖x - y‖ ≤ ((1 + u) ^ k - 1) * ‖y‖

section Near
variable {u : ℝ} (hu : 0 ≤ u)
include hu

theorem one_le_pow (k : Nat) : 1 ≤ (1 + u) ^ k := one_le_pow₀ (by linarith)

theorem Near.norm_le {k : Nat} {x y : 𝕜} (h : Near u k x y) : ‖x‖ ≤ (1 + u) ^ k * ‖y‖ := by
  have h1 : ‖x‖ ≤ ‖x - y‖ + ‖y‖ := by
    have := norm_add_le (x - y) y
    rwa [sub_add_cancel] at this
  unfold Near at h
  linarith [h]

theorem Near.refl (y : 𝕜) : Near u 0 y y := by simp [Near]

theorem Near.mono {k l : Nat} {x y : 𝕜} (h : Near u k x y) (hkl : k ≤ l) : Near u l x y := by
  refine le_trans h ?_
  have : (1 + u) ^ k ≤ (1 + u) ^ l := pow_le_pow_right₀ (by linarith) hkl
  exact mul_le_mul_of_nonneg_right (by linarith) (norm_nonneg _)

theorem Near.mul {k l : Nat} {x y x' y' : 𝕜} (h : Near u k x y) (h' : Near u l x' y') : Near u (k + l) (x * x') (y * y') := by
  have e : x * x' - y * y' = (x - y) * x' + y * (x' - y') := by ring
  have b := h'.norm_le hu
  unfold Near at *
  rw [e]
  refine le_trans (norm_add_le _ _) ?_
  rw [norm_mul, norm_mul, norm_mul]
  have h1 : ‖x - y‖ * ‖x'‖ ≤ (((1 + u) ^ k - 1) * ‖y‖) * ((1 + u) ^ l * ‖y'‖) :=
    mul_le_mul h b (norm_nonneg _) (mul_nonneg (by linarith [one_le_pow hu k]) (norm_nonneg _))
  have h2 : ‖y‖ * ‖x' - y'‖ ≤ ‖y‖ * (((1 + u) ^ l - 1) * ‖y'‖) := mul_le_mul_of_nonneg_left h' (norm_nonneg _)
  rw [pow_add]
  nlinarith [h1, h2]

theorem Near.round {k : Nat} {x y z : 𝕜} (h : Near u k x y) (hz : ‖z - x‖ ≤ u * ‖x‖) : Near u (k + 1) z y := by
  have b := h.norm_le hu
  unfold Near at *
  have e : z - y = (z - x) + (x - y) := by ring
  rw [e]
  refine le_trans (norm_add_le _ _) ?_
  have := mul_le_mul_of_nonneg_left b hu
  rw [pow_succ]
  nlinarith [this]

end Near

variable [AmpOps T] [CoefOps D S T] {u tol : ℝ} {vS : S → 𝕜} {vT : T → 𝕜} {fS : S → Prop} {fT : T → Prop}

/-- The outcome in floating-point arithmetic is the exact one, up to `k` roundings of the coefficient. -/
def Sim (u : ℝ) (vS : S → 𝕜) (fS : S → Prop) (k : Nat) : ActRes S → ActRes 𝕜 → Prop
  | .ub, r => r = .ub
  | .zero, r => r = .zero
  | .nonzero i c, r => ∃ c', r = .nonzero i c' ∧ (fS c → Near u k (vS c) c')

/-- The coefficient before the call. -/
abbrev Co (u : ℝ) (vS : S → 𝕜) (fS : S → Prop) (k : Nat) (c : S) (c' : 𝕜) : Prop := fS c → Near u k (vS c) c'

variable (R : Rounding (D := D) u tol vS vT fS fT)
include R

theorem co_mul {k l : Nat} {c x : S} {c' x' : 𝕜} (h : Co u vS fS k c c') (hx : fS x → Near u l (vS x) x') :
    Co u vS fS (k + l + 1) (CoefOps.mul c x) (c' * x') := by
  intro hf
  obtain ⟨f1, f2, hm⟩ := R.mul c x hf
  exact ((h f1).mul R.u_nonneg (hx f2)).round R.u_nonneg hm

theorem co_sqrt (n : Nat) : fS (CoefOps.const (CoefOps.sqrt S n)) →
    Near u 2 (vS (CoefOps.const (CoefOps.sqrt S n))) (algebraMap ℝ 𝕜 (Real.sqrt n)) := by
  intro hf
  have := R.sqrt n hf
  unfold Near
  rwa [norm_algebraMap', Real.norm_of_nonneg (Real.sqrt_nonneg _)]

theorem co_pow (x : ℝ) (n : Nat) : fS (CoefOps.const (CoefOps.pow S x n)) →
    Near u 2 (vS (CoefOps.const (CoefOps.pow S x n))) (algebraMap ℝ 𝕜 (x ^ n)) := by
  intro hf
  have := R.pow x n hf
  unfold Near
  rwa [norm_algebraMap', Real.norm_eq_abs]

theorem fermionAct_sim (a : FermionAction) (i : Nat) {k : Nat} {c : S} {c' : 𝕜} (h : Co u vS fS k c c') :
    Sim u vS fS (k + if a.isConst then 0 else 1) (fermionAct a i c) (a.act i c') := by
  unfold fermionAct FermionAction.act
  split_ifs with h1 h2
  · exact ⟨c', rfl, h⟩
  · rfl
  · simp only
    split_ifs with h3 h4
    · rfl
    · refine ⟨c' * (-1), rfl, ?_⟩
      refine co_mul R (l := 0) h fun _ => ?_
      rw [R.minusOne]
      exact Near.refl R.u_nonneg _
    · exact ⟨c', rfl, fun hf => (h hf).mono R.u_nonneg (by omega)⟩

omit R in
/-- The entries of the table are square roots. -/
def TabOK (tab : List ℝ) : Prop := ∀ (n : Nat) (r : ℝ), tab[n]? = some r → r = Real.sqrt (n : ℝ)

omit R in
theorem tabOK_make (size : Nat) : TabOK (makeSqrRoots size) := by
  intro n r h
  simp only [makeSqrRoots, List.getElem?_map, Option.map_eq_some_iff] at h
  obtain ⟨m, hm, rfl⟩ := h
  have := List.getElem?_eq_some_iff.1 hm
  obtain ⟨h1, h2⟩ := this
  rw [List.getElem_range] at h2
  rw [h2]

omit R in
theorem tabOK_nil : TabOK [] := by intro n r h; simp at h

theorem mulRoots_sim {tab : List ℝ} (ht : TabOK tab) (l : List Nat) {k : Nat} {c : S} {c' : 𝕜} (h : Co u vS fS k c c') :
    match mulRoots (roots S tab.length) l c with
    | none => LC.mulRoots tab l c' = none
    | some y => ∃ y', LC.mulRoots tab l c' = some y' ∧ Co u vS fS (k + 3 * l.length) y y' := by
  induction l generalizing c c' k with
  | nil => exact ⟨c', rfl, h⟩
  | cons n l ih =>
    have key : (sqrRoot S (roots S tab.length) n = none ∧ LC.sqrRoot tab n = none) ∨
        (sqrRoot S (roots S tab.length) n = some (CoefOps.sqrt S n) ∧ LC.sqrRoot tab n = some (Real.sqrt n)) := by
      unfold sqrRoot LC.sqrRoot
      split_ifs with hn
      · by_cases hlt : n < tab.length
        · right
          refine ⟨by simp [roots, hlt], ?_⟩
          have h1 := List.getElem?_eq_getElem hlt
          rw [h1, ht n _ h1]
        · left
          refine ⟨by simp [roots]; omega, by simp; omega⟩
      · exact .inr ⟨rfl, rfl⟩
    rcases key with ⟨k1, k2⟩ | ⟨k1, k2⟩
    · simp only [mulRoots, LC.mulRoots, k1, k2]
    · simp only [mulRoots, LC.mulRoots, k1, k2]
      have := ih (co_mul R h (co_sqrt R n))
      revert this
      cases hm : mulRoots (roots S tab.length) l (CoefOps.mul c (CoefOps.const (CoefOps.sqrt S n))) with
      | none => intro h; exact h
      | some y =>
        rintro ⟨y', h1, h2⟩
        refine ⟨y', h1, ?_⟩
        rw [List.length_cons, show k + 3 * (l.length + 1) = k + 2 + 1 + 3 * l.length by ring]
        exact h2

omit R in
/-- Upper bound of the number of roundings. -/
def costB (us : List BosonUpdate) : Nat := (us.map fun x => 3 * x.nChange.natAbs).sum
omit R in
def costS (us : List SpinUpdate) : Nat := (us.map fun x => 3 * (x.power + 1 - min x.power 1)).sum

omit R in
theorem rootArgs_length (x : BosonUpdate) (n : Int) : (x.rootArgs n).length = x.nChange.natAbs := by
  unfold BosonUpdate.rootArgs
  split_ifs <;> simp <;> omega

theorem bosonActLoop_sim {tab : List ℝ} (ht : TabOK tab) (us : List BosonUpdate) (i : Nat) {k : Nat} {c : S} {c' : 𝕜}
    (h : Co u vS fS k c c') :
    Sim u vS fS (k + costB us) (bosonActLoop (roots S tab.length) us i c) (LC.bosonActLoop tab us i c') := by
  induction us generalizing i c c' k with
  | nil => exact ⟨c', rfl, h⟩
  | cons x us ih =>
    rw [bosonActLoop, LC.bosonActLoop]
    split_ifs with hn
    · rfl
    · have := mulRoots_sim R ht (x.rootArgs ((i >>> x.shift) &&& x.mask : Nat)) h
      revert this
      cases hm : mulRoots (roots S tab.length) (x.rootArgs ((i >>> x.shift) &&& x.mask : Nat)) c with
      | none => intro h; rw [h]; rfl
      | some y =>
        rintro ⟨y', h1, h2⟩
        rw [h1]
        simp only
        have := ih ((((i : Int) + x.stateChange) % W64).toNat) h2
        rw [rootArgs_length] at this
        rwa [costB, List.map_cons, List.sum_cons, ← Nat.add_assoc, ← costB]

theorem bosonAct_sim {a : BosonAction} (ht : TabOK a.sqrRoots) (i : Nat) {k : Nat} {c : S} {c' : 𝕜}
    (h : Co u vS fS k c c') : Sim u vS fS (k + costB a.updates.reverse) (bosonAct a i c) (a.act i c') := by
  unfold bosonAct BosonAction.act
  split_ifs
  · rfl
  · exact bosonActLoop_sim R ht _ _ h

theorem spinActLoop_sim {tab : List ℝ} (ht : TabOK tab) (us : List SpinUpdate) (i : Nat) {k : Nat} {c : S} {c' : 𝕜}
    (h : Co u vS fS k c c') :
    Sim u vS fS (k + costS us) (spinActLoop (roots S tab.length) us i c) (LC.spinActLoop tab us i c') := by
  induction us generalizing i c c' k with
  | nil => exact ⟨c', rfl, h⟩
  | cons x us ih =>
    have hcost : costS (x :: us) = 3 * (x.power + 1 - min x.power 1) + costS us := by
      rw [costS, List.map_cons, List.sum_cons, ← costS]
    rw [hcost]
    have wk : ∀ {k k' : Nat} {c : S} {c' : 𝕜}, Co u vS fS k c c' → k ≤ k' → Co u vS fS k' c c' :=
      fun hc hk hf => (hc hf).mono R.u_nonneg hk
    rw [spinActLoop, LC.spinActLoop]
    cases hxc : x.c with
    | plus =>
      simp only
      split_ifs with hn
      · rfl
      · have := mulRoots_sim R ht ((List.range x.power).map fun d : Nat =>
          mul64 (sub64 x.s2 (((i >>> x.shift) &&& x.mask) + d)) (((i >>> x.shift) &&& x.mask) + d + 1)) h
        revert this
        cases hm : mulRoots (roots S tab.length) ((List.range x.power).map fun d : Nat =>
          mul64 (sub64 x.s2 (((i >>> x.shift) &&& x.mask) + d)) (((i >>> x.shift) &&& x.mask) + d + 1)) c with
        | none => intro h; rw [h]; rfl
        | some y =>
          rintro ⟨y', h1, h2⟩
          rw [h1]
          simp only
          rw [← Nat.add_assoc]
          refine ih _ (wk h2 ?_)
          simp only [List.length_map, List.length_range]
          omega
    | minus =>
      simp only
      split_ifs with hn
      · rfl
      · have := mulRoots_sim R ht ((List.range x.power).map fun d : Nat =>
          mul64 (add64 (sub64 x.s2 (((i >>> x.shift) &&& x.mask) - d)) 1) (((i >>> x.shift) &&& x.mask) - d)) h
        revert this
        cases hm : mulRoots (roots S tab.length) ((List.range x.power).map fun d : Nat =>
          mul64 (add64 (sub64 x.s2 (((i >>> x.shift) &&& x.mask) - d)) 1) (((i >>> x.shift) &&& x.mask) - d)) c with
        | none => intro h; rw [h]; rfl
        | some y =>
          rintro ⟨y', h1, h2⟩
          rw [h1]
          simp only
          rw [← Nat.add_assoc]
          refine ih _ (wk h2 ?_)
          simp only [List.length_map, List.length_range]
          omega
    | z =>
      simp only
      split_ifs with hn
      · rfl
      · rw [← Nat.add_assoc]
        refine ih _ (wk (co_mul R h (co_pow R _ _)) ?_)
        omega

theorem spinAct_sim {a : SpinAction} (ht : TabOK a.sqrRoots) (i : Nat) {k : Nat} {c : S} {c' : 𝕜}
    (h : Co u vS fS k c c') : Sim u vS fS (k + costS a.updates.reverse) (spinAct a i c) (a.act i c') :=
  spinActLoop_sim R ht _ _ h

omit R in
def cost (a : MonomialAction) : Nat :=
  (if a.fermions.isConst then 0 else 1) + costB a.bosons.updates.reverse + costS a.spins.updates.reverse

theorem act_sim {a : MonomialAction} (hb : TabOK a.bosons.sqrRoots) (hs : TabOK a.spins.sqrRoots) (i : Nat) {k : Nat} {c : S}
    {c' : 𝕜} (h : Co u vS fS k c c') : Sim u vS fS (k + cost a) (act a i c) (a.act i c') := by
  unfold act MonomialAction.act cost
  have h1 := fermionAct_sim R a.fermions i h
  revert h1
  cases fermionAct a.fermions i c with
  | ub => intro h; simp only [Sim] at h; rw [h]; rfl
  | zero => intro h; simp only [Sim] at h; rw [h]; rfl
  | nonzero i1 c1 =>
    rintro ⟨c1', e1, h1⟩
    rw [e1]
    simp only [ActRes.andThen]
    have h2 := bosonAct_sim R hb i1 h1
    revert h2
    cases bosonAct a.bosons i1 c1 with
    | ub => intro h; simp only [Sim] at h; rw [h]; rfl
    | zero => intro h; simp only [Sim] at h; rw [h]; rfl
    | nonzero i2 c2 =>
      rintro ⟨c2', e2, h2⟩
      rw [e2]
      simp only
      have h3 := spinAct_sim R hs i2 h2
      simpa only [Nat.add_assoc] using h3

/-! ### The number of roundings is bounded by the length of the monomial -/

omit R in
theorem bosonLoop_cost {hs : HilbertSpace ι} (l : List (Gen ι)) (p sz : Nat) (us : List BosonUpdate) (a : BosonAction)
    (hp : 1 ≤ p) (h : bosonLoop hs l p sz us = .ok a) :
    TabOK a.sqrRoots ∧ costB a.updates.reverse ≤ costB us.reverse + 3 * (l.length + (p - 1)) := by
  induction l generalizing p sz us with
  | nil =>
    simp only [bosonLoop, Except.ok.injEq] at h
    subst h
    refine ⟨?_, by simp⟩
    simp only
    split_ifs
    exacts [tabOK_nil, tabOK_make _]
  | cons g l ih =>
    cases g with
    | fermion d i => simp [bosonLoop] at h
    | spin n c i => simp [bosonLoop] at h
    | boson d i =>
      rw [bosonLoop] at h
      split at h
      · split at h
        · simp at h
        · split at h
          · simp at h
          · simp at h
          · simp only at h
            next br dim _ _ =>
            by_cases hpn : p > sub64 dim 1
            · rw [if_pos hpn] at h
              simp only [Except.ok.injEq] at h
              subst h
              exact ⟨tabOK_nil, by simp⟩
            · rw [if_neg hpn] at h
              obtain ⟨h1, h2⟩ := ih _ _ _ le_rfl h
              refine ⟨h1, h2.trans ?_⟩
              have : ∀ d : Bool, (if d then (p : Int) else -(p : Int)).natAbs = p := by intro d; cases d <;> simp
              simp only [List.reverse_append, List.reverse_cons, List.reverse_nil, List.nil_append, List.cons_append, costB,
                List.map_cons, List.sum_cons, List.length_cons, this]
              omega
      · obtain ⟨h1, h2⟩ := ih _ _ _ (by omega) h
        refine ⟨h1, h2.trans ?_⟩
        simp only [List.length_cons]
        omega

omit R in
theorem spinLoop_cost {hs : HilbertSpace ι} (l : List (Gen ι)) (p sz : Nat) (us : List SpinUpdate) (a : SpinAction)
    (hp : 1 ≤ p) (h : spinLoop hs l p sz us = .ok a) :
    TabOK a.sqrRoots ∧ costS a.updates.reverse ≤ costS us.reverse + 3 * (l.length + (p - 1)) := by
  induction l generalizing p sz us with
  | nil =>
    simp only [spinLoop, Except.ok.injEq] at h
    subst h
    refine ⟨?_, by simp⟩
    simp only
    split_ifs
    exacts [tabOK_nil, tabOK_make _]
  | cons g l ih =>
    cases g with
    | fermion d i => simp [spinLoop] at h
    | boson d i => simp [spinLoop] at h
    | spin n c i =>
      rw [spinLoop] at h
      split at h
      · split at h
        · simp at h
        · split at h
          · simp at h
          · obtain ⟨h1, h2⟩ := ih _ _ _ le_rfl h
            refine ⟨h1, h2.trans ?_⟩
            simp only [List.reverse_append, List.reverse_cons, List.reverse_nil, List.nil_append, List.cons_append, costS,
              List.map_cons, List.sum_cons, List.length_cons]
            omega
      · obtain ⟨h1, h2⟩ := ih _ _ _ (by omega) h
        refine ⟨h1, h2.trans ?_⟩
        simp only [List.length_cons]
        omega

omit R in
theorem findSubrange_length {x : Int} {m p q : List (Gen ι)} (h : findSubrange x m = .ok (p, q)) :
    p.length + q.length = m.length := by
  induction m generalizing p q with
  | nil => simp only [findSubrange, Except.ok.injEq, Prod.mk.injEq] at h; obtain ⟨rfl, rfl⟩ := h; rfl
  | cons g m ih =>
    rw [findSubrange] at h
    split at h
    · simp at h
    · split at h
      · split at h
        · simp at h
        · next p' q' he =>
          simp only [Except.ok.injEq, Prod.mk.injEq] at h
          obtain ⟨rfl, rfl⟩ := h
          have := ih he
          simp only [List.length_cons]
          omega
      · simp only [Except.ok.injEq, Prod.mk.injEq] at h
        obtain ⟨rfl, rfl⟩ := h
        simp

omit R in
theorem make_cost {hs : HilbertSpace ι} {m : List (Gen ι)} {a : MonomialAction} (h : MonomialAction.make m hs = .ok a) :
    TabOK a.bosons.sqrRoots ∧ TabOK a.spins.sqrRoots ∧ cost a ≤ 3 * m.length := by
  unfold MonomialAction.make at h
  split at h
  · simp at h
  · next mf m1 e1 =>
    split at h
    · simp at h
    · next f ef =>
      split at h
      · simp at h
      · next mb m2 e2 =>
        split at h
        · simp at h
        · next b eb =>
          split at h
          · simp at h
          · next s es =>
            simp only [Except.ok.injEq] at h
            subst h
            obtain ⟨b1, b2⟩ := bosonLoop_cost mb 1 0 [] b le_rfl eb
            obtain ⟨s1, s2⟩ := spinLoop_cost m2 1 0 [] s le_rfl es
            refine ⟨b1, s1, ?_⟩
            have l1 := findSubrange_length e1
            have l2 := findSubrange_length e2
            have hf : (if f.isConst then 0 else 1) ≤ mf.length := by
              unfold FermionAction.make at ef
              cases mf with
              | nil => simp at ef; subst ef; simp
              | cons g l => split_ifs <;> simp
            unfold cost
            simp only [costB, costS, List.reverse_nil, List.map_nil, List.sum_nil] at b2 s2 ⊢
            omega

end Flo
end LC
