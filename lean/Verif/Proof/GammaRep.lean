import Mathlib.Algebra.Module.LinearMap.End
import Mathlib.Data.Finset.SymmDiff
import Mathlib.Order.Interval.Finset.Basic
import Mathlib.Tactic.Ring
import Verif.Proof.FaithfulAll
/-
A faithful realisation of the user-defined algebra of gamma matrices (examples/gamma.hpp): signed moves on finite sets of indices.
-/
set_option linter.unusedSectionVars false
set_option linter.unusedSimpArgs false
set_option linter.unusedVariables false
namespace LC
namespace Gamma
open scoped symmDiff
variable {S : Type _} [CommRing S] [DecidableEq S] [ConstScalar S] [ScalarLaws S]

theorem userOrder : UserOrder GammaGen where
  id_nonneg u := le_refl _
  eq_iff u v _ := by
    obtain ⟨i⟩ := u; obtain ⟨j⟩ := v
    simp [UserGen.equal, UserGen.defaultEqual]
  lt_irrefl u := by simp [UserGen.less, UserGen.defaultLess]
  lt_trans u v w _ _ := by
    simp only [UserGen.less, UserGen.defaultLess, decide_eq_true_eq]
    exact lt_trans
  lt_tri u v _ := by
    obtain ⟨i⟩ := u; obtain ⟨j⟩ := v
    simp only [UserGen.less, UserGen.defaultLess, decide_eq_true_eq, GammaGen.mk.injEq]
    exact lt_trichotomy i j
  gt_iff u v _ := rfl

/-- The metric. -/
def eta (i : Int) : Int := if i = 0 then 1 else -1

theorem eta_sq (i : Int) : eta i * eta i = 1 := by unfold eta; split <;> rfl

/-- The sign of `i` relative to a set. -/
def sgn (i : Int) (T : Finset Int) : Int := (-1) ^ (T.filter fun j => j < i).card

theorem sgn_sq (i : Int) (T : Finset Int) : sgn i T * sgn i T = 1 := by
  rw [sgn, ← mul_pow]; simp

theorem sgn_above {i j : Int} (h : i ≤ j) (T : Finset Int) : sgn i (T ∆ {j}) = sgn i T := by
  have : ((T ∆ {j}).filter fun k => k < i) = T.filter fun k => k < i := by
    ext k
    simp only [Finset.mem_filter, Finset.mem_symmDiff, Finset.mem_singleton, and_congr_left_iff]
    intro hk
    have : k ≠ j := by omega
    tauto
  rw [sgn, this, sgn]

theorem sgn_below {i j : Int} (h : j < i) (T : Finset Int) : sgn i (T ∆ {j}) = - sgn i T := by
  by_cases hj : j ∈ T
  · have : ((T ∆ {j}).filter fun k => k < i) = (T.filter fun k => k < i).erase j := by
      ext k
      simp only [Finset.mem_filter, Finset.mem_symmDiff, Finset.mem_singleton, Finset.mem_erase]
      by_cases e : k = j
      · subst e; simp [hj]
      · simp [e]
    have hm : j ∈ T.filter fun k => k < i := by simp [hj, h]
    rw [sgn, this, sgn, ← Finset.card_erase_add_one hm, pow_succ]; ring
  · have : ((T ∆ {j}).filter fun k => k < i) = insert j (T.filter fun k => k < i) := by
      ext k
      simp only [Finset.mem_filter, Finset.mem_symmDiff, Finset.mem_singleton, Finset.mem_insert]
      by_cases e : k = j
      · subst e; simp [hj, h]
      · simp [e]
    rw [sgn, this, sgn, Finset.card_insert_of_notMem (by simp [hj]), pow_succ]; ring

/-- The factor picked up by `γ_i`. -/
def wt (i : Int) (T : Finset Int) : Int := sgn i T * if i ∈ T then 1 else eta i

theorem wt_wt (i : Int) (T : Finset Int) : wt i T * wt i (T ∆ {i}) = eta i := by
  unfold wt
  rw [sgn_above le_rfl]
  have h : (if i ∈ T then (1 : Int) else eta i) * (if i ∈ T ∆ {i} then 1 else eta i) = eta i := by
    by_cases e : i ∈ T <;> simp [e, Finset.mem_symmDiff]
  calc _ = (sgn i T * sgn i T) * ((if i ∈ T then (1 : Int) else eta i) * (if i ∈ T ∆ {i} then 1 else eta i)) := by ring
    _ = _ := by rw [sgn_sq, h, one_mul]

theorem ite_other {i j : Int} (h : i ≠ j) (T : Finset Int) :
    (if i ∈ T ∆ {j} then (1 : Int) else eta i) = if i ∈ T then 1 else eta i := by
  simp [Finset.mem_symmDiff, h]

theorem wt_comm {i j : Int} (h : i < j) (T : Finset Int) :
    wt i T * wt j (T ∆ {i}) = - (wt j T * wt i (T ∆ {j})) := by
  unfold wt
  rw [sgn_below h, sgn_above h.le, ite_other h.ne, ite_other h.ne']
  ring

/-- The operator `γ_i`. -/
def op (i : Int) : Module.End S (Finset Int → S) where
  toFun v T := (wt i T : S) * v (T ∆ {i})
  map_add' v w := by funext T; simp [mul_add]
  map_smul' c v := by funext T; simp [mul_left_comm]

theorem op_apply (i : Int) (v : Finset Int → S) (T : Finset Int) : op i v T = (wt i T : S) * v (T ∆ {i}) := rfl

theorem op_sq (i : Int) : (op i * op i : Module.End S _) = (eta i : S) • 1 := by
  refine LinearMap.ext fun v => funext fun T => ?_
  rw [Module.End.mul_apply, op_apply, op_apply, symmDiff_assoc, symmDiff_self, symmDiff_bot, ← mul_assoc, ← Int.cast_mul,
    wt_wt]
  rfl

theorem op_comm {i j : Int} (h : i < j) : (op i * op j : Module.End S _) = - (op j * op i) := by
  refine LinearMap.ext fun v => funext fun T => ?_
  rw [Module.End.mul_apply, op_apply, op_apply, LinearMap.neg_apply, Pi.neg_apply, Module.End.mul_apply, op_apply, op_apply,
    ← mul_assoc, ← mul_assoc, ← Int.cast_mul, ← Int.cast_mul, wt_comm h, symmDiff_right_comm]
  push_cast; ring

/-- Gamma matrices of any (also infinite) dimension. -/
def rep (g : GammaGen) : Module.End S (Finset Int → S) := op g.index

theorem mk_int (i : Int) : (ConstScalar.makeConst (.integer i) : S) = (i : S) := ConstScalar.mk_integer i

theorem rep_realisation : UserRealisation S (rep (S := S)) where
  swap u v _ h := by
    simp only [UserGen.greater, UserGen.defaultGreater, decide_eq_true_eq, gt_iff_lt] at h
    simp only [UserGen.swapWith, evalLin, rep, if_neg h.ne', mk_int]
    rw [op_comm h]
    simp
  simp u v f _ h hf := by
    simp only [UserGen.simplifyProd] at hf
    split at hf
    · rename_i e
      cases hf
      simp only [rep, ← e, op_sq, evalLin, mk_int, List.map_nil, List.sum_nil, add_zero, eta, Algebra.algebraMap_eq_smul_one]
    · cases hf
  red u p f _ h := by cases h
  comm u v h := absurd rfl h

/-- The basis vectors. -/
def delta (A : Finset Int) : Finset Int → S := fun T => if T = A then 1 else 0

theorem op_delta {i : Int} {A : Finset Int} (h : ∀ j ∈ A, i < j) : op i (delta (S := S) A) = delta (insert i A) := by
  have hi : i ∉ A := fun hi => lt_irrefl _ (h i hi)
  funext T
  rw [op_apply, delta, delta]
  have e1 : (T ∆ {i} = A) ↔ T = insert i A := by
    constructor
    · rintro rfl
      rw [Finset.mem_symmDiff] at hi
      have hT : i ∈ T := by
        by_contra hT; exact hi (Or.inr ⟨by simp, hT⟩)
      ext k
      simp only [Finset.mem_insert, Finset.mem_symmDiff, Finset.mem_singleton]
      by_cases e : k = i
      · subst e; simp [hT]
      · simp [e]
    · rintro rfl
      ext k
      simp only [Finset.mem_symmDiff, Finset.mem_insert, Finset.mem_singleton]
      by_cases e : k = i
      · subst e; simp [hi]
      · simp [e]
  by_cases hT : T = insert i A
  · rw [if_pos (e1.2 hT), if_pos hT, hT]
    have : (insert i A).filter (fun j => j < i) = ∅ := by
      ext k
      simp only [Finset.mem_filter, Finset.mem_insert, Finset.notMem_empty, iff_false, not_and, not_lt]
      rintro (rfl | hk)
      · exact le_rfl
      · exact (h k hk).le
    simp [wt, sgn, this]
  · rw [if_neg (fun e => hT (e1.1 e)), if_neg hT, mul_zero]

/-- Products that the algebra leaves alone have increasing indices. -/
theorem stored_pairwise {m : List GammaGen} (h : UserStored m) : m.Pairwise fun u v => u.index < v.index := by
  have hc : m.IsChain fun u v => u.index < v.index := by
    rw [List.isChain_iff_forall_rel_of_append_cons_cons]
    intro u v l₁ l₂ e
    have h1 := h.sorted l₁ u v l₂ e
    have h2 := h.no_simp l₁ u v l₂ e rfl
    rcases h1 with h1 | ⟨_, h1⟩
    · exact absurd h1 (lt_irrefl _)
    · simp only [UserGen.greater, UserGen.defaultGreater, decide_eq_false_iff_not, gt_iff_lt, not_lt] at h1
      simp only [UserGen.simplifyProd] at h2
      split at h2
      · cases h2
      · omega
  have : IsTrans GammaGen fun u v => u.index < v.index := ⟨fun _ _ _ => lt_trans⟩
  exact List.isChain_iff_pairwise.1 hc

/-- The indices of a product. -/
def idx (m : List GammaGen) : Finset Int := (m.map GammaGen.index).toFinset

theorem eval_delta {m : List GammaGen} (h : m.Pairwise fun u v => u.index < v.index) :
    evalMon (rep (S := S)) m (delta ∅) = delta (idx m) := by
  induction m with
  | nil => rfl
  | cons u m ih =>
    have h := List.pairwise_cons.1 h
    have : evalMon (rep (S := S)) (u :: m) = rep u * evalMon rep m := by simp [evalMon]
    rw [this, Module.End.mul_apply, ih h.2, rep, op_delta]
    · simp [idx]
    · intro j hj
      simp only [idx, List.mem_toFinset, List.mem_map] at hj
      obtain ⟨v, hv, rfl⟩ := hj
      exact h.1 v hv

theorem idx_inj {m n : List GammaGen} (hm : m.Pairwise fun u v => u.index < v.index)
    (hn : n.Pairwise fun u v => u.index < v.index) (h : idx m = idx n) : m = n := by
  have hm' : (m.map GammaGen.index).Pairwise (· < ·) := by rw [List.pairwise_map]; exact hm
  have hn' : (n.map GammaGen.index).Pairwise (· < ·) := by rw [List.pairwise_map]; exact hn
  have hp : (m.map GammaGen.index).Perm (n.map GammaGen.index) :=
    (List.perm_ext_iff_of_nodup (hm'.imp fun h => ne_of_lt h) (hn'.imp fun h => ne_of_lt h)).2 fun k => by
      have := congrArg (fun s => k ∈ s) h
      simpa [idx] using this
  have := hp.eq_of_pairwise (fun a b _ _ h h' => absurd h (lt_asymm h')) hm' hn'
  exact List.map_injective_iff.2 (fun a b e => by cases a; cases b; simp_all) this

theorem rep_faithful : UserFaithful S (rep (S := S)) := by
  classical
  rw [UserFaithful, linearIndependent_iff']
  intro s c h0 m hm
  have h1 := congrArg (fun f => f (delta ∅) (idx m.1)) h0
  simp only [LinearMap.sum_apply, LinearMap.smul_apply, Finset.sum_apply, Pi.smul_apply, LinearMap.zero_apply,
    Pi.zero_apply] at h1
  rw [Finset.sum_eq_single m] at h1
  · rw [eval_delta (stored_pairwise m.2), delta, if_pos rfl] at h1
    simpa using h1
  · intro k _ hk
    rw [eval_delta (stored_pairwise k.2), delta, if_neg, smul_zero]
    intro e
    exact hk (Subtype.ext (idx_inj (stored_pairwise k.2) (stored_pairwise m.2) e.symm))
  · intro h; exact absurd hm h

end Gamma
end LC
