import Mathlib.Tactic.LinearCombination
import Mathlib.Tactic.Module
import Mathlib.Algebra.Algebra.Operations
import Verif.Proof.Soundness
import Verif.Proof.Canonical
import Verif.Spec.Textbook
/-
The predefined algebras satisfy the contract of C04 and the conditions for canonical forms.
-/
set_option linter.unusedSectionVars false
set_option linter.unusedSimpArgs false
set_option linter.unusedTactic false
namespace LC
open ConstScalar
variable {ι S A : Type _} [LinearOrder ι] [CommRing S] [DecidableEq S] [ConstScalar S] [ScalarLaws S]
  [Ring A] [Algebra S A]

theorem mk_half : (2 : S) * makeConst (.rational 1 2) = 1 := by
  have := mk_rational (S := S) 1 2 (by decide)
  rw [mul_comm]; simpa using this

theorem mk_neg_half : (2 : S) * makeConst (.rational (-1) 2) = -1 := by
  have := mk_rational (S := S) (-1) 2 (by decide)
  rw [mul_comm]; simpa using this

theorem mk_quarter : (4 : S) * makeConst (.rational 1 4) = 1 := by
  have := mk_rational (S := S) 1 4 (by decide)
  rw [mul_comm]; simpa using this

/-- From `2 • x = y` conclude `x = ½ • y`. -/
theorem half_smul {x y : A} (h : (2 : S) • x = y) : x = (makeConst (.rational 1 2) : S) • y := by
  rw [← h, ← mul_smul, mul_comm, mk_half, one_smul]

theorem neg_half_eq : (makeConst (.rational (-1) 2) : S) = - makeConst (.rational 1 2) := by
  have h1 := mk_half (S := S)
  have h2 := mk_neg_half (S := S)
  calc (makeConst (.rational (-1) 2) : S) = (2 * makeConst (.rational 1 2)) * makeConst (.rational (-1) 2) := by
        rw [h1, one_mul]
    _ = makeConst (.rational 1 2) * (2 * makeConst (.rational (-1) 2)) := by ring
    _ = _ := by rw [h2]; ring

theorem gt_spin_same {n : Nat} {c e : SpinComp} {i : ι} (h : GenOps.gt (Gen.spin n c i) (Gen.spin n e i) = true) :
    (c = .minus ∧ e = .plus) ∨ (c = .z ∧ e = .plus) ∨ (c = .z ∧ e = .minus) := by
  simp [GenOps.gt, Gen.gtOp, Gen.greater, Gen.algebraId] at h
  cases c <;> cases e <;> simp_all [SpinComp.toNat]

theorem ngt_spin_same {n : Nat} {c e : SpinComp} {i : ι} (h : GenOps.gt (Gen.spin n c i) (Gen.spin n e i) = false) :
    c = e ∨ (c = .plus ∧ e = .minus) ∨ (c = .plus ∧ e = .z) ∨ (c = .minus ∧ e = .z) := by
  simp [GenOps.gt, Gen.gtOp, Gen.greater, Gen.algebraId] at h
  cases c <;> cases e <;> simp_all [SpinComp.toNat]

/-- The textbook relations without the nilpotency of the ladder operators of spins S ≥ 1: what sorting and the pair
simplifications use. -/
structure TextbookCore (S : Type _) [CommRing S] {A : Type _} [Ring A] [Algebra S A] (M : Nat → ι → Prop) (ρ : Gen ι → A) :
    Prop where
  car : ∀ d i e j, ρ (.fermion d i) * ρ (.fermion e j) + ρ (.fermion e j) * ρ (.fermion d i)
    = if i = j ∧ d ≠ e then 1 else 0
  ccr : ∀ i j, ρ (.boson false i) * ρ (.boson true j) - ρ (.boson true j) * ρ (.boson false i)
    = if i = j then 1 else 0
  ccr_same : ∀ d i j, ρ (.boson d i) * ρ (.boson d j) = ρ (.boson d j) * ρ (.boson d i)
  spin_pm : ∀ n i, M n i → ρ (.spin n .plus i) * ρ (.spin n .minus i) - ρ (.spin n .minus i) * ρ (.spin n .plus i)
    = 2 * ρ (.spin n .z i)
  spin_zp : ∀ n i, M n i → ρ (.spin n .z i) * ρ (.spin n .plus i) - ρ (.spin n .plus i) * ρ (.spin n .z i)
    = ρ (.spin n .plus i)
  spin_zm : ∀ n i, M n i → ρ (.spin n .z i) * ρ (.spin n .minus i) - ρ (.spin n .minus i) * ρ (.spin n .z i)
    = - ρ (.spin n .minus i)
  spin_comm : ∀ n c i m e j, M n i → M m j → (n ≠ m ∨ i ≠ j) →
    ρ (.spin n c i) * ρ (.spin m e j) = ρ (.spin m e j) * ρ (.spin n c i)
  half_nil : ∀ i c, M 2 i → c ≠ .z → ρ (.spin 2 c i) * ρ (.spin 2 c i) = 0
  half_zz : ∀ i, M 2 i → 4 * (ρ (.spin 2 .z i) * ρ (.spin 2 .z i)) = 1
  half_pm : ∀ i, M 2 i → ρ (.spin 2 .plus i) * ρ (.spin 2 .minus i) + ρ (.spin 2 .minus i) * ρ (.spin 2 .plus i) = 1
  half_z : ∀ i c, M 2 i → c ≠ .z →
    ρ (.spin 2 .z i) * ρ (.spin 2 c i) + ρ (.spin 2 c i) * ρ (.spin 2 .z i) = 0
  comm_fb : ∀ d i e j, ρ (.fermion d i) * ρ (.boson e j) = ρ (.boson e j) * ρ (.fermion d i)
  comm_fs : ∀ d i n c j, M n j → ρ (.fermion d i) * ρ (.spin n c j) = ρ (.spin n c j) * ρ (.fermion d i)
  comm_bs : ∀ d i n c j, M n j → ρ (.boson d i) * ρ (.spin n c j) = ρ (.spin n c j) * ρ (.boson d i)

theorem TextbookRel.core {M : Nat → ι → Prop} {ρ : Gen ι → A} (h : TextbookRel S M ρ) : TextbookCore S M ρ where
  car := h.car
  ccr := h.ccr
  ccr_same := h.ccr_same
  spin_pm := h.spin_pm
  spin_zp := h.spin_zp
  spin_zm := h.spin_zm
  spin_comm := h.spin_comm
  half_nil i c hM hc := by rw [← pow_two]; exact h.spin_nil 2 c i hM hc
  half_zz := h.half_zz
  half_pm := h.half_pm
  half_z := h.half_z
  comm_fb := h.comm_fb
  comm_fs := h.comm_fs
  comm_bs := h.comm_bs

theorem TextbookCore.rel {M : Nat → ι → Prop} {ρ : Gen ι → A} (h : TextbookCore S M ρ)
    (hn : ∀ n c i, M n i → c ≠ .z → ρ (.spin n c i) ^ n = 0) : TextbookRel S M ρ where
  car := h.car
  ccr := h.ccr
  ccr_same := h.ccr_same
  spin_pm := h.spin_pm
  spin_zp := h.spin_zp
  spin_zm := h.spin_zm
  spin_comm := h.spin_comm
  spin_nil := hn
  half_zz := h.half_zz
  half_pm := h.half_pm
  half_z := h.half_z
  comm_fb := h.comm_fb
  comm_fs := h.comm_fs
  comm_bs := h.comm_bs

theorem TextbookCore.swap {M : Nat → ι → Prop} {ρ : Gen ι → A} (h : TextbookCore S M ρ)
    (g₁ g₂ : Gen ι) (h₁ : Allowed M g₁) (h₂ : Allowed M g₂) (hgt : GenOps.gt g₁ g₂ = true) :
    ρ g₁ * ρ g₂ = (ConstScalar.makeConst (GenOps.swapWith g₁ g₂).1 : S) • (ρ g₂ * ρ g₁)
      + evalLin S ρ (GenOps.swapWith g₁ g₂).2 := by
    cases g₁ with
    | fermion d i =>
      cases g₂ with
      | fermion e j =>
        have := h.car d i e j
        simp only [GenOps.swapWith, Gen.swapWith, evalLin, mk_integer, List.map_nil, List.sum_nil, add_zero]
        rw [← sub_eq_iff_eq_add'] 
        simp only [Int.cast_neg, Int.cast_one, neg_smul, one_smul, sub_neg_eq_add]
        rw [this]; split <;> simp
      | boson e j => simp [GenOps.swapWith, Gen.swapWith, evalLin, mk_integer, h.comm_fb]
      | spin n e j => simp [GenOps.swapWith, Gen.swapWith, evalLin, mk_integer, h.comm_fs d i n e j h₂]
    | boson d i =>
      cases g₂ with
      | fermion e j => simp [GenOps.swapWith, Gen.swapWith, evalLin, mk_integer, h.comm_fb]
      | boson e j =>
        simp only [GenOps.swapWith, Gen.swapWith, evalLin, mk_integer, List.map_nil, List.sum_nil, add_zero]
        cases d <;> cases e
        · simp [h.ccr_same]
        · have := h.ccr i j
          rw [sub_eq_iff_eq_add'] at this
          rw [this]; split <;> simp_all
        · simp [GenOps.gt, Gen.gtOp, Gen.greater, Gen.algebraId] at hgt
        · simp [h.ccr_same]
      | spin n e j => simp [GenOps.swapWith, Gen.swapWith, evalLin, mk_integer, h.comm_bs d i n e j h₂]
    | spin n c i =>
      cases g₂ with
      | fermion e j => simp [GenOps.swapWith, Gen.swapWith, evalLin, mk_integer, h.comm_fs e j n c i h₁]
      | boson e j => simp [GenOps.swapWith, Gen.swapWith, evalLin, mk_integer, h.comm_bs e j n c i h₁]
      | spin m e j =>
        have h₁ : M n i := h₁
        have h₂ : M m j := h₂
        by_cases hs : i = j ∧ n = m
        · obtain ⟨rfl, rfl⟩ := hs
          have hz := h.spin_zp n i h₁
          have hzm := h.spin_zm n i h₁
          have hpm := h.spin_pm n i h₁
          by_cases h2 : n = 2
          · subst h2
            simp only [GenOps.swapWith, Gen.swapWith, and_self, if_true, Gen.swapSpinHalf]
            rcases gt_spin_same hgt with ⟨rfl, rfl⟩ | ⟨rfl, rfl⟩ | ⟨rfl, rfl⟩
            · simp only [reduceCtorEq, if_false, evalLin, mk_integer, List.map_cons, List.map_nil, List.sum_cons,
                List.sum_nil, Int.cast_zero, zero_smul, zero_add, add_zero, Int.cast_neg, Int.cast_one, neg_smul,
                one_smul]
              have h3 := h.half_pm i h₁
              rw [Algebra.algebraMap_eq_smul_one]
              rw [← one_smul S (ρ (.spin 2 .z i)), ← mk_half (S := S), mul_comm, mul_smul, ← smul_neg, ← smul_add]
              apply half_smul
              rw [two_smul, two_smul]
              have : ρ (.spin 2 .minus i) * ρ (.spin 2 .plus i) + ρ (.spin 2 .minus i) * ρ (.spin 2 .plus i)
                = (ρ (.spin 2 .plus i) * ρ (.spin 2 .minus i) + ρ (.spin 2 .minus i) * ρ (.spin 2 .plus i))
                - (ρ (.spin 2 .plus i) * ρ (.spin 2 .minus i) - ρ (.spin 2 .minus i) * ρ (.spin 2 .plus i)) := by abel
              rw [this, h3, hpm, two_mul]; abel
            · simp only [if_true, evalLin, mk_integer, List.map_cons, List.map_nil, List.sum_cons,
                List.sum_nil, Int.cast_zero, zero_smul, zero_add, add_zero, map_zero]
              have h3 := h.half_z i .plus h₁ (by simp)
              apply half_smul
              rw [two_smul]
              have : ρ (.spin 2 .z i) * ρ (.spin 2 .plus i) + ρ (.spin 2 .z i) * ρ (.spin 2 .plus i)
                = (ρ (.spin 2 .z i) * ρ (.spin 2 .plus i) + ρ (.spin 2 .plus i) * ρ (.spin 2 .z i))
                + (ρ (.spin 2 .z i) * ρ (.spin 2 .plus i) - ρ (.spin 2 .plus i) * ρ (.spin 2 .z i)) := by abel
              rw [this, h3, hz]; abel
            · simp only [if_true, evalLin, mk_integer, List.map_cons, List.map_nil, List.sum_cons, reduceCtorEq,
                if_false,
                List.sum_nil, Int.cast_zero, zero_smul, zero_add, add_zero, map_zero, neg_half_eq, neg_smul]
              have h3 := h.half_z i .minus h₁ (by simp)
              rw [← smul_neg]
              apply half_smul
              rw [two_smul]
              have : ρ (.spin 2 .z i) * ρ (.spin 2 .minus i) + ρ (.spin 2 .z i) * ρ (.spin 2 .minus i)
                = (ρ (.spin 2 .z i) * ρ (.spin 2 .minus i) + ρ (.spin 2 .minus i) * ρ (.spin 2 .z i))
                + (ρ (.spin 2 .z i) * ρ (.spin 2 .minus i) - ρ (.spin 2 .minus i) * ρ (.spin 2 .z i)) := by abel
              rw [this, h3, hzm]; abel
          · simp only [GenOps.swapWith, Gen.swapWith, and_self, if_true, Gen.swapHigherSpin, h2, if_false]
            rcases gt_spin_same hgt with ⟨rfl, rfl⟩ | ⟨rfl, rfl⟩ | ⟨rfl, rfl⟩
            · simp [evalLin, mk_integer]
              rw [← sub_eq_iff_eq_add'] 
              have e : (2 : S) • ρ (.spin n .z i) = 2 * ρ (.spin n .z i) := by rw [two_smul, two_mul]
              rw [e, ← hpm]; abel
            · simp [evalLin, mk_integer]
              rw [← sub_eq_iff_eq_add', hz]
            · simp [evalLin, mk_integer]
              rw [← sub_eq_iff_eq_add', hzm]
        · have hs' : n ≠ m ∨ i ≠ j := by tauto
          simp [GenOps.swapWith, Gen.swapWith, evalLin, mk_integer, hs, h.spin_comm n c i m e j h₁ h₂ hs']

theorem TextbookCore.simp {M : Nat → ι → Prop} (hM : HalfAlone M) {ρ : Gen ι → A} (h : TextbookCore S M ρ)
    (g₁ g₂ : Gen ι) (f : LinFun (Gen ι)) (h₁ : Allowed M g₁) (h₂ : Allowed M g₂) (hgt : GenOps.gt g₁ g₂ = false)
    (hf : GenOps.simplifyProd g₁ g₂ = some f) : ρ g₁ * ρ g₂ = evalLin S ρ f := by
    cases g₁ with
    | fermion d i =>
      cases g₂ with
      | fermion e j =>
        simp only [GenOps.simplifyProd, Gen.simplifyProd] at hf
        split at hf
        · rename_i he
          rw [Gen.eqOp_iff] at he
          cases he
          simp at hf; subst hf
          simp only [evalLin, mk_integer, Int.cast_zero, map_zero, List.map_nil, List.sum_nil, add_zero]
          have := h.car d i d i
          simp at this
          rw [← two_smul S] at this
          rw [half_smul this, smul_zero]
        · simp at hf
      | boson e j => simp [GenOps.simplifyProd, Gen.simplifyProd] at hf
      | spin n e j => simp [GenOps.simplifyProd, Gen.simplifyProd] at hf
    | boson d i => cases g₂ <;> simp [GenOps.simplifyProd, Gen.simplifyProd] at hf
    | spin n c i =>
      cases g₂ with
      | fermion e j => simp [GenOps.simplifyProd, Gen.simplifyProd] at hf
      | boson e j => simp [GenOps.simplifyProd, Gen.simplifyProd] at hf
      | spin m e j =>
        have h₁ : M n i := h₁
        have h₂ : M m j := h₂
        simp only [GenOps.simplifyProd, Gen.simplifyProd] at hf
        split at hf
        · simp at hf
        · rename_i hij
          simp only [not_or, not_not] at hij
          obtain ⟨rfl, h2⟩ := hij
          have h2 : n = 2 := by omega
          subst h2
          have : m = 2 := hM i m h₁ h₂
          subst this
          have hz := h.spin_zp 2 i h₁
          have hzm := h.spin_zm 2 i h₁
          have hpm := h.spin_pm 2 i h₁
          rcases ngt_spin_same hgt with rfl | ⟨rfl, rfl⟩ | ⟨rfl, rfl⟩ | ⟨rfl, rfl⟩
          · replace hf : some _ = some f := (if_pos rfl).symm.trans hf
            injection hf with hf
            subst hf
            by_cases hcz : c = .z
            · subst hcz
              simp only [if_true, evalLin, List.map_nil, List.sum_nil, add_zero]
              have h4 := h.half_zz i h₁
              rw [Algebra.algebraMap_eq_smul_one, ← h4]
              have e : (4 : A) * (ρ (.spin 2 .z i) * ρ (.spin 2 .z i))
                = (4 : S) • (ρ (.spin 2 .z i) * ρ (.spin 2 .z i)) := by
                rw [Algebra.smul_def, map_ofNat]
              rw [e, ← mul_smul, mul_comm, mk_quarter, one_smul]
            · simp only [hcz, if_false, evalLin, List.map_nil, List.sum_nil, add_zero, mk_integer, Int.cast_zero,
                map_zero]
              exact h.half_nil i c h₁ hcz
          · simp only [reduceCtorEq, if_false, Option.some.injEq] at hf
            subst hf
            simp only [evalLin, mk_integer, List.map_cons, List.map_nil, List.sum_cons,
                List.sum_nil, zero_add, add_zero, Int.cast_one, one_smul]
            have h3 := h.half_pm i h₁
            rw [Algebra.algebraMap_eq_smul_one]
            rw [← one_smul S (ρ (.spin 2 .z i)), ← mk_half (S := S), mul_comm, mul_smul, ← smul_add]
            apply half_smul
            rw [two_smul, two_smul]
            have : ρ (.spin 2 .plus i) * ρ (.spin 2 .minus i) + ρ (.spin 2 .plus i) * ρ (.spin 2 .minus i)
                = (ρ (.spin 2 .plus i) * ρ (.spin 2 .minus i) + ρ (.spin 2 .minus i) * ρ (.spin 2 .plus i))
                + (ρ (.spin 2 .plus i) * ρ (.spin 2 .minus i) - ρ (.spin 2 .minus i) * ρ (.spin 2 .plus i)) := by abel
            rw [this, h3, hpm, two_mul]
          · simp only [reduceCtorEq, if_false, if_true, Option.some.injEq] at hf
            subst hf
            simp only [evalLin, mk_integer, List.map_cons, List.map_nil, List.sum_cons, List.sum_nil, add_zero,
              Int.cast_zero, map_zero, zero_add, neg_half_eq, neg_smul]
            have h3 := h.half_z i .plus h₁ (by simp)
            rw [← smul_neg]
            apply half_smul
            rw [two_smul]
            have : ρ (.spin 2 .plus i) * ρ (.spin 2 .z i) + ρ (.spin 2 .plus i) * ρ (.spin 2 .z i)
                = (ρ (.spin 2 .z i) * ρ (.spin 2 .plus i) + ρ (.spin 2 .plus i) * ρ (.spin 2 .z i))
                - (ρ (.spin 2 .z i) * ρ (.spin 2 .plus i) - ρ (.spin 2 .plus i) * ρ (.spin 2 .z i)) := by abel
            rw [this, h3, hz]; abel
          · simp only [reduceCtorEq, if_false, if_true, Option.some.injEq] at hf
            subst hf
            simp only [evalLin, mk_integer, List.map_cons, List.map_nil, List.sum_cons, List.sum_nil, add_zero,
              Int.cast_zero, map_zero, zero_add]
            have h3 := h.half_z i .minus h₁ (by simp)
            apply half_smul
            rw [two_smul]
            have : ρ (.spin 2 .minus i) * ρ (.spin 2 .z i) + ρ (.spin 2 .minus i) * ρ (.spin 2 .z i)
                = (ρ (.spin 2 .z i) * ρ (.spin 2 .minus i) + ρ (.spin 2 .minus i) * ρ (.spin 2 .z i))
                - (ρ (.spin 2 .z i) * ρ (.spin 2 .minus i) - ρ (.spin 2 .minus i) * ρ (.spin 2 .z i)) := by abel
            rw [this, h3, hzm]; abel

theorem represents_of_textbook {M : Nat → ι → Prop} (hM : HalfAlone M) {ρ : Gen ι → A} (h : TextbookRel S M ρ) :
    Represents S (Allowed M) ρ where
  swap := h.core.swap
  simp := h.core.simp hM
  red_false g p f _ _ _ := by cases g <;> rfl
  red_true g p hg _ hr := by
    cases g with
    | fermion d i => simp [GenOps.reducePower, Gen.reducePower] at hr
    | boson d i => simp [GenOps.reducePower, Gen.reducePower] at hr
    | spin n c i =>
      simp only [GenOps.reducePower, Gen.reducePower, Bool.and_eq_true, decide_eq_true_eq] at hr
      have h0 := h.spin_nil n c i hg hr.1
      have : ρ (.spin n c i) ^ p = 0 := by
        rw [show p = n + (p - n) by omega, pow_add, h0, zero_mul]
      rw [this]
      simp [evalLin, GenOps.reducePower, Gen.reducePower, LinFun.zero, mk_integer]
  swap_mem g₁ g₂ h₁ h₂ _ p hp := by
    cases g₁ <;> cases g₂ <;>
      simp only [GenOps.swapWith, Gen.swapWith, Gen.swapSpinHalf, Gen.swapHigherSpin] at hp
    all_goals try (simp at hp; done)
    split at hp
    · rename_i hs
      obtain ⟨rfl, rfl⟩ := hs
      split at hp
      · rename_i h2
        subst h2
        split at hp
        · split at hp <;> (simp at hp; subst hp; exact h₁)
        · simp at hp; subst hp; exact h₁
      · split at hp
        · split at hp <;> (simp at hp; subst hp; exact h₁)
        · simp at hp; subst hp; exact h₁
    · simp at hp
  simp_mem g₁ g₂ f h₁ h₂ _ hf p hp := by
    cases g₁ <;> cases g₂ <;> simp only [GenOps.simplifyProd, Gen.simplifyProd] at hf
    all_goals try (simp at hf; done)
    · split at hf <;> simp at hf
      subst hf; simp at hp
    · split at hf
      · simp at hf
      · split at hf
        · simp at hf; subst hf; simp at hp
        · split at hf
          · split at hf <;> (simp at hf; subst hf; simp at hp; subst hp; exact h₁)
          · simp at hf; subst hf; simp at hp; subst hp; exact h₂
  red_mem g p _ _ _ q hq := by
    cases g <;> simp [GenOps.reducePower, Gen.reducePower, LinFun.zero] at hq

theorem nfGen (M : Nat → ι → Prop) (hM : HalfAlone M) : NFGen (Allowed M) where
  swap_mem g₁ g₂ h₁ h₂ _ p hp := by
    cases g₁ <;> cases g₂ <;>
      simp only [GenOps.swapWith, Gen.swapWith, Gen.swapSpinHalf, Gen.swapHigherSpin] at hp
    all_goals try (simp at hp; done)
    split at hp
    · rename_i hs
      obtain ⟨rfl, rfl⟩ := hs
      split at hp
      · rename_i h2
        subst h2
        split at hp
        · split at hp <;> (simp at hp; subst hp; exact h₁)
        · simp at hp; subst hp; exact h₁
      · split at hp
        · split at hp <;> (simp at hp; subst hp; exact h₁)
        · simp at hp; subst hp; exact h₁
    · simp at hp
  simp_mem g₁ g₂ f h₁ h₂ _ hf p hp := by
    cases g₁ <;> cases g₂ <;> simp only [GenOps.simplifyProd, Gen.simplifyProd] at hf
    all_goals try (simp at hf; done)
    · split at hf <;> simp at hf
      subst hf; simp at hp
    · split at hf
      · simp at hf
      · split at hf
        · simp at hf; subst hf; simp at hp
        · split at hf
          · split at hf <;> (simp at hf; subst hf; simp at hp; subst hp; exact h₁)
          · simp at hf; subst hf; simp at hp; subst hp; exact h₂
  swap_ok x y hx hy hgt hc := by
    cases x with
    | fermion d i =>
      cases y with
      | fermion e j =>
        simp only [GenOps.simplifyProd, Gen.simplifyProd]
        rw [if_neg]
        intro h
        rw [Gen.eqOp_iff] at h
        rw [h, ngt_refl] at hgt
        simp at hgt
      | boson e j => rfl
      | spin n e j => rfl
    | boson d i => cases y <;> rfl
    | spin n c i =>
      cases y with
      | fermion e j => rfl
      | boson e j => rfl
      | spin m e j =>
        simp only [GenOps.simplifyProd, Gen.simplifyProd]
        rw [if_pos]
        by_contra hcon
        simp only [not_or, not_not] at hcon
        obtain ⟨rfl, h2⟩ := hcon
        have h2 : m = 2 := by omega
        subst h2
        have : n = 2 := hM _ n hy hx
        subst this
        simp only [GenOps.swapWith, Gen.swapWith, and_self, if_true, Gen.swapSpinHalf] at hc
        split at hc
        · split at hc <;> simp [VarNumber.eq] at hc
        · simp [VarNumber.eq] at hc
  red_false g p f _ _ _ := by cases g <;> rfl
  red_vanish g p _ _ _ := by cases g <;> rfl

end LC
