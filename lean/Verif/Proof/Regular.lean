import Mathlib.Tactic.LinearCombination
import Mathlib.Tactic.NoncommRing
import Mathlib.Tactic.DeriveFintype
import Mathlib.Tactic.FinCases
import Mathlib.Data.List.Sort
import Verif.Proof.RegularF
import Verif.Proof.Predefined
import Verif.Proof.Fixpoint
/-
A faithful representation of the algebra of fermions, bosons and spins-1/2: the regular representation on the span of
the canonical monomials.
-/
set_option linter.unusedSectionVars false
set_option linter.unusedSimpArgs false
set_option linter.unusedTactic false
set_option linter.unusedVariables false
namespace LC.Reg
open ConstScalar
variable {ι S : Type _} [LinearOrder ι] [CommRing S] [DecidableEq S] [ConstScalar S] [ScalarLaws S]

/-- Operators on the values, pointwise. -/
def lift (I : Type _) {R : Type _} [AddCommGroup R] [Module S R] : Module.End S R →ₐ[S] Module.End S (I → R) :=
  AlgHom.ofLinearMap { toFun := fun f => f.compLeft I, map_add' := fun f g => by ext; rfl,
                       map_smul' := fun c f => by ext; rfl } (by ext; rfl) fun f g => by ext; rfl

theorem lift_apply (I : Type _) {R : Type _} [AddCommGroup R] [Module S R] (f : Module.End S R) (ψ : I → R) (x : I) :
    lift I f ψ x = f (ψ x) := rfl

/-- Basis `1, S_+, S_-, S_z` of the spin-1/2 algebra of one site. -/
inductive Loc where
  | one | sp (c : SpinComp)
  deriving DecidableEq

instance : Fintype SpinComp := ⟨{.plus, .minus, .z}, fun x => by cases x <;> decide⟩
instance : Fintype Loc := ⟨{.one, .sp .plus, .sp .minus, .sp .z}, fun x => by
  rcases x with _ | c
  · decide
  · cases c <;> decide⟩

theorem sum_loc (f : Loc → S) : ∑ l, f l = f .one + f (.sp .plus) + f (.sp .minus) + f (.sp .z) := by
  show (∑ l ∈ ({.one, .sp .plus, .sp .minus, .sp .z} : Finset Loc), f l) = _
  rw [Finset.sum_insert (by decide), Finset.sum_insert (by decide), Finset.sum_insert (by decide),
    Finset.sum_singleton]
  ring

/-- ½ -/
def hf (S : Type _) [CommRing S] [ConstScalar S] : S := makeConst (.rational 1 2)

theorem two_hf : 2 * hf S = 1 := mk_half

/-- Left multiplication by a generator, as a matrix (row = result). -/
def T : SpinComp → Matrix Loc Loc S
  | .plus => fun r c => match c, r with
    | .one, .sp .plus => 1
    | .sp .minus, .one => hf S
    | .sp .minus, .sp .z => 1
    | .sp .z, .sp .plus => - hf S
    | _, _ => 0
  | .minus => fun r c => match c, r with
    | .one, .sp .minus => 1
    | .sp .plus, .one => hf S
    | .sp .plus, .sp .z => -1
    | .sp .z, .sp .minus => hf S
    | _, _ => 0
  | .z => fun r c => match c, r with
    | .one, .sp .z => 1
    | .sp .plus, .sp .plus => hf S
    | .sp .minus, .sp .minus => - hf S
    | .sp .z, .one => hf S * hf S
    | _, _ => 0

theorem T_one (c : SpinComp) (r : Loc) : T (S := S) c r .one = if r = .sp c then 1 else 0 := by
  cases c <;> rcases r with _ | r <;> (try cases r) <;> simp [T]

macro "mat_tac" : tactic => `(tactic| (
  have h2 := two_hf (S := S)
  ext r c
  simp only [Matrix.mul_apply, sum_loc, Matrix.one_apply, Matrix.add_apply, Matrix.sub_apply, Matrix.smul_apply,
    Matrix.neg_apply, Matrix.zero_apply, smul_eq_mul]
  rcases r with _ | r <;> rcases c with _ | c <;> (try cases r) <;> (try cases c) <;>
    simp [T] <;>
    first
      | done
      | ring1
      | linear_combination h2
      | linear_combination (-1 : S) * h2
      | linear_combination (2 * hf S + 1) * h2
      | linear_combination (hf S) * h2
      | linear_combination (- hf S) * h2))

theorem T_pm : T (S := S) .plus * T .minus - T .minus * T .plus = (2 : S) • T .z := by mat_tac
theorem T_zp : T (S := S) .z * T .plus - T .plus * T .z = T .plus := by mat_tac
theorem T_zm : T (S := S) .z * T .minus - T .minus * T .z = - T .minus := by mat_tac
theorem T_pp : T (S := S) .plus * T .plus = 0 := by mat_tac
theorem T_mm : T (S := S) .minus * T .minus = 0 := by mat_tac
theorem T_zz : (4 : S) • (T (S := S) .z * T .z) = 1 := by mat_tac
theorem T_pm' : T (S := S) .plus * T .minus + T .minus * T .plus = 1 := by mat_tac
theorem T_zp' : T (S := S) .z * T .plus + T .plus * T .z = 0 := by mat_tac
theorem T_zm' : T (S := S) .z * T .minus + T .minus * T .z = 0 := by mat_tac

/-- Spin part. -/
abbrev Sp (ι S : Type _) := (ι → Loc) → S
/-- Bosons and spins. -/
abbrev BSp (ι S : Type _) := (Gen ι → ℕ) → Sp ι S
/-- The representation space. -/
abbrev V (ι S : Type _) := Finset (Gen ι) → BSp ι S

abbrev glt : Gen ι → Gen ι → Bool := Gen.ltOp

theorem glt_irr (a : Gen ι) : glt a a = false := LawfulGen.lt_irrefl a
theorem glt_asym (a b : Gen ι) (h : glt a b = true) : glt b a = false := gen_lt_asymm (G := Gen ι) h
theorem glt_tri (a b : Gen ι) (h : glt a b = false) (h' : glt b a = false) : a = b := by
  rcases LawfulGen.lt_tri a b with h1 | h1 | h1
  · exact absurd (show glt a b = true from h1) (by simp [h])
  · exact h1
  · exact absurd (show glt b a = true from h1) (by simp [h'])

/-- Boson operators on the middle factor. -/
def bos (d : Bool) (i : ι) : Module.End S (BSp ι S) :=
  if d then Xp (.boson true i) else Xp (.boson false i) + D (.boson true i)

/-- The representation. -/
def rep : Gen ι → Module.End S (V ι S)
  | .fermion true i => W glt (.fermion true i)
  | .fermion false i => W glt (.fermion false i) + K glt (.fermion true i)
  | .boson d i => lift _ (bos d i)
  | .spin _ c i => lift _ (lift _ (site i (T c)))

/-- Only spins 1/2. -/
def halfOnly : Nat → ι → Prop := fun n _ => n = 2

theorem halfAlone : HalfAlone (halfOnly (ι := ι)) := fun _ _ _ h => h

theorem rep_textbook : TextbookRel S halfOnly (rep : Gen ι → Module.End S (V ι S)) where
  car d i e j := by
    have ww := fun g h => WW (S := S) (R := BSp ι S) (lt := glt (ι := ι)) glt_irr glt_asym glt_tri g h
    have kk := fun g h => KK (S := S) (R := BSp ι S) (lt := glt (ι := ι)) glt_irr glt_asym glt_tri g h
    have wk := fun g h => WK (S := S) (R := BSp ι S) (lt := glt (ι := ι)) glt_irr glt_asym glt_tri g h
    cases d <;> cases e <;> simp only [rep]
    · have h1 := ww (.fermion false i) (.fermion false j)
      have h2 := kk (.fermion true i) (.fermion true j)
      have h3 := wk (.fermion false i) (.fermion true j)
      have h4 := wk (.fermion false j) (.fermion true i)
      simp only [Gen.fermion.injEq, Bool.false_eq_true, false_and, if_false] at h3 h4
      simp only [ne_eq, not_true, and_false, if_false]
      linear_combination (norm := noncomm_ring) h1 + h2 + h3 + h4
    · have h1 := ww (.fermion false i) (.fermion true j)
      have h3 := wk (.fermion true j) (.fermion true i)
      simp only [Gen.fermion.injEq, true_and] at h3
      have e : (i = j ∧ false ≠ true) ↔ (j = i) := by simp [eq_comm]
      simp only [e]
      linear_combination (norm := noncomm_ring) h1 + h3
    · have h1 := ww (.fermion true i) (.fermion false j)
      have h3 := wk (.fermion true i) (.fermion true j)
      simp only [Gen.fermion.injEq, true_and] at h3
      have e : (i = j ∧ true ≠ false) ↔ (i = j) := by simp
      simp only [e]
      linear_combination (norm := noncomm_ring) h1 + h3
    · simpa using ww (.fermion true i) (.fermion true j)
  ccr i j := by
    simp only [rep, bos]
    rw [← map_mul, ← map_mul, ← map_sub]
    have h1 := DX (S := S) (R := Sp ι S) (Gen.boson true i) (Gen.boson true j)
    have h2 := XX (S := S) (R := Sp ι S) (Gen.boson false i) (Gen.boson true j)
    simp only [Gen.boson.injEq, true_and] at h1
    have : (Xp (.boson false i) + D (.boson true i) : Module.End S (BSp ι S)) * Xp (.boson true j)
      - Xp (.boson true j) * (Xp (.boson false i) + D (.boson true i)) = if i = j then 1 else 0 := by
      rw [← h1]; simp only [mul_add, add_mul]; rw [h2]; abel
    simp only [Bool.false_eq_true, if_false, if_true, this]
    split <;> simp
  ccr_same d i j := by
    simp only [rep, bos]
    rw [← map_mul, ← map_mul]
    congr 1
    cases d
    · have h1 := DX (S := S) (R := Sp ι S) (Gen.boson true i) (Gen.boson false j)
      have h2 := DX (S := S) (R := Sp ι S) (Gen.boson true j) (Gen.boson false i)
      have h3 := XX (S := S) (R := Sp ι S) (Gen.boson false i) (Gen.boson false j)
      have h4 := DD (S := S) (R := Sp ι S) (Gen.boson true i) (Gen.boson true j)
      simp only [Gen.boson.injEq, Bool.true_eq_false, false_and, if_false, sub_eq_zero] at h1 h2
      simp only [Bool.false_eq_true, if_false, mul_add, add_mul]
      rw [h1, h2, h3, h4]; abel
    · exact XX _ _
  spin_pm n i _ := by
    simp only [rep]
    have := congrArg (fun M => lift (S := S) (Finset (Gen ι)) (lift (Gen ι → ℕ) (siteHom i M))) (T_pm (S := S))
    simp only [map_sub, map_mul, map_smul, siteHom_apply] at this
    rw [this, two_smul, two_mul]
  spin_zp n i _ := by
    simp only [rep]
    have := congrArg (fun M => lift (S := S) (Finset (Gen ι)) (lift (Gen ι → ℕ) (siteHom i M))) (T_zp (S := S))
    simpa only [map_sub, map_mul, map_smul, siteHom_apply] using this
  spin_zm n i _ := by
    simp only [rep]
    have := congrArg (fun M => lift (S := S) (Finset (Gen ι)) (lift (Gen ι → ℕ) (siteHom i M))) (T_zm (S := S))
    simpa only [map_sub, map_mul, map_neg, siteHom_apply] using this
  spin_comm n c i m e j hn hm h := by
    have h : i ≠ j := by
      rcases h with h | h
      · exact absurd (hn.trans hm.symm) h
      · exact h
    simp only [rep]
    rw [← map_mul, ← map_mul, ← map_mul, ← map_mul, site_comm h]
  spin_nil n c i hn hc := by
    have hn : n = 2 := hn
    subst hn
    simp only [rep]
    rw [pow_two, ← map_mul, ← map_mul, site_mul]
    have : T (S := S) c * T c = 0 := by
      cases c
      · exact T_pp
      · exact T_mm
      · exact absurd rfl hc
    rw [this, ← siteHom_apply]; simp
  half_zz i _ := by
    simp only [rep]
    have := congrArg (fun M => lift (S := S) (Finset (Gen ι)) (lift (Gen ι → ℕ) (siteHom i M))) (T_zz (S := S))
    simp only [map_smul, map_mul, map_one, siteHom_apply] at this
    rw [← this, Algebra.smul_def, map_ofNat]
  half_pm i _ := by
    simp only [rep]
    have := congrArg (fun M => lift (S := S) (Finset (Gen ι)) (lift (Gen ι → ℕ) (siteHom i M))) (T_pm' (S := S))
    simpa only [map_add, map_mul, map_one, siteHom_apply] using this
  half_z i c _ hc := by
    simp only [rep]
    have h : T (S := S) .z * T c + T c * T .z = 0 := by
      cases c
      · exact T_zp'
      · exact T_zm'
      · exact absurd rfl hc
    have := congrArg (fun M => lift (S := S) (Finset (Gen ι)) (lift (Gen ι → ℕ) (siteHom i M))) h
    simpa only [map_add, map_mul, map_zero, siteHom_apply] using this
  comm_fb d i e j := by
    have h1 := fun g f => W_comp (S := S) (R := BSp ι S) (lt := glt (ι := ι)) g f
    have h2 := fun g f => K_comp (S := S) (R := BSp ι S) (lt := glt (ι := ι)) g f
    cases d
    · simp only [rep, mul_add, add_mul]
      exact congrArg₂ _ (h1 _ _) (h2 _ _)
    · simp only [rep]
      exact h1 _ _
  comm_fs d i n c j _ := by
    have h1 := fun g f => W_comp (S := S) (R := BSp ι S) (lt := glt (ι := ι)) g f
    have h2 := fun g f => K_comp (S := S) (R := BSp ι S) (lt := glt (ι := ι)) g f
    cases d
    · simp only [rep, mul_add, add_mul]
      exact congrArg₂ _ (h1 _ _) (h2 _ _)
    · simp only [rep]
      exact h1 _ _
  comm_bs d i n c j _ := by
    have h1 := fun g f => X_comp (S := S) (R := Sp ι S) (X := Gen ι) g f
    have h2 := fun g f => D_comp (S := S) (R := Sp ι S) (X := Gen ι) g f
    simp only [rep, bos]
    rw [← map_mul, ← map_mul]
    congr 1
    cases d
    · simp only [Bool.false_eq_true, if_false, mul_add, add_mul]
      exact congrArg₂ _ (h1 _ _) (h2 _ _)
    · exact h1 _ _
end LC.Reg
