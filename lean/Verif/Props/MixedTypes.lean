import Verif.Props.AnyScalar
import Verif.Model.Factories
/-
C69: arithmetic of expressions with different scalar types.
-/
set_option linter.unusedSectionVars false
set_option linter.unusedSimpArgs false
namespace LC
open Terms

section
universe u
variable {G U : Type _} {El : U → Type u} [GenOps G] [LawfulGen G] [F : ScalarFamily U El] {s t r : U} {P : G → Prop}

/-- Arithmetic between the scalar types `s` and `t` with results of the type `r` is conversion of both operands to `r`
followed by arithmetic of `r` (what C++'s usual arithmetic conversions do), and converting a zero gives a zero. -/
structure ConvertsTo (El : U → Type u) [F : ScalarFamily U El] (s t r : U) : Prop where
  add : ∀ (x : El s) (y : El t), (F.bin s t r).add x y = ScalarOps.add ((F.asg r s).conv x) ((F.asg r t).conv y)
  sub : ∀ (x : El s) (y : El t), (F.bin s t r).sub x y = ScalarOps.sub ((F.asg r s).conv x) ((F.asg r t).conv y)
  mul : ∀ (x : El s) (y : El t), (F.bin s t r).mul x y = ScalarOps.mul ((F.asg r s).conv x) ((F.asg r t).conv y)
  sub' : ∀ (y : El t) (x : El s), (F.bin t s r).sub y x = ScalarOps.sub ((F.asg r t).conv y) ((F.asg r s).conv x)
  mul' : ∀ (y : El t) (x : El s), (F.bin t s r).mul y x = ScalarOps.mul ((F.asg r t).conv y) ((F.asg r s).conv x)
  addAsg : ∀ (x : El r) (y : El t), (F.asg r t).addAsg x y = ScalarOps.add x ((F.asg r t).conv y)
  subAsg : ∀ (x : El r) (y : El t), (F.asg r t).subAsg x y = ScalarOps.sub x ((F.asg r t).conv y)
  mulAsg : ∀ (x : El r) (y : El t), (F.asg r t).mulAsg x y = ScalarOps.mul x ((F.asg r t).conv y)
  subInit : ∀ (x : El r) (y : El t), (F.asg r t).sub x y = ScalarOps.sub x ((F.asg r t).conv y)
  mulInit : ∀ (x : El r) (y : El t), (F.asg r t).mul x y = ScalarOps.mul x ((F.asg r t).conv y)
  zsub : ∀ y : El t, F.zsub s t r y = ScalarOps.sub (ScalarOps.makeConst (S := El r) (.integer 0)) ((F.asg r t).conv y)
  zero : (F.asg r s).conv (ScalarOps.makeConst (.integer 0)) = ScalarOps.makeConst (S := El r) (.integer 0)
  zero' : (F.asg r t).conv (ScalarOps.makeConst (.integer 0)) = ScalarOps.makeConst (S := El r) (.integer 0)
  add_zero : ∀ x : El r, ScalarOps.add x (ScalarOps.makeConst (.integer 0)) = x
  zero_add : ∀ x : El r, ScalarOps.add (ScalarOps.makeConst (S := El r) (.integer 0)) x = x
  sub_zero : ∀ x : El r, ScalarOps.sub x (ScalarOps.makeConst (.integer 0)) = x

/-- **C69** Conversion between scalar types (the converting constructor and assignment) converts every coefficient and
keeps every monomial. -/
theorem C69_conversion {a : Expr G (El s)} (ha : MixedReachable P s a) (k : List G) (w : El r) :
    (k, w) ∈ (Mixed.convert (F.asg r s).conv a).terms ↔ ∃ v, (k, v) ∈ a.terms ∧ w = (F.asg r s).conv v := by
  rw [Mixed.convert_terms (S := El s) (R := El r) _ ha.sortedTerms]
  simp [eq_comm]

/-- **C69** Sum, difference and product of expressions of different scalar types are what one gets by first converting
both operands to the result type; the compound assignments convert the right operand. -/
theorem C69_mixed_expressions (h : ConvertsTo El s t r) {a : Expr G (El s)} {b : Expr G (El t)} {e : Expr G (El r)}
    (ha : MixedReachable P s a) (hb : MixedReachable P t b) :
    let a' : Expr G (El r) := Mixed.convert (F.asg r s).conv a
    let b' : Expr G (El r) := Mixed.convert (F.asg r t).conv b
    Mixed.add (F.bin s t r) a b = Any.addAssign a' b' ∧
    Mixed.sub (F.bin s t r) a b = Any.subAssign a' b' ∧
    Mixed.mul (F.asg r s).conv (F.asg r t) a b = Any.mulAssign a' b' ∧
    Mixed.addAssign (F.asg r t) e b = Any.addAssign e b' ∧
    Mixed.subAssign (F.asg r t) e b = Any.subAssign e b' ∧
    Mixed.mulAssign (F.asg r t) e b = Any.mulAssign e b' := by
  have hsa := ha.sortedTerms
  have hsb := hb.sortedTerms
  refine ⟨Mixed.add_eq_convert _ _ _ h.add ?_ ?_ hsa hsb, Mixed.sub_eq_convert _ _ _ h.sub ?_ h.zero hsa hsb,
    Mixed.mulAssign_eq_convert _ h.mulInit hsb _, Mixed.addAssign_eq_convert _ h.addAsg hsb _,
    Mixed.subAssign_eq_convert _ h.subAsg h.subInit hsb _, Mixed.mulAssign_eq_convert _ h.mulInit hsb _⟩
  · intro x; simp only [Any.zero]; rw [h.zero', h.add_zero]
  · intro y; simp only [Any.zero]; rw [h.zero, h.zero_add]
  · intro x; simp only [Any.zero]; rw [h.zero', h.sub_zero]

/-- **C69** Arithmetic of an expression and a scalar `x` of another type is what one gets by first converting both to the
result type, provided the conversion does not change the result of `is_zero(x)`. -/
theorem C69_mixed_scalar_partial (h : ConvertsTo El s t r) {a : Expr G (El s)} {e : Expr G (El r)} (x : El t)
    (hz : ScalarOps.isZero ((F.asg r t).conv x) = ScalarOps.isZero x)
    (ha : MixedReachable P s a) :
    let a' : Expr G (El r) := Mixed.convert (F.asg r s).conv a
    let x' : El r := (F.asg r t).conv x
    Mixed.smulPostfix (F.bin s t r) a x = Any.smulPostfix a' x' ∧
    Mixed.smulPrefix (F.bin t s r) x a = Any.smulPrefix x' a' ∧
    Mixed.addScalar (F.asg r s).conv (F.asg r t) a x = Any.addScalar a' x' ∧
    Mixed.subScalar (F.asg r s).conv (F.asg r t) (F.zsub s t r) a x = Any.subScalar a' x' ∧
    Mixed.scalarSub (F.bin t s r) (F.asg r t) x a = Any.scalarSub x' a' ∧
    Mixed.smulAssign (F.asg r t).mulAsg e x = Any.smulPostfix e x' ∧
    Mixed.addAssignScalar (F.asg r t) e x = Any.addAssignScalar e x' ∧
    Mixed.subAssignScalar (F.asg r t) e x = Any.subScalar e x' ∧
    (Mixed.constOf (F.asg r t).conv x : Expr G (El r)) = Any.const x' := by
  have hsa := ha.sortedTerms
  refine ⟨Mixed.smulPostfix_eq_convert _ _ _ h.mul x hz hsa, Mixed.smulPrefix_eq_convert _ _ _ h.mul' x hz hsa,
    Mixed.addScalar_eq_convert _ _ h.addAsg x hz a, Mixed.subScalar_eq_convert _ _ _ h.subAsg h.zsub x hz a,
    Mixed.scalarSub_eq_convert _ _ _ ?_ h.addAsg x hz hsa, ?_, ?_, ?_, ?_⟩
  · intro y; simp only [Any.zero]; rw [h.sub', h.zero']
  · simp only [Mixed.smulAssign, Any.smulPostfix, hz, h.mulAsg]
  · rw [Mixed.addAssignScalar_eq (S := El r) (S' := El t), Any.addAssignScalar_upd (S := El r), hz]
    simp only [h.addAsg, Mixed.keep, Any.plus]
  · rw [Mixed.subAssignScalar_eq (S := El r) (S' := El t), Any.subScalar_upd (S := El r), hz]
    simp only [h.subAsg, h.subInit, Mixed.keep, Any.minus]
  · simp only [Mixed.constOf, Any.const, hz]

end

/-! ### The C++ types `int`, `float`, `double` -/

open CType

/-- `int` and `double` operands with `double` results satisfy the hypotheses of `C69_mixed_expressions`, and all `int`
values satisfy the hypothesis of `C69_mixed_scalar_partial`. -/
theorem convertsTo_int_double : ConvertsTo CType.El double int double ∧
    ∀ x : CType.El int, ScalarOps.isZero (((inferInstance : ScalarFamily CType CType.El).asg double int).conv x)
      = ScalarOps.isZero x := by
  constructor
  · constructor <;> intros <;>
      simp [ScalarFamily.bin, ScalarFamily.asg, ScalarFamily.zsub, ScalarOps.add, ScalarOps.sub, ScalarOps.mul,
        ScalarOps.makeConst, ScalarFamily.ops, ofQ, toQ, VarNumber.toRat]
  · intro x
    simp only [ScalarFamily.asg, ScalarOps.isZero, ScalarFamily.ops, ofQ, toQ, tol]
    by_cases hx : x = 0
    · subst hx; simp
    · have h1 : (1 : ℚ) ≤ |((x : ℤ) : ℚ)| := by
        rw [← Int.cast_abs]; exact_mod_cast Int.one_le_abs hx
      have : ¬ |((x : ℤ) : ℚ)| < 100 / 2 ^ 52 := by
        intro hlt
        have := lt_of_le_of_lt h1 hlt
        norm_num at this
      simp [this, hx]

theorem convertsTo_float_double : ConvertsTo CType.El double float double := by
  constructor <;> intros <;>
      simp [ScalarFamily.bin, ScalarFamily.asg, ScalarFamily.zsub, ScalarOps.add, ScalarOps.sub, ScalarOps.mul,
        ScalarOps.makeConst, ScalarFamily.ops, ofQ, toQ, VarNumber.toRat]

/-- The scalar types of the examples. -/
abbrev cFam : ScalarFamily CType CType.El := inferInstance

/-- **F21** The operations that convert a coefficient after the `is_zero` test, or do not test at all, can store zero
coefficients: `expression<int>(0.4)`, conversion of `0.4 * c†_0` (`double`) to `int`, and `e *= 0.5` for `e = c†_0`
(`int`) are all stored with the coefficient 0 and hence compare unequal to the zero expression. -/
theorem C69_F21_zero_coefficients_stored :
    (Mixed.constOf (cFam.asg int double).conv (2 / 5 : ℚ) : Expr (Gen Nat) (CType.El int)).terms = [([], (0 : ℤ))] ∧
    (Mixed.convert (cFam.asg int double).conv
      (Any.ofMonomial (S := CType.El double) (2 / 5 : ℚ) [Gen.fermion true 0]) : Expr (Gen Nat) (CType.El int)).terms
        = [([Gen.fermion true 0], (0 : ℤ))] ∧
    (Mixed.smulAssign (S' := CType.El double) (cFam.asg int double).mulAsg
      (Any.ofMonomial (S := CType.El int) (1 : ℤ) [Gen.fermion true 0]) (1 / 2 : ℚ) : Expr (Gen Nat) (CType.El int)).terms
        = [([Gen.fermion true 0], (0 : ℤ))] ∧
    Any.eqOp (Mixed.constOf (cFam.asg int double).conv (2 / 5 : ℚ) : Expr (Gen Nat) (CType.El int)) ⟨[]⟩ = false := by
  refine ⟨?_, ?_, ?_, ?_⟩ <;> decide +kernel

/-- **F22** The proviso of `C69_mixed_scalar_partial` is needed: a `float` scalar `1e-6` times an expression with `double`
coefficients gives the zero expression, although `1e-6` is far above the tolerance of the result type `double`. -/
theorem C69_F22_scalar_tested_in_its_own_type :
    (Mixed.smulPrefix (S' := CType.El float) (cFam.bin float double double) (1 / 1000000 : ℚ)
      (Any.ofMonomial (S := CType.El double) (1 : ℚ) [Gen.fermion true 0]) : Expr (Gen Nat) (CType.El double)).terms = [] ∧
    (Any.smulPrefix (S := CType.El double) (1 / 1000000 : ℚ)
      (Any.ofMonomial (S := CType.El double) (1 : ℚ) [Gen.fermion true 0]) : Expr (Gen Nat) (CType.El double)).terms
        = [([Gen.fermion true 0], (1 / 1000000 : ℚ))] := by
  refine ⟨?_, ?_⟩ <;> decide +kernel

/-- Non-vacuity of C64, C65, C69: the product of an expression with `int` coefficients and one with `double`
coefficients, `(2 c_0 c†_1) (0.5 c_1 c†_0)`. -/
example : MixedReachable (El := CType.El) (Allowed fun _ (_ : Nat) => False) double
      (Mixed.mul (cFam.asg double int).conv (cFam.asg double double)
        (Any.ofMonomial (S := CType.El int) (2 : ℤ) [Gen.fermion false 0, Gen.fermion true 1])
        (Any.ofMonomial (S := CType.El double) (1 / 2 : ℚ) [Gen.fermion false 1, Gen.fermion true 0])) ∧
    (Mixed.mul (G := Gen Nat) (cFam.asg double int).conv (cFam.asg double double)
        (Any.ofMonomial (S := CType.El int) (2 : ℤ) [Gen.fermion false 0, Gen.fermion true 1])
        (Any.ofMonomial (S := CType.El double) (1 / 2 : ℚ) [Gen.fermion false 1, Gen.fermion true 0])).terms
      = [([Gen.fermion true 1, Gen.fermion false 1], (1 : ℚ)),
         ([Gen.fermion true 0, Gen.fermion true 1, Gen.fermion false 1, Gen.fermion false 0], (-1 : ℚ))] ∧
    HalfAlone (fun _ (_ : Nat) => False) :=
  ⟨.mul _ _ _ (.ofMonomial _ _ _ (by simp [Allowed])) (.ofMonomial _ _ _ (by simp [Allowed])), by decide +kernel,
    fun _ _ h => h.elim⟩

/-- Non-vacuity of C69: a sum that mixes `double` and `int`. -/
example : (Mixed.add (G := Gen Nat) (cFam.bin double int double)
      (Any.ofMonomial (S := CType.El double) (1 / 2 : ℚ) [Gen.fermion true 0])
      (Any.ofMonomial (S := CType.El int) (3 : ℤ) [Gen.fermion true 0])).terms = [([Gen.fermion true 0], (7 / 2 : ℚ))] := by
  rw [(C69_mixed_expressions (El := CType.El) (G := Gen Nat) (P := fun _ => True) (e := ⟨[]⟩) convertsTo_int_double.1
    (.ofMonomial _ _ _ (fun _ _ => trivial)) (.ofMonomial _ _ _ (fun _ _ => trivial))).1]
  decide +kernel

end LC
