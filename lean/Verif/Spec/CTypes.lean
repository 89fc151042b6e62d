import Verif.Spec.MixedPrograms
import Mathlib.Algebra.Field.Rat
import Mathlib.Algebra.Order.Field.Rat
import Mathlib.Data.Int.Cast.Lemmas
/-
Examples of scalar types with the `scalar_traits` of scalar_traits.hpp:51-111, used to show that the theorems about
arbitrary scalar types are not vacuous and to exhibit counterexamples: `int`, and `float`, `double` with exact arithmetic
(the tolerance of `is_zero` is the real one, rounding is not simulated).
-/
namespace LC

/-- Value of a `var_number` (`double(vn)`, utility.hpp). -/
def VarNumber.toRat : VarNumber → ℚ
  | .integer i => i
  | .rational a b => (a : ℚ) / (b : ℚ)
  | .real x => x

/-- Rational numbers with a tolerance: `is_zero(x)` is `|x| < ε` (scalar_traits.hpp:79-93). -/
@[reducible] def tolOps (ε : ℚ) : ScalarOps ℚ where
  isZero x := decide (|x| < ε)
  makeConst v := v.toRat
  conj x := x
  add x y := x + y
  sub x y := x - y
  mul x y := x * y
  neg x := - x
  eq x y := decide (x = y)

/-- Integral types (scalar_traits.hpp:51-74); `make_const` of anything but an integer throws, the value here is arbitrary. -/
@[reducible] def intOps : ScalarOps ℤ where
  isZero x := decide (x = 0)
  makeConst | .integer i => i | _ => 0
  conj x := x
  add x y := x + y
  sub x y := x - y
  mul x y := x * y
  neg x := - x
  eq x y := decide (x = y)

/-- Names of three scalar types. -/
inductive CType where
  | int | float | double

namespace CType

/-- Values of a scalar type. -/
abbrev El : CType → Type
  | int => ℤ
  | float => ℚ
  | double => ℚ

/-- `100 * std::numeric_limits<float>::epsilon()`, `100 * std::numeric_limits<double>::epsilon()`. -/
def tol : CType → ℚ
  | int => 1
  | float => 100 / 2 ^ 23
  | double => 100 / 2 ^ 52

/-- The value as a number. -/
def toQ : (s : CType) → El s → ℚ
  | int, x => ((show ℤ from x : ℤ) : ℚ)
  | float, x => x
  | double, x => x

/-- Conversion of a number to the type; to `int` by truncation towards zero. -/
def ofQ : (s : CType) → ℚ → El s
  | int, x => x.num.tdiv x.den
  | float, x => x
  | double, x => x

end CType

open CType in
instance : ScalarFamily CType CType.El where
  ops | int => intOps | float => tolOps (tol float) | double => tolOps (tol double)
  bin s t r :=
    { add := fun x y => ofQ r (toQ s x + toQ t y), sub := fun x y => ofQ r (toQ s x - toQ t y),
      mul := fun x y => ofQ r (toQ s x * toQ t y) }
  asg s t :=
    { conv := fun y => ofQ s (toQ t y), addAsg := fun x y => ofQ s (toQ s x + toQ t y),
      subAsg := fun x y => ofQ s (toQ s x - toQ t y), mulAsg := fun x y => ofQ s (toQ s x * toQ t y),
      sub := fun x y => ofQ s (toQ s x - toQ t y), mul := fun x y => ofQ s (toQ s x * toQ t y) }
  uminus s r x := ofQ r (- toQ s x)
  zsub _ t r y := ofQ r (0 - toQ t y)

end LC
