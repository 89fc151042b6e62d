import Mathlib.Algebra.Field.Rat
import Mathlib.Algebra.Star.Rat
import Mathlib.Algebra.CharZero.Defs
import Mathlib.Data.Int.Cast.Lemmas
import Mathlib.Data.Complex.Basic
import Mathlib.Tactic.FieldSimp
import Verif.Spec.Algebra
/-
Scalar types: every field of characteristic 0 is a model of the scalar interface used by the theorems; here `ℚ` (exact
rational scalars, as in the Boost/GMP tests) and `ℂ` (the idealised `std::complex<double>`).
-/
namespace LC

/-- `make_const` into a field of characteristic 0 (scalar_traits.hpp:52-111). -/
@[reducible] def constScalarOfField (K : Type _) [Field K] [CharZero K] : ConstScalar K where
  makeConst
    | .integer i => (i : K)
    | .rational a b => (a : K) / (b : K)
    | .real x => (x.num : K) / ((x.den : Int) : K)
  mk_integer _ := rfl
  mk_rational a b h := by
    have : (b : K) ≠ 0 := by exact_mod_cast h
    show (a : K) / (b : K) * (b : K) = a
    field_simp
  mk_real x := by
    have : ((x.den : Int) : K) ≠ 0 := by exact_mod_cast x.den_ne_zero
    show (x.num : K) / ((x.den : Int) : K) * ((x.den : Int) : K) = x.num
    field_simp

instance : ConstScalar ℚ := constScalarOfField ℚ
instance : ScalarLaws ℚ where
  mk_isZero v h := by
    cases v with
    | integer i => simp [VarNumber.isZero] at h; subst h; exact Int.cast_zero
    | rational a b =>
      simp [VarNumber.isZero] at h; subst h
      show ((0 : Int) : ℚ) / (b : ℚ) = 0
      simp
    | real x =>
      simp [VarNumber.isZero] at h; subst h
      show (((0 : ℚ).num : Int) : ℚ) / _ = 0
      simp

noncomputable instance : ConstScalar ℂ := constScalarOfField ℂ
instance : ScalarLaws ℂ where
  mk_isZero v h := by
    cases v with
    | integer i => simp [VarNumber.isZero] at h; subst h; exact Int.cast_zero
    | rational a b =>
      simp [VarNumber.isZero] at h; subst h
      show ((0 : Int) : ℂ) / (b : ℂ) = 0
      simp
    | real x =>
      simp [VarNumber.isZero] at h; subst h
      show (((0 : ℚ).num : Int) : ℂ) / _ = 0
      simp

end LC
