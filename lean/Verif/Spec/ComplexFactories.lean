import Verif.Model.ComplexFactories
import Verif.Model.ThrowScalar
import Verif.Spec.Scalars
import Mathlib.Data.Complex.Basic
import Mathlib.Data.Real.Star
/-
`S_x`, `S_y`, `make_complex` with exact real and complex coefficients (the coefficients 1, 1/2, -1/2 that occur are
exact as `double`s, too).
-/
namespace LC

noncomputable instance : ConstScalar ℝ := constScalarOfField ℝ

/-- The operations of a scalar type with exact arithmetic and an exact zero test; nothing throws
(scalar_traits.hpp:79-111 with tolerance 0). -/
@[reducible] noncomputable def exactOps (K : Type _) [Field K] [DecidableEq K] [ConstScalar K] [Star K] : ThrowOps K where
  isZero x := decide (x = 0)
  makeConst v := ConstScalar.makeConst v
  conj x := star x
  add x y := x + y
  sub x y := x - y
  mul x y := x * y
  neg x := -x
  eq x y := decide (x = y)
  representable _ := true

noncomputable instance : ThrowOps ℝ := exactOps ℝ
noncomputable instance : ThrowOps ℂ := exactOps ℂ

namespace ComplexFactory

/-- Arithmetic of a complex and a real number. -/
noncomputable def cr : BinOps ℂ ℝ ℂ := ⟨fun z x => z + x, fun z x => z - x, fun z x => z * x⟩

/-- `make_complex`. -/
noncomputable def toC {G : Type _} [GenOps G] (a : Expr G ℝ) : Expr G ℂ := makeComplex (fun x : ℝ => (x : ℂ)) a

variable {ι : Type _} [LinearOrder ι]

/-- `S_x<m>(i)` -/
noncomputable def Sx (m : Nat) (i : ι) : Expr (Gen ι) ℂ := sX cr ⟨1 / 2, 0⟩ m i
/-- `S_y<m>(i)` -/
noncomputable def Sy (m : Nat) (i : ι) : Expr (Gen ι) ℂ := sY cr ⟨0, -1 / 2⟩ m i

end ComplexFactory
end LC
