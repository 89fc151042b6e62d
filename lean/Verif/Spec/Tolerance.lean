import Verif.Model.AnyScalar
import Mathlib.Data.Real.Basic
/-
Scalar types with exact arithmetic: the ring operations are exact, only the zero test may have a tolerance.
-/
namespace LC

/-- The operations of the scalar type are those of the ring `S`. -/
structure ExactArith (S : Type _) [CommRing S] [ConstScalar S] [ScalarOps S] : Prop where
  add : ∀ x y : S, ScalarOps.add x y = x + y
  sub : ∀ x y : S, ScalarOps.sub x y = x - y
  mul : ∀ x y : S, ScalarOps.mul x y = x * y
  neg : ∀ x : S, ScalarOps.neg x = - x
  makeConst : ∀ v, (ScalarOps.makeConst v : S) = ConstScalar.makeConst v

/-- Exact arithmetic, and the zero test is exact. -/
structure ExactScalar (S : Type _) [CommRing S] [ConstScalar S] [Star S] [ScalarOps S] : Prop extends ExactArith S where
  isZero : ∀ x : S, ScalarOps.isZero x = true ↔ x = 0
  conj : ∀ x : S, ScalarOps.conj x = star x
  eq : ∀ x y : S, ScalarOps.eq x y = true ↔ x = y

/-- Exact arithmetic with a tolerance `ε`: `is_zero(x)` implies `ν x ≤ ε`, where `ν` measures the size of a scalar
(`|x|` for real types, the larger of `|Re x|`, `|Im x|` for complex types; scalar_traits.hpp:79-103). -/
structure ExactUpTo (S : Type _) [CommRing S] [ConstScalar S] [ScalarOps S] (ν : S → ℝ) (ε : ℝ) : Prop extends
    ExactArith S where
  isZero_zero : ScalarOps.isZero (0 : S) = true
  small : ∀ x : S, ScalarOps.isZero x = true → ν x ≤ ε
  size_zero : ν 0 = 0
  size_add : ∀ x y : S, ν (x + y) ≤ ν x + ν y
  size_neg : ∀ x : S, ν (- x) = ν x

end LC
