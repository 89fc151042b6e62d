import Mathlib.Data.BitVec
import Verif.Model.ThrowScalar
/-
Integral scalar types of `w` bits, e.g. `unsigned int`, `unsigned long`, with their wrap-around arithmetic.
-/
namespace LC

/-- `scalar_traits<S>` for an integral type `S` of `w` bits (scalar_traits.hpp:52-77) and its operators: results are reduced modulo `2^w`;
`S(int(vn))` (scalar_traits.hpp:73) is the conversion of an `int`. This is what the language prescribes for unsigned types not narrower
than `int`; for signed types it is what happens if the compiler defines overflow (`-fwrapv`), otherwise overflow is undefined. The value
of `makeConst` for numbers that are not integers is irrelevant: `make_const` throws. -/
instance (w : Nat) : ThrowOps (BitVec w) where
  isZero x := decide (x = 0)
  makeConst
    | .integer i => BitVec.ofInt w i
    | _ => 0
  conj x := x
  add := (· + ·)
  sub := (· - ·)
  mul := (· * ·)
  neg := (- ·)
  eq x y := decide (x = y)
  representable
    | .integer _ => true
    | _ => false

end LC
