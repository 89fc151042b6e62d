import Verif.Model.ThrowScalar
/-
`mpq_class` as a coefficient type: numerator and denominator as stored. The functions of GMP are external; they are
modelled after their documentation and the algorithms of GMP 6 (`mpq_add`, `mpq_sub`, `mpq_mul`, `mpq_neg`, `mpq_equal`,
`mpq_sgn`), which expect arguments in canonical form (lowest terms, positive denominator) and do not check it.
-/
namespace LC

/-- An `mpq_t`. -/
structure Mpq where
  num : Int
  den : Int
  deriving DecidableEq, Repr

namespace Mpq

/-- `mpq_class(int)`. -/
def ofInt (i : Int) : Mpq := ⟨i, 1⟩

/-- `mpq_aors` (GMP, behind `operator+` and `operator-`); `f` is the sum or the difference of numerators. -/
def aors (f : Int → Int → Int) (x y : Mpq) : Mpq :=
  let g : Int := Int.gcd x.den y.den
  if g = 1 then ⟨f (x.num * y.den) (y.num * x.den), x.den * y.den⟩
  else
    let t := f (x.num * (y.den / g)) (y.num * (x.den / g))
    let g2 : Int := Int.gcd t g
    if g2 = 1 then ⟨t, y.den * (x.den / g)⟩ else ⟨t / g2, y.den / g2 * (x.den / g)⟩

/-- `mpq_mul` (GMP, behind `operator*`), for arguments that are different objects. -/
def mul (x y : Mpq) : Mpq :=
  if x.num = 0 ∨ y.num = 0 then ⟨0, 1⟩
  else
    let g1 : Int := Int.gcd x.num y.den
    let g2 : Int := Int.gcd y.num x.den
    ⟨x.num / g1 * (y.num / g2), y.den / g1 * (x.den / g2)⟩

/-- `mpq_equal` (GMP, behind `operator==`): compares numerators and denominators. -/
def equal (x y : Mpq) : Bool := decide (x.num = y.num) && decide (x.den = y.den)

/-- `scalar_traits<mpq_class>::is_zero(x)`, `x == 0` (scalars/gmpxx.hpp:113). -/
def isZero (x : Mpq) : Bool := decide (x.num = 0)

/-- `scalar_traits<mpq_class>::make_const(var_number)` (scalars/gmpxx.hpp:123-133): `{numerator, denominator}` as they are,
without `canonicalize()`. The value for `real` is irrelevant (throws). -/
def makeConst : VarNumber → Mpq
  | .integer i => ofInt i
  | .rational a b => ⟨a, b⟩
  | .real _ => ofInt 0

end Mpq

/-- `scalar_traits<mpq_class>` (scalars/gmpxx.hpp:110-137). -/
instance : ThrowOps Mpq where
  isZero := Mpq.isZero
  makeConst := Mpq.makeConst
  conj x := x
  add := Mpq.aors (· + ·)
  sub := Mpq.aors (· - ·)
  mul := Mpq.mul
  neg x := ⟨-x.num, x.den⟩
  eq := Mpq.equal
  representable
    | .real _ => false
    | _ => true

end LC
