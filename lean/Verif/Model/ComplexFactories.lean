import Verif.Model.MixedScalar
import Verif.Model.Generator
/-
Model of the factories of `expression/factories.hpp` that return expressions with complex coefficients: `S_x`, `S_y` and
`make_complex` (the versions in `factories_dyn.hpp:109-145` are the same with index type `dyn_indices`).
`R`, `C` are the real and the complex scalar type; `one` is `make_const(1)`.
-/
namespace LC.ComplexFactory
variable {ι R C : Type _} [LinearOrder ι] [ScalarOps R] [ScalarOps C]

/-- `S_p<mult>(indices...)`, `S_m<mult>`, `S_z<mult>` with coefficients of type `R`: `ret_t(make_const(1), monomial_t{…})`
(factories.hpp:42-52, 91-104; `mult = 2` is the version without the template parameter, factories.hpp:33-40, 81-85). -/
def spinOf (mult : Nat) (comp : SpinComp) (i : ι) : Expr (Gen ι) R :=
  Any.ofMonomial (ScalarOps.makeConst (.integer 1)) [.spin mult comp i]

/-- `S_x(indices...)`, `S_x<Mult>(indices...)` (factories.hpp:110-115, 123-128); `o.mul` is the product of a
`std::complex<double>` and a `double`, `half` is `std::complex<double>(0.5)`. -/
def sX (o : BinOps C R C) (half : C) (mult : Nat) (i : ι) : Expr (Gen ι) C :=
  Mixed.smulPrefix o half (Any.addAssign (spinOf mult .plus i : Expr (Gen ι) R) (spinOf mult .minus i))

/-- `S_y(indices...)`, `S_y<Mult>(indices...)` (factories.hpp:116-121, 129-135); `mhalfI` is
`std::complex<double>(0, -0.5)`. -/
def sY (o : BinOps C R C) (mhalfI : C) (mult : Nat) (i : ι) : Expr (Gen ι) C :=
  Mixed.smulPrefix o mhalfI (Any.subAssign (spinOf mult .plus i : Expr (Gen ι) R) (spinOf mult .minus i))

omit [ScalarOps R] [ScalarOps C] in
/-- `make_complex(expr)` (factories.hpp:137-142): the converting constructor of `expression`. -/
def makeComplex {G : Type _} [GenOps G] (cv : R → C) (a : Expr G R) : Expr G C := Mixed.convert cv a

end LC.ComplexFactory
