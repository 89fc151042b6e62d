import Verif.Model.Expression
/-
Model of `expression/factories.hpp`, `expression/hc.hpp` (the `dyn_indices` factories of `factories_dyn.hpp` are
the same with index type `dyn_indices`).
-/
namespace LC
variable {ι S : Type _} [LinearOrder ι] [CommRing S] [DecidableEq S] [ConstScalar S]

namespace Factory

/-- `c_dag(indices...)` (factories.hpp:33-40, 59). -/
def cDag (i : ι) : Expr (Gen ι) S := Expr.ofMonomial 1 [.fermion true i]
/-- `c(indices...)` (factories.hpp:61). -/
def c (i : ι) : Expr (Gen ι) S := Expr.ofMonomial 1 [.fermion false i]
/-- `n(indices...)` (factories.hpp:63-65). -/
def n (i : ι) : Expr (Gen ι) S := Expr.ofMonomial 1 [.fermion true i, .fermion false i]
/-- `a_dag(indices...)` (factories.hpp:72). -/
def aDag (i : ι) : Expr (Gen ι) S := Expr.ofMonomial 1 [.boson true i]
/-- `a(indices...)` (factories.hpp:74). -/
def a (i : ι) : Expr (Gen ι) S := Expr.ofMonomial 1 [.boson false i]
/-- `S_p<mult>(indices...)`, `S_m<mult>`, `S_z<mult>` (factories.hpp:42-52, 91-104); `mult = 2` is the version
without the template parameter (factories.hpp:81-85). -/
def spin (mult : Nat) (comp : SpinComp) (i : ι) : Expr (Gen ι) S := Expr.ofMonomial 1 [.spin mult comp i]

end Factory

/-- `expr + hc` (hc.hpp:29-34). -/
def Expr.plusHc {G S : Type _} [GenOps G] [CommRing S] [DecidableEq S] [ConstScalar S] [Star S]
    (e : Expr G S) : Expr G S := e + e.conj

/-- `expr - hc` (hc.hpp:36-41). -/
def Expr.minusHc {G S : Type _} [GenOps G] [CommRing S] [DecidableEq S] [ConstScalar S] [Star S]
    (e : Expr G S) : Expr G S := e - e.conj

end LC
