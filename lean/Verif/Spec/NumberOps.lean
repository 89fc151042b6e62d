import Verif.Model.Factories
import Verif.Spec.Charge
/-
Operators of additive quantum numbers, the way user programs build them (`N += n(i)`, `S_z += 0.5 * (n(i, "up") - n(i, "down"))`, …).
-/
namespace LC
open Expr
variable {ι S : Type _} [LinearOrder ι] [CommRing S] [DecidableEq S] [ConstScalar S]

/-- The operator that counts the quanta in a mode: `n(i)`, `a_dag(i) * a(i)`, `S_z(i)`. -/
def Mode.counter : Mode ι → Expr (Gen ι) S
  | .fermion i => Factory.n i
  | .boson i => Factory.aDag i * Factory.a i
  | .spin mult i => Factory.spin mult .z i

/-- `Q += w * n(i)` for all modes of a list. -/
def Charge.op (w : Charge ι S) (l : List (Mode ι)) : Expr (Gen ι) S := l.foldl (fun Q k => Q + w.mode k • (k.counter : Expr (Gen ι) S)) 0

end LC
