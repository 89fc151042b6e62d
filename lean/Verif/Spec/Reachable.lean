import Verif.Model.Factories
/-
Which expressions a program can build: the closure of the constructors under every operation of the API.
-/
namespace LC
variable {G S : Type _} [GenOps G] [CommRing S] [DecidableEq S] [ConstScalar S] [Star S]

/-- Expressions that can be obtained by a finite program over the expression API from generators satisfying `P`
(`P = fun _ => True` for all). Not covered: writing through the mutable `get_monomials()` reference. -/
inductive Reachable (P : G → Prop) : Expr G S → Prop
  | zero : Reachable P 0
  | const (x : S) : Reachable P (Expr.const x)
  | ofMonomial (x : S) (m : List G) : (∀ g ∈ m, P g) → Reachable P (Expr.ofMonomial x m)
  | add {a b} : Reachable P a → Reachable P b → Reachable P (a + b)
  | sub {a b} : Reachable P a → Reachable P b → Reachable P (a - b)
  | mul {a b} : Reachable P a → Reachable P b → Reachable P (a * b)
  | neg {a} : Reachable P a → Reachable P (-a)
  | addMixed {a b} : Reachable P a → Reachable P b → Reachable P (a.addMixed b)
  | subMixed {a b} : Reachable P a → Reachable P b → Reachable P (a.subMixed b)
  | smulPrefix (x : S) {a} : Reachable P a → Reachable P (Expr.smulPrefix x a)
  | smulPostfix (x : S) {a} : Reachable P a → Reachable P (a.smulPostfix x)
  | smulAssign (x : S) {a} : Reachable P a → Reachable P (a.smulAssign x)
  | addScalar (x : S) {a} : Reachable P a → Reachable P (a.addScalar x)
  | scalarAdd (x : S) {a} : Reachable P a → Reachable P (Expr.scalarAdd x a)
  | addAssignScalar (x : S) {a} : Reachable P a → Reachable P (a.addAssignScalar x)
  | subScalar (x : S) {a} : Reachable P a → Reachable P (a.subScalar x)
  | subAssignScalar (x : S) {a} : Reachable P a → Reachable P (a.subAssignScalar x)
  | scalarSub (x : S) {a} : Reachable P a → Reachable P (Expr.scalarSub x a)
  | transform (f : List G → S → S) {a} : Reachable P a → Reachable P (a.transform f)
  | conj {a} : Reachable P a → Reachable P a.conj

end LC
