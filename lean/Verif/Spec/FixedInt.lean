import Verif.Model.FixedInt
import Verif.Proof.MapLemmas
/-
Specification for C101: programs whose literals are integers, run with any integral scalar type.
-/
namespace LC

/-- The operators and the zero test of a scalar type are those of a commutative ring (e.g. integers modulo `2^w`). -/
structure RingScalar (S : Type _) [CommRing S] [ThrowOps S] : Prop where
  isZero : ∀ x : S, ScalarOps.isZero x = true ↔ x = 0
  add : ∀ x y : S, ScalarOps.add x y = x + y
  sub : ∀ x y : S, ScalarOps.sub x y = x - y
  mul : ∀ x y : S, ScalarOps.mul x y = x * y
  neg : ∀ x : S, ScalarOps.neg x = - x
  zero : ThrowOps.representable S (.integer 0) = true ∧ (ScalarOps.makeConst (.integer 0) : S) = 0

/-- The coefficient of a monomial (0 if it is not stored). -/
def Expr.at_ {G S : Type _} [GenOps G] [CommRing S] (e : Expr G S) (k : List G) : S := (e.terms.find? k).getD 0

/-- User code whose literals are integers. -/
inductive IntProg (G : Type _) where
  | const (x : Int)
  | monomial (x : Int) (m : List G)
  | add (p q : IntProg G) | sub (p q : IntProg G) | mul (p q : IntProg G) | neg (p : IntProg G)
  | smul (x : Int) (p : IntProg G) | muls (p : IntProg G) (x : Int)
  | addScalar (p : IntProg G) (x : Int) | addAssignScalar (p : IntProg G) (x : Int)
  | subScalar (p : IntProg G) (x : Int) | scalarSub (x : Int) (p : IntProg G)

/-- The expression computed with the scalar type `S`; `lit` converts literals. `none`: an exception. -/
def IntProg.run {G S : Type _} [GenOps G] [ThrowOps S] (lit : Int → S) : IntProg G → Option (Expr G S)
  | .const x => some (Any.const (lit x))
  | .monomial x m => Thr.ofMonomial (lit x) m
  | .add p q => (p.run lit).bind fun a => (q.run lit).map fun b => Any.addAssign a b
  | .sub p q => (p.run lit).bind fun a => (q.run lit).map fun b => Any.subAssign a b
  | .mul p q => (p.run lit).bind fun a => (q.run lit).bind fun b => Thr.mul a b
  | .neg p => (p.run lit).map Any.neg
  | .smul x p => (p.run lit).map fun a => Any.smulPrefix (lit x) a
  | .muls p x => (p.run lit).map fun a => Any.smulPostfix a (lit x)
  | .addScalar p x => (p.run lit).map fun a => Any.addScalar a (lit x)
  | .addAssignScalar p x => (p.run lit).map fun a => Any.addAssignScalar a (lit x)
  | .subScalar p x => (p.run lit).map fun a => Any.subScalar a (lit x)
  | .scalarSub x p => (p.run lit).map fun a => Any.scalarSub (lit x) a

/-- All generators of a program satisfy `P`. -/
def IntProg.All {G : Type _} (P : G → Prop) : IntProg G → Prop
  | .const _ => True
  | .monomial _ m => ∀ g ∈ m, P g
  | .add p q | .sub p q | .mul p q => p.All P ∧ q.All P
  | .neg p | .smul _ p | .muls p _ | .addScalar p _ | .addAssignScalar p _ | .subScalar p _ | .scalarSub _ p => p.All P

end LC
