import Mathlib.Algebra.Ring.Defs
import Verif.Model.AnyScalar
/-
Specification for C110: coefficients of a user-defined type (polynomials, say) that can be evaluated, and programs that compute
expressions with such coefficients.
-/
namespace LC

/-- `φ` evaluates scalars of a user-defined type `S` in a commutative ring `K`: it respects the operations of `S`, and a scalar that is
zero according to `scalar_traits<S>::is_zero` evaluates to zero. Nothing else is required of `S`: its operations need not satisfy any
laws, `is_zero` may miss scalars that evaluate to zero. -/
structure Evaluation {S K : Type _} [ScalarOps S] [CommRing K] [ConstScalar K] (φ : S → K) : Prop where
  add : ∀ x y, φ (ScalarOps.add x y) = φ x + φ y
  sub : ∀ x y, φ (ScalarOps.sub x y) = φ x - φ y
  mul : ∀ x y, φ (ScalarOps.mul x y) = φ x * φ y
  neg : ∀ x, φ (ScalarOps.neg x) = - φ x
  makeConst : ∀ v, φ (ScalarOps.makeConst v) = ConstScalar.makeConst v
  isZero : ∀ x, ScalarOps.isZero x = true → φ x = 0

/-- The value of the coefficient of a monomial (0 if the monomial is not stored). -/
def Expr.valueAt {G S K : Type _} [GenOps G] [Zero K] (φ : S → K) (e : Expr G S) (k : List G) : K :=
  match e.terms.find? k with
  | some c => φ c
  | none => 0

/-- The expression with every coefficient evaluated. -/
def Expr.evaluated {G S K : Type _} (φ : S → K) (e : Expr G S) : Expr G K := ⟨e.terms.map fun p => (p.1, φ p.2)⟩

/-- User code with literals of a scalar type. -/
inductive ScalarProg (G S : Type _) where
  | zero
  | const (x : S)
  | monomial (x : S) (m : List G)
  | add (p q : ScalarProg G S) | sub (p q : ScalarProg G S) | mul (p q : ScalarProg G S) | neg (p : ScalarProg G S)
  | smul (x : S) (p : ScalarProg G S) | muls (p : ScalarProg G S) (x : S)
  | addScalar (p : ScalarProg G S) (x : S) | addAssignScalar (p : ScalarProg G S) (x : S)
  | subScalar (p : ScalarProg G S) (x : S) | scalarSub (x : S) (p : ScalarProg G S)

namespace ScalarProg
variable {G S K : Type _}

/-- The expression computed with the scalar type `S` of which only the operations are known. -/
def run [GenOps G] [ScalarOps S] : ScalarProg G S → Expr G S
  | .zero => ⟨[]⟩
  | .const x => Any.const x
  | .monomial x m => Any.ofMonomial x m
  | .add p q => Any.addAssign p.run q.run
  | .sub p q => Any.subAssign p.run q.run
  | .mul p q => Any.mulAssign p.run q.run
  | .neg p => Any.neg p.run
  | .smul x p => Any.smulPrefix x p.run
  | .muls p x => Any.smulPostfix p.run x
  | .addScalar p x => Any.addScalar p.run x
  | .addAssignScalar p x => Any.addAssignScalar p.run x
  | .subScalar p x => Any.subScalar p.run x
  | .scalarSub x p => Any.scalarSub x p.run

/-- The expression computed with exact coefficients. -/
def exact [GenOps G] [CommRing K] [DecidableEq K] [ConstScalar K] : ScalarProg G K → Expr G K
  | .zero => 0
  | .const x => Expr.const x
  | .monomial x m => Expr.ofMonomial x m
  | .add p q => p.exact + q.exact
  | .sub p q => p.exact - q.exact
  | .mul p q => p.exact * q.exact
  | .neg p => - p.exact
  | .smul x p => Expr.smulPrefix x p.exact
  | .muls p x => Expr.smulPostfix p.exact x
  | .addScalar p x => p.exact.addScalar x
  | .addAssignScalar p x => p.exact.addAssignScalar x
  | .subScalar p x => p.exact.subScalar x
  | .scalarSub x p => Expr.scalarSub x p.exact

/-- The same code with evaluated literals. -/
def eval (φ : S → K) : ScalarProg G S → ScalarProg G K
  | .zero => .zero
  | .const x => .const (φ x)
  | .monomial x m => .monomial (φ x) m
  | .add p q => .add (p.eval φ) (q.eval φ)
  | .sub p q => .sub (p.eval φ) (q.eval φ)
  | .mul p q => .mul (p.eval φ) (q.eval φ)
  | .neg p => .neg (p.eval φ)
  | .smul x p => .smul (φ x) (p.eval φ)
  | .muls p x => .muls (p.eval φ) (φ x)
  | .addScalar p x => .addScalar (p.eval φ) (φ x)
  | .addAssignScalar p x => .addAssignScalar (p.eval φ) (φ x)
  | .subScalar p x => .subScalar (p.eval φ) (φ x)
  | .scalarSub x p => .scalarSub (φ x) (p.eval φ)

/-- All generators of the code satisfy `P`. -/
def All (P : G → Prop) : ScalarProg G S → Prop
  | .zero => True
  | .const _ => True
  | .monomial _ m => ∀ g ∈ m, P g
  | .add p q | .sub p q | .mul p q => p.All P ∧ q.All P
  | .neg p | .smul _ p | .muls p _ | .addScalar p _ | .addAssignScalar p _ | .subScalar p _ | .scalarSub _ p => p.All P

end ScalarProg
end LC
