import Verif.Model.Gmp
import Verif.Spec.ThrowScalar
import Mathlib.Data.Rat.Defs
/-
Specification for C105.
-/
namespace LC

/-- A rational number in canonical form (lowest terms, positive denominator), as GMP requires it. -/
def Mpq.ofRat (q : ℚ) : Mpq := ⟨q.num, q.den⟩

/-- An expression with rational coefficients, stored with `mpq_class` coefficients in canonical form. -/
def Expr.toMpq {G : Type _} (a : Expr G ℚ) : Expr G Mpq := a.mapCoeffs Mpq.ofRat

/-- A structure constant that is an integer or a fraction in lowest terms with a positive denominator. -/
def VarNumber.Lowest : VarNumber → Prop
  | .integer _ => True
  | .rational a b => 0 < b ∧ Int.gcd a b = 1
  | .real _ => False

instance : DecidablePred VarNumber.Lowest := fun v => by cases v <;> unfold VarNumber.Lowest <;> infer_instance

/-- All constants of a linear function are of that kind. -/
def LinFun.Lowest {G : Type _} (f : LinFun G) : Prop := f.const.Lowest ∧ ∀ p ∈ f.terms, p.2.Lowest

/-- All structure constants of the algebras are of that kind. -/
structure LowestGen (G : Type _) [GenOps G] : Prop where
  swap : ∀ g h : G, GenOps.gt g h = true → (GenOps.swapWith g h).1.Lowest ∧ (GenOps.swapWith g h).2.Lowest
  simp : ∀ (g h : G) (f : LinFun G), GenOps.simplifyProd g h = some f → f.Lowest
  red : ∀ (g : G) (p : Nat) (f : LinFun G), (GenOps.reducePower g p f).2 = f ∨ (GenOps.reducePower g p f).2.Lowest
  conj : ∀ g : G, (GenOps.conj g).Lowest

end LC
