import Mathlib.Algebra.Algebra.Basic
import Mathlib.Algebra.BigOperators.Group.List.Basic
import Verif.Model.Expression
/-
Specification side of the expression layer: denotations in an associative algebra.  Nothing here uses the
rewriting functions (`normalize`, `store`, …) of the model.

`isZero`-constants denote 0: see `ScalarLaws`.
-/
namespace LC

/-- A scalar type in which `make_const` of a `var_number` that `is_zero()` is zero. -/
class ScalarLaws (S : Type _) [CommRing S] [ConstScalar S] : Prop where
  mk_isZero : ∀ v : VarNumber, v.isZero = true → (ConstScalar.makeConst v : S) = 0

section
variable {G S A : Type _} [GenOps G] [CommRing S] [ConstScalar S] [Ring A] [Algebra S A]

/-- The operator denoted by a product of generators. -/
def evalMon (ρ : G → A) (m : List G) : A := (m.map ρ).prod

/-- The operator denoted by a list of (monomial, coefficient) pairs. -/
def evalTerms (ρ : G → A) (t : List (List G × S)) : A := (t.map fun p => p.2 • evalMon ρ p.1).sum

/-- The operator denoted by an expression. -/
def evalExpr (ρ : G → A) (e : Expr G S) : A := evalTerms ρ e.terms

/-- The operator denoted by a linear function of generators. -/
def evalLin (S : Type _) [CommRing S] [ConstScalar S] [Algebra S A] (ρ : G → A) (f : LinFun G) : A :=
  algebraMap S A (ConstScalar.makeConst f.const)
    + (f.terms.map fun p => (ConstScalar.makeConst p.2 : S) • ρ p.1).sum

/-- The documented contract of a generator family (doc of generator.hpp:81-124), for the generators satisfying `P`
(`P = fun _ => True` for a whole family): in the algebra `A` the generators `ρ g` obey the relations announced by
`swap_with` (for pairs that get swapped), `simplify_prod` (for pairs in order) and `reduce_power` (powers > 2; the
function leaves `f` alone unless it returns true), and the generators appearing in these relations satisfy `P` again. -/
structure Represents (S : Type _) [CommRing S] [ConstScalar S] [Algebra S A] (P : G → Prop) (ρ : G → A) : Prop where
  swap : ∀ g₁ g₂ : G, P g₁ → P g₂ → GenOps.gt g₁ g₂ = true →
    ρ g₁ * ρ g₂ = (ConstScalar.makeConst (GenOps.swapWith g₁ g₂).1 : S) • (ρ g₂ * ρ g₁)
      + evalLin S ρ (GenOps.swapWith g₁ g₂).2
  simp : ∀ (g₁ g₂ : G) (f : LinFun G), P g₁ → P g₂ → GenOps.gt g₁ g₂ = false → GenOps.simplifyProd g₁ g₂ = some f →
    ρ g₁ * ρ g₂ = evalLin S ρ f
  red_false : ∀ (g : G) (p : Nat) (f : LinFun G), P g → 2 < p → (GenOps.reducePower g p f).1 = false →
    (GenOps.reducePower g p f).2 = f
  red_true : ∀ (g : G) (p : Nat), P g → 2 < p → (GenOps.reducePower g p LinFun.zero).1 = true →
    ρ g ^ p = evalLin S ρ (GenOps.reducePower g p LinFun.zero).2
  swap_mem : ∀ g₁ g₂ : G, P g₁ → P g₂ → GenOps.gt g₁ g₂ = true → ∀ p ∈ (GenOps.swapWith g₁ g₂).2.terms, P p.1
  simp_mem : ∀ (g₁ g₂ : G) (f : LinFun G), P g₁ → P g₂ → GenOps.gt g₁ g₂ = false →
    GenOps.simplifyProd g₁ g₂ = some f → ∀ p ∈ f.terms, P p.1
  red_mem : ∀ (g : G) (p : Nat), P g → 2 < p → (GenOps.reducePower g p LinFun.zero).1 = true →
    ∀ q ∈ (GenOps.reducePower g p LinFun.zero).2.terms, P q.1

end
end LC
