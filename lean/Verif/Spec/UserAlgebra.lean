import Verif.Model.UserAlgebra
import Mathlib.LinearAlgebra.LinearIndependent.Defs
import Verif.Spec.Textbook
/-
What the documentation of `generator` (generator.hpp:54-151, doc/expression/generator.rst) demands from a user-defined algebra, as
conditions on its virtual functions and on operators realising it. Nothing here uses the rewriting functions of the model.
-/
namespace LC

section
variable {U : Type _} [UserGen U]

/-- The comparisons: algebra IDs are not below `min_user_defined_algebra_id` (= 0, algebra_ids.hpp:28-29), and within each
algebra `equal` is equality, `less` a strict total order, `greater` its converse. -/
structure UserOrder (U : Type _) [UserGen U] : Prop where
  id_nonneg : ∀ u : U, 0 ≤ UserGen.algebraId u
  eq_iff : ∀ u v : U, UserGen.algebraId u = UserGen.algebraId v → (UserGen.equal u v = true ↔ u = v)
  lt_irrefl : ∀ u : U, UserGen.less u u = false
  lt_trans : ∀ u v w : U, UserGen.algebraId u = UserGen.algebraId v → UserGen.algebraId v = UserGen.algebraId w →
    UserGen.less u v = true → UserGen.less v w = true → UserGen.less u w = true
  lt_tri : ∀ u v : U, UserGen.algebraId u = UserGen.algebraId v →
    UserGen.less u v = true ∨ u = v ∨ UserGen.less v u = true
  gt_iff : ∀ u v : U, UserGen.algebraId u = UserGen.algebraId v → UserGen.greater u v = UserGen.less v u

/-- The number a `var_number` stands for. -/
def VarNumber.rat : VarNumber → Rat
  | .integer i => i
  | .rational a b => (a : Rat) / b
  | .real x => x

/-- A `var_number` without division by zero. -/
def VarNumber.Defined : VarNumber → Prop
  | .rational _ b => b ≠ 0
  | _ => True

/-- A linear function with defined coefficients in which no term `0 * g` is written. -/
structure LinFun.NoZeros {G : Type _} (f : LinFun G) : Prop where
  const_defined : f.const.Defined
  defined : ∀ p ∈ f.terms, p.2.Defined
  nonzero : ∀ p ∈ f.terms, p.2.rat ≠ 0

/-- The linear functions written by the virtual functions contain no terms with zero coefficient, and a zero constant is
returned by `swap_with` as the integer 0 (the documentation does not ask for this; see C72_F24, C72_F28). -/
structure UserNoZeros (U : Type _) [UserGen U] : Prop where
  swap_const : ∀ u v : U, UserGen.algebraId u = UserGen.algebraId v → UserGen.greater u v = true →
    (UserGen.swapWith u v).1 = .integer 0 ∨ ((UserGen.swapWith u v).1.Defined ∧ (UserGen.swapWith u v).1.rat ≠ 0)
  swap : ∀ u v : U, UserGen.algebraId u = UserGen.algebraId v → UserGen.greater u v = true → (UserGen.swapWith u v).2.NoZeros
  simp : ∀ (u v : U) f, UserGen.algebraId u = UserGen.algebraId v → UserGen.greater u v = false →
    UserGen.simplifyProd u v = some f → f.NoZeros
  conj : ∀ u : U, (UserGen.conj u).NoZeros

/-- Nothing is left to simplify once the generators are sorted and the powers reduced: a pair that is exchanged (with `c ≠ 0`)
cannot be simplified afterwards, and powers reduce to zero only (the documentation does not ask for this; see C72_F25,
C72_F27). -/
structure UserConfluent (U : Type _) [UserGen U] : Prop where
  swap_simp : ∀ u v : U, UserGen.algebraId u = UserGen.algebraId v → UserGen.greater u v = true →
    (UserGen.swapWith u v).1 ≠ .integer 0 → UserGen.simplifyProd v u = none
  red_zero : ∀ (u : U) (p : Nat) f, 2 < p → UserGen.reducePower u p = some f →
    f.const.Defined ∧ f.const.rat = 0 ∧ f.terms = []

/-- "f(g) is a linear function of generators of the same algebra" (generator.hpp:80-88). -/
structure UserClosed (U : Type _) [UserGen U] : Prop where
  swap : ∀ u v : U, UserGen.algebraId u = UserGen.algebraId v → UserGen.greater u v = true →
    ∀ p ∈ (UserGen.swapWith u v).2.terms, UserGen.algebraId p.1 = UserGen.algebraId u
  simp : ∀ (u v : U) f, UserGen.algebraId u = UserGen.algebraId v → UserGen.greater u v = false →
    UserGen.simplifyProd u v = some f → ∀ p ∈ f.terms, UserGen.algebraId p.1 = UserGen.algebraId u
  conj : ∀ u : U, ∀ p ∈ (UserGen.conj u).terms, UserGen.algebraId p.1 = UserGen.algebraId u

section
variable {A : Type _} (S : Type _) [CommRing S] [ConstScalar S] [Ring A] [Algebra S A]

/-- Operators obeying the relations announced by the virtual functions of the user's classes. -/
structure UserRealisation (ρ : U → A) : Prop where
  swap : ∀ u v : U, UserGen.algebraId u = UserGen.algebraId v → UserGen.greater u v = true →
    ρ u * ρ v = (ConstScalar.makeConst (UserGen.swapWith u v).1 : S) • (ρ v * ρ u) + evalLin S ρ (UserGen.swapWith u v).2
  simp : ∀ (u v : U) f, UserGen.algebraId u = UserGen.algebraId v → UserGen.greater u v = false →
    UserGen.simplifyProd u v = some f → ρ u * ρ v = evalLin S ρ f
  red : ∀ (u : U) (p : Nat) f, 2 < p → UserGen.reducePower u p = some f → ρ u ^ p = evalLin S ρ f
  comm : ∀ u v : U, UserGen.algebraId u ≠ UserGen.algebraId v → ρ u * ρ v = ρ v * ρ u
end
end

section
variable {ι U : Type _} [LinearOrder ι] [UserGen U]

/-- Which generators may occur: all user-defined ones and the predefined ones allowed by `M`. -/
def AllowedAll (M : Nat → ι → Prop) : AllGen ι U → Prop
  | .pre g => Allowed M g
  | .user _ => True

variable {A : Type _} (S : Type _) [CommRing S] [ConstScalar S] [Ring A] [Algebra S A]

/-- Operators realising the predefined algebras (textbook relations) and the user's algebras side by side. -/
structure Realisation (M : Nat → ι → Prop) (ρ : AllGen ι U → A) : Prop where
  predefined : TextbookRel S M fun g => ρ (.pre g)
  user : UserRealisation S fun u => ρ (.user u)
  comm : ∀ (g : Gen ι) (u : U), Allowed M g → ρ (.pre g) * ρ (.user u) = ρ (.user u) * ρ (.pre g)

/-- Products of user-defined generators to which no rule of the user's algebras applies: sorted, no neighbours that could be
simplified, no reducible power. -/
structure UserStored (m : List U) : Prop where
  sorted : ∀ pre u v post, m = pre ++ u :: v :: post →
    UserGen.algebraId u < UserGen.algebraId v ∨ (UserGen.algebraId u = UserGen.algebraId v ∧ UserGen.greater u v = false)
  no_simp : ∀ pre u v post, m = pre ++ u :: v :: post → UserGen.algebraId u = UserGen.algebraId v →
    UserGen.simplifyProd u v = none
  no_red : ∀ u p, 2 < p → (List.replicate p u).Sublist m → UserGen.reducePower u p = none

/-- The relations imply no others: the operators of different products of this form are linearly independent. -/
def UserFaithful (ρ : U → A) : Prop :=
  LinearIndependent S fun m : {m : List U // UserStored m} => evalMon ρ m.1

/-- The operators written by `conj` obey the same relations in reverse order, and `conj` twice gives the generator back. -/
structure UserConjRelations (ρ : U → A) : Prop where
  swap : ∀ u v : U, UserGen.algebraId u = UserGen.algebraId v → UserGen.greater u v = true →
    evalLin S ρ (UserGen.conj v) * evalLin S ρ (UserGen.conj u) =
      (ConstScalar.makeConst (UserGen.swapWith u v).1 : S) • (evalLin S ρ (UserGen.conj u) * evalLin S ρ (UserGen.conj v)) +
        evalLin S (fun w => evalLin S ρ (UserGen.conj w)) (UserGen.swapWith u v).2
  simp : ∀ (u v : U) f, UserGen.algebraId u = UserGen.algebraId v → UserGen.greater u v = false →
    UserGen.simplifyProd u v = some f →
    evalLin S ρ (UserGen.conj v) * evalLin S ρ (UserGen.conj u) = evalLin S (fun w => evalLin S ρ (UserGen.conj w)) f
  red : ∀ (u : U) (p : Nat) f, 2 < p → UserGen.reducePower u p = some f →
    evalLin S ρ (UserGen.conj u) ^ p = evalLin S (fun w => evalLin S ρ (UserGen.conj w)) f
  comm : ∀ u v : U, UserGen.algebraId u ≠ UserGen.algebraId v →
    evalLin S ρ (UserGen.conj u) * evalLin S ρ (UserGen.conj v) = evalLin S ρ (UserGen.conj v) * evalLin S ρ (UserGen.conj u)
  involutive : ∀ u : U, evalLin S (fun w => evalLin S ρ (UserGen.conj w)) (UserGen.conj u) = ρ u

/-- In a `*`-algebra, the operators written by `conj` are the adjoints. -/
def AdjointRealisation [Star A] (M : Nat → ι → Prop) (ρ : AllGen ι U → A) : Prop :=
  ∀ g, AllowedAll M g → evalLin S ρ (AllGen.conj g) = star (ρ g)

end
end LC
