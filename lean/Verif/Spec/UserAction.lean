import Mathlib.Data.Matrix.Mul
import Mathlib.Data.Matrix.Basic
import Verif.Model.UserAction
import Verif.Spec.LOperator
import Verif.Spec.Algebra
/-
Linear operators of expressions with generators of arbitrary algebras: what a specialisation of `monomial_action` for one algebra has to do
(doc/loperator/monomial_action), and the matrix of an expression. Nothing here uses the chain of base classes of the model.
-/
namespace LC
open Matrix
variable {ι U S : Type _} [LinearOrder ι] [UserGen U] [CommRing S]

/-- Basis states of a Hilbert space. -/
abbrev BasisState (hs : HilbertSpace ι) := {k : Nat // ValidState hs k}

noncomputable instance (hs : HilbertSpace ι) : Fintype (BasisState hs) :=
  Fintype.subtype (basisStates hs) fun k => by
    classical
    simp only [basisStates, Finset.mem_filter, Finset.mem_range, and_iff_right_iff_imp]
    exact fun h => h.1

/-- Matrices acting on the vectors of the Hilbert space. -/
abbrev Op (S : Type _) (hs : HilbertSpace ι) := Matrix (BasisState hs) (BasisState hs) S

/-- Products of generators in the form in which expressions store them: sorted, no neighbours that could be simplified, no
reducible power. -/
structure StoredProduct (m : List (AllGen ι U)) : Prop where
  sorted : ∀ p g h q, m = p ++ g :: h :: q → GenOps.gt g h = false
  no_simp : ∀ p g h q, m = p ++ g :: h :: q → GenOps.simplifyProd g h = none
  no_red : ∀ g p, 2 < p → (List.replicate p g).Sublist m → (GenOps.reducePower g p LinFun.zero).1 = false

/-- The outcome of `act(index, coeff)` is that of the matrix `M` acting on the basis state `index`: `false` for a zero vector, otherwise
the new basis state, and `coeff` multiplied by the amplitude. -/
def ActsLike {hs : HilbertSpace ι} (M : Op S hs) (a : Act S) : Prop :=
  ∀ (k : BasisState hs) (c : S),
    (a k c = .zero ∧ ∀ t, M t k = 0) ∨
    (∃ (t : BasisState hs) (x : S), a k c = .nonzero t (c * x) ∧ ∀ s, M s k = if s = t then x else 0)

/-- What a specialisation `monomial_action<id>` has to do: for products (as they are stored in expressions) of generators of its algebra
belonging to the Hilbert space, the constructor succeeds and `act` is the action of the product of the matrices `ρ g`. -/
structure ActionContract (C : ActionClass ι U S) (hs : HilbertSpace ι) (On : AllGen ι U → Prop) (ρ : AllGen ι U → Op S hs) :
    Prop where
  accepts : ∀ m : List (AllGen ι U), StoredProduct m → (∀ g ∈ m, g.algebraId = C.id ∧ On g) → ∃ a, C.make m hs = .ok a
  acts : ∀ (m : List (AllGen ι U)) (a : Act S), StoredProduct m → (∀ g ∈ m, g.algebraId = C.id ∧ On g) → C.make m hs = .ok a →
    ActsLike (evalMon ρ m) a

/-- The constructor throws if there is a generator of another algebra or one that does not belong to the Hilbert space. -/
def Rejects (C : ActionClass ι U S) (hs : HilbertSpace ι) (On : AllGen ι U → Prop) : Prop :=
  ∀ m : List (AllGen ι U), (∃ g ∈ m, ¬ (g.algebraId = C.id ∧ On g)) → ∃ e, C.make m hs = .error e

/-- The same, except that instead of throwing the constructor may produce an action that gives zero for all basis states. -/
def RejectsOrVanishes (C : ActionClass ι U S) (hs : HilbertSpace ι) (On : AllGen ι U → Prop) : Prop :=
  ∀ m : List (AllGen ι U), (∃ g ∈ m, ¬ (g.algebraId = C.id ∧ On g)) →
    (∃ e, C.make m hs = .error e) ∨ ∃ a, C.make m hs = .ok a ∧ ∀ k c, a k c = .zero

/-- The generators that the classes `Cs` know and that belong to the Hilbert space. -/
def Known (Cs : List (ActionClass ι U S)) (On : AllGen ι U → Prop) (g : AllGen ι U) : Prop := On g ∧ ∃ C ∈ Cs, g.algebraId = C.id

open Classical in
/-- Matrices with all other generators replaced by zero. -/
noncomputable def zeroUnknown {hs : HilbertSpace ι} (Cs : List (ActionClass ι U S)) (On : AllGen ι U → Prop) (ρ : AllGen ι U → Op S hs) :
    AllGen ι U → Op S hs := fun g => if Known Cs On g then ρ g else 0

/-- Matrices of the predefined generators: the textbook action with truncated bosonic modes (`matEl`). -/
noncomputable def preMatrix (S : Type _) [CommRing S] [Algebra ℝ S] (hs : HilbertSpace ι) (g : Gen ι) : Op S hs :=
  fun t k => algebraMap ℝ S (matEl hs [g] t k)

/-- The predefined generators acting on the elementary spaces of `hs`, and user-defined ones satisfying `Q`. -/
def OnSpace (hs : HilbertSpace ι) (Q : U → Prop) : AllGen ι U → Prop
  | .pre g => hs.has g.mode.space = true
  | .user u => Q u

/-- Generators: predefined ones satisfying `Pp` and user-defined ones satisfying `Q`. -/
def Both (Pp : Gen ι → Prop) (Q : U → Prop) : AllGen ι U → Prop
  | .pre g => Pp g
  | .user u => Q u

end LC
