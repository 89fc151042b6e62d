import Mathlib.Algebra.BigOperators.Group.Finset.Basic
import Mathlib.Algebra.Module.Defs
import Verif.Spec.Fock
import Verif.Model.Expression
/-
Matrix elements of monomials and expressions between basis states of a Hilbert space.
-/
namespace LC
open Classical
variable {ι S : Type _} [LinearOrder ι] [CommRing S] [Algebra ℝ S]

/-- The valid basis states. -/
noncomputable def basisStates (hs : HilbertSpace ι) : Finset Nat :=
  (Finset.range (2 ^ hs.totalNBits.toNat)).filter (ValidState hs)

/-- The basis state `t` has the occupation numbers `n`, and agrees with `k` on the elementary spaces of user-defined
algebras. -/
def Encodes (hs : HilbertSpace ι) (k : Nat) (n : Config ι) (t : Nat) : Prop :=
  conf hs t = n ∧ ∀ es : ESpace ι, es.Foreign → occ hs t es = occ hs k es

/-- The matrix element `⟨t|m|k⟩` of a product of generators: the textbook action with the bosonic modes truncated to the
dimensions of `hs`. -/
noncomputable def matEl (hs : HilbertSpace ι) (m : List (Gen ι)) (t k : Nat) : ℝ :=
  match monAct (bosonDims hs) m (conf hs k) with
  | none => 0
  | some (n, x) => if Encodes hs k n t then x else 0

/-- The matrix element `⟨t|e|k⟩` of an expression: the sum over its terms. -/
noncomputable def opEl (hs : HilbertSpace ι) (e : Expr (Gen ι) S) (t k : Nat) : S :=
  (e.terms.map fun p => p.2 * algebraMap ℝ S (matEl hs p.1 t k)).sum

/-- A vector with amplitudes `ψ` after the action of an expression: matrix times vector. -/
noncomputable def opApply {T : Type _} [AddCommMonoid T] [Module S T] (hs : HilbertSpace ι) (e : Expr (Gen ι) S)
    (ψ : Nat → T) (t : Nat) : T :=
  if ValidState hs t then ∑ k ∈ basisStates hs, opEl hs e t k • ψ k else 0

/-- Expressions whose terms are stored in canonical order, with all their generators belonging to `hs`. -/
def ActsOn (hs : HilbertSpace ι) (e : Expr (Gen ι) S) : Prop :=
  ∀ p ∈ e.terms, CanonicalMonomial p.1 ∧ ∀ g ∈ p.1, hs.has g.mode.space = true

/-- Occupation numbers of the bosonic modes in `B` are below the cutoffs. -/
def Within (B : ι → Prop) (bd : ι → ℕ∞) (n : Config ι) : Prop := ∀ i, B i → (n (.boson i) : ℕ∞) < bd i

/-- The bosonic modes of a Hilbert space. -/
abbrev HasBoson (hs : HilbertSpace ι) (i : ι) : Prop := hs.has (Mode.boson i).space = true

/-- Without truncation, the terms of `b` lead from the basis state `k` to states below the cutoffs of the bosonic modes. -/
def StaysWithin (hs : HilbertSpace ι) (b : Expr (Gen ι) S) (k : Nat) : Prop :=
  ∀ p ∈ b.terms, ∀ n x, monAct (fun _ => ⊤) p.1 (conf hs k) = some (n, x) → Within (HasBoson hs) (bosonDims hs) n

end LC
