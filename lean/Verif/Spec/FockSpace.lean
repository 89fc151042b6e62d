import Mathlib.Algebra.Module.LinearMap.End
import Mathlib.LinearAlgebra.Finsupp.LinearCombination
import Verif.Spec.Fock
/-
The standard Fock space (all modes, bosons not truncated) and the operators of the generators on it.
-/
namespace LC
open Classical
variable {ι S : Type _} [LinearOrder ι] [CommRing S] [Algebra ℝ S]

/-- Physical occupation numbers: finitely many occupied fermionic modes, each with one particle; spin projections in range. -/
structure Phys (n : Config ι) : Prop where
  fermion : ∀ i, n (.fermion i) ≤ 1
  finite : {i | n (.fermion i) ≠ 0}.Finite
  spin : ∀ m i, n (.spin m i) = 0 ∨ n (.spin m i) < m

/-- The basis of the Fock space: occupation number states. -/
abbrev FockBasis (ι : Type _) := {n : Config ι // Phys n}

/-- The Fock space: finite linear combinations of occupation number states. -/
abbrev FockSpace (ι S : Type _) [CommRing S] := FockBasis ι →₀ S

/-- The basis vector `|n⟩`. -/
noncomputable def ket (S : Type _) [CommRing S] (n : Config ι) : FockSpace ι S :=
  if h : Phys n then Finsupp.single ⟨n, h⟩ 1 else 0

/-- The vector `x|n⟩`, or 0. -/
noncomputable def ketAmp (S : Type _) [CommRing S] [Algebra ℝ S] : Option (Config ι × ℝ) → FockSpace ι S
  | none => 0
  | some (n, x) => algebraMap ℝ S x • ket S n

/-- The operator of a generator: the linear map with `|n⟩ ↦` `genAct`. -/
noncomputable def fockGen (S : Type _) [CommRing S] [Algebra ℝ S] (g : Gen ι) : Module.End S (FockSpace ι S) :=
  Finsupp.linearCombination S fun n : FockBasis ι => ketAmp S (genAct (fun _ => ⊤) g n.1)

end LC
