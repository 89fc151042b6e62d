import Verif.Spec.FockSpace
import Verif.Spec.LOperator
/-
State vectors of a Hilbert space as vectors of the Fock space.
-/
namespace LC
open Classical
variable {ι S : Type _} [LinearOrder ι] [CommRing S]

/-- The vector of the Fock space with the amplitudes of a state vector of the Hilbert space. -/
noncomputable def fockVec (hs : HilbertSpace ι) (ψ : Nat → S) : FockSpace ι S := ∑ k ∈ basisStates hs, ψ k • ket S (conf hs k)

end LC
