import Verif.Spec.HilbertSpace
import Verif.Spec.Fock
import Verif.Spec.Charge
import Verif.Model.SectorView
/-
Specification vocabulary for N-fermion sectors.
-/
namespace LC
variable {ι : Type _} [LinearOrder ι]

/-- Indices of the fermionic modes of a Hilbert space. -/
def fermionModes (hs : HilbertSpace ι) : List ι :=
  (hs.elementarySpaces.filter fun es => decide (es.algebraId = -3)).map ESpace.indices

/-- The number of fermions a basis state has in the given modes. -/
def nFermions (hs : HilbertSpace ι) (s : Nat) (is : List ι) : Nat := (is.map fun i => occ hs s (ESpace.fermion i)).sum

/-- The basis states of the N-fermion sector. -/
def InNSector (hs : HilbertSpace ι) (N s : Nat) : Prop := ValidState hs s ∧ nFermions hs s (fermionModes hs) = N

/-- The basis states of the multisector described by a list of index sets and particle numbers. -/
def InMultiSector (hs : HilbertSpace ι) (l : List (SectorDesc ι)) (s : Nat) : Prop :=
  ValidState hs s ∧ ∀ d ∈ l, nFermions hs s d.indices = d.N

/-- `std::set`s hold increasing sequences. -/
def SetIndices (l : List (SectorDesc ι)) : Prop := ∀ d ∈ l, d.indices.Pairwise (· < ·)

/-- What the documentation demands of the sectors of a multisector: their modes belong to the Hilbert space, different sectors have
no mode in common. -/
structure ProperSectors (hs : HilbertSpace ι) (l : List (SectorDesc ι)) : Prop where
  inSpace : ∀ d ∈ l, ∀ i ∈ d.indices, hs.has (ESpace.fermion i) = true
  disjoint : l.Pairwise fun d e => ∀ i ∈ d.indices, i ∉ e.indices

/-- Algebra IDs as the documentation prescribes them: -3, -2, -1 for the predefined algebras, and user-defined ones are not negative. -/
def DocumentedIds (hs : HilbertSpace ι) : Prop := ∀ es ∈ hs.elementarySpaces, -3 ≤ es.algebraId

/-- The modes of the sectors are stored in the lowest 32 bits (the masks of the sectors are truncated to 32 bits, finding F7). -/
def LowModes (hs : HilbertSpace ι) (l : List (SectorDesc ι)) : Prop :=
  ∀ d ∈ l, ∀ i ∈ d.indices, ∀ r, hs.bitRange (ESpace.fermion i) = .ok r → r.first < 32

/-- The number of fermions in the modes `is` as an additive quantum number. -/
def countFermions (is : List ι) : Charge ι Int := ⟨fun i => if i ∈ is then 1 else 0, fun _ => 0, fun _ _ => 0⟩

/-- The number of ways to distribute the fermions within the sectors. -/
def sectorProduct (l : List (SectorDesc ι)) : Nat := (l.map fun d => Nat.choose d.indices.length d.N).prod

end LC
