import Verif.Model.HilbertSpace
/-
Specification vocabulary for Hilbert spaces.
-/
namespace LC
variable {ι : Type _} [LinearOrder ι]

/-- What the documentation demands of an elementary space: non-zero dimension, and `n_bits()` is the minimal number of
binary digits needed to represent any of its states. -/
structure ESpace.Wf (es : ESpace ι) : Prop where
  dim_pos : 0 < es.dim
  bits : es.nBits = Nat.clog 2 es.dim

/-- Hilbert spaces a program can hold: built by one of the constructors from well-formed elementary spaces, extended by
calls of `add()` that did not throw or that threw `elementary_space_exists`. -/
inductive Constructed : HilbertSpace ι → Prop
  | empty : Constructed HilbertSpace.empty
  | ofArgs {l hs} : (∀ es ∈ l, es.Wf) → HilbertSpace.ofArgs l = .ok hs → Constructed hs
  | ofPtrs {l hs} : (∀ es ∈ l, es.Wf) → HilbertSpace.ofPtrs l = .ok hs → Constructed hs
  | ofMonomials {constr ms hs} : (∀ g ∈ ms.flatten, ∀ es, constr g = some es → es.Wf) → HilbertSpace.ofMonomials constr ms = .ok hs →
      Constructed hs
  | add {hs hs' es} : Constructed hs → es.Wf → hs.add es = (hs', none) → Constructed hs'
  | addExists {hs hs' es} : Constructed hs → hs.add es = (hs', some .exists_) → Constructed hs'

/-- A valid basis state index: no bits beyond `total_n_bits()`, and the bit field of every elementary space (its
`bit_range()`) holds a number below the dimension of that space. -/
def ValidState (hs : HilbertSpace ι) (s : Nat) : Prop :=
  s < 2 ^ hs.totalNBits.toNat ∧ ∀ p ∈ hs.spaces, s / 2 ^ p.2.first.toNat % 2 ^ p.1.nBits < p.1.dim

instance (hs : HilbertSpace ι) (s : Nat) : Decidable (ValidState hs s) := inferInstanceAs (Decidable (_ ∧ _))

end LC
