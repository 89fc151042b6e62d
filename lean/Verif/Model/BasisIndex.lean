import Verif.Model.HilbertSpace
/-
The assertion of `hilbert_space::basis_state_index`; the function itself is `HilbertSpace.basisStateIndex`.
-/
namespace LC
variable {ι : Type _} [LinearOrder ι]

/-- `assert(n < (sv_index_type(1) << es.n_bits()))` (hilbert_space.hpp:384); `n_bits()` is at most 63 for the spaces of a
Hilbert space, so that the shift stays below 2⁶⁴. -/
def HilbertSpace.basisStateAssert (es : ESpace ι) (n : Nat) : Bool := decide (n < 1 <<< es.nBits)

end LC
