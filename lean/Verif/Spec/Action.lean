import Verif.Spec.Fock
import Verif.Model.MonomialAction
/-
What it means that an outcome of `act(index, coeff)` agrees with the textbook action.
-/
namespace LC
variable {ι S : Type _} [LinearOrder ι] [CommRing S] [Algebra ℝ S]

/-- `r`, the outcome of `act(s, c)`, agrees with `spec`, the textbook result for the occupation numbers of `s`: `act`
returns `false` iff the result vanishes; otherwise the new index is a valid basis state with the right occupation numbers (and
unchanged states of the elementary spaces of user-defined algebras), and the coefficient has been multiplied by the right
amplitude. In particular no table is read out of bounds. -/
def ActsAs (hs : HilbertSpace ι) (s : Nat) (c : S) (spec : Option (Config ι × ℝ)) (r : ActRes S) : Prop :=
  match spec with
  | none => r = .zero
  | some (n, x) => ∃ t, r = .nonzero t (c * algebraMap ℝ S x) ∧ ValidState hs t ∧ conf hs t = n ∧
      ∀ es, es.Foreign → occ hs t es = occ hs s es

end LC
