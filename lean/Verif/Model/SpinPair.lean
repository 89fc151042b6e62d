import Verif.Model.SpinPrograms
import Verif.Model.LOperator
/-
The program examples/exchange_matrix.cpp for any two sites and any coupling. Coefficients are exact; a failed call ends the program, here `none`.
-/
namespace LC
namespace SpinPair
open Expr Factory HilbertSpace
variable {ι S : Type _} [LinearOrder ι] [CommRing S] [DecidableEq S] [ConstScalar S]
/-- `H` of examples/exchange_matrix.cpp:40; the factories without template argument make spins 1/2. -/
def exchange (h : S) (i j : ι) : Expr (Gen ι) S := h • (spin 2 .plus i * spin 2 .minus j + spin 2 .minus i * spin 2 .plus j) + spin 2 .z i * spin 2 .z j

/-- From the expression to the columns that are printed (exchange_matrix.cpp:40-78): the dimension of the space (line 48), and for each of the four
basis states (line 62) the vector `phi = Hop(psi)` (lines 64-68), where `psi` is zero (line 65) except for the component of the basis state (line 66).
Printing is left out. -/
noncomputable def program [Algebra ℝ S] (h : S) (i j : ι) : Option (Nat × List (List S)) :=
  match ofMonomials (esConstruct none) ((exchange h i j).terms.map (·.1)) with
  | .error _ => none
  | .ok hs =>
    match LOperator.make (exchange h i j) hs with
    | .error _ => none
    | .ok op => ((List.range 4).mapM fun k => match op.apply (⟨(List.replicate 4 0).set k 1⟩ : DenseSV S) with
        | .error _ => none
        | .ok phi => some phi.data).map fun l => (hs.dim, l)

end SpinPair
end LC
