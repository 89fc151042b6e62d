import Verif.Model.Factories
import Verif.Model.FillMatrix
/-
The program examples/spin1_heisenberg.cpp for rings of every length, every spin and every ratio of the couplings. Coefficients are exact; printing and the eigensolver are left out; a failed call ends the program, here `none`.
-/
namespace LC
namespace SpinRing
open Expr Factory HilbertSpace
variable {ι S : Type _} [LinearOrder ι] [CommRing S] [DecidableEq S] [ConstScalar S]

/-- The expression added for two neighbours (spin1_heisenberg.cpp:50-51); `m` is the template argument 3, `h` the number 0.5. -/
def bond (m : Nat) (h : S) (i j : ι) : Expr (Gen ι) S :=
  spin m .z i * spin m .z j + h • (spin m .plus i * spin m .minus j + spin m .minus i * spin m .plus j)

/-- `H` (spin1_heisenberg.cpp:40, 48-52); `site i` stands for the index `i`. -/
def ham (site : Nat → ι) (m N : Nat) (h : S) : Expr (Gen ι) S :=
  (List.range N).foldl (fun H i => let j := (i + 1) % N; H + bond m h (site i) (site j)) 0

/-- From the Hamiltonian to the matrix (spin1_heisenberg.cpp:55-101). `mem` and `psi` are the initial contents of `Hmat` and `psi`, which the
program does not initialise. -/
noncomputable def program [Algebra ℝ S] (H : Expr (Gen ι) S) (psi mem : List S) : Option (List S) :=
  match ofMonomials (esConstruct none) (H.terms.map (·.1)) with
  | .error _ => none
  | .ok hs =>
    match LOperator.make H hs with
    | .error _ => none
    | .ok op => FillMatrix.comp op hs psi mem

end SpinRing
end LC
