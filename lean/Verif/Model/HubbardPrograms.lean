import Verif.Model.Lattice
import Verif.Model.FillMatrix
import Mathlib.Data.Finset.Sort
/-
The programs examples/n_fermion_sectors.cpp and examples/hubbard_holstein_1d.cpp from the parameters of the model to the matrix that is
given to the eigensolver, for lattices of every size and all parameters. Coefficients are exact; printing is left out.
-/
namespace LC
namespace Lattice
open Expr Factory HilbertSpace
variable {ι S : Type _} [LinearOrder ι] [CommRing S] [DecidableEq S] [ConstScalar S]

/-- Chemical potential terms (n_fermion_sectors.cpp:93-96; hubbard_holstein_1d.cpp:67-68 with `Ny = 1`). -/
def chemical (el : Nat → Nat → Bool → ι) (Nx Ny : Nat) (mu : S) (H : Expr (Gen ι) S) : Expr (Gen ι) S :=
  (List.range Nx).foldl (fun H ix => (List.range Ny).foldl (fun H iy => H + (-mu) • (n (el ix iy true) + n (el ix iy false) : Expr (Gen ι) S)) H) H

/-- `H` of examples/n_fermion_sectors.cpp:56-102. -/
def fermiHubbard (el : Nat → Nat → Bool → ι) (Nx Ny : Nat) (t mu U : S) : Expr (Gen ι) S :=
  coulomb el Nx Ny U (chemical el Nx Ny mu (hopping el Nx Ny ((Nx : Int) - 1) ((Ny : Int) - 1) t 0))

/-- From an expression to the matrix of a sector (n_fermion_sectors.cpp:105-144 with `bosonDim = none`, hubbard_holstein_1d.cpp:81-119 with
`bosonDim = some n_p`). -/
noncomputable def sectorProgram (R R' : Type _) [RankingAlg R] [RankingAlg R'] [Algebra ℝ S] (bosonDim : Option Nat) (H : Expr (Gen ι) S) (N : Nat)
    (psi mem : List S) : Option (List S) :=
  match ofMonomials (esConstruct bosonDim) (H.terms.map (·.1)) with
  | .error _ => none
  | .ok hs =>
    match LOperator.make H hs with
    | .error _ => none
    | .ok op => FillMatrix.sector R R' op hs N psi mem

/-- The set `sector_up.indices` or `sector_down.indices`, a `std::set`, after the loops (n_fermion_sectors.cpp:161-171). -/
def spinIndices (el : Nat → Nat → Bool → ι) (Nx Ny : Nat) (s : Bool) : List ι :=
  (((List.range Nx ×ˢ List.range Ny).map fun q => el q.1 q.2 s).toFinset).sort (· ≤ ·)

/-- `sectors` (n_fermion_sectors.cpp:161-174). -/
def spinSectors (el : Nat → Nat → Bool → ι) (Nx Ny Nup Ndown : Nat) : List (SectorDesc ι) :=
  [⟨spinIndices el Nx Ny true, Nup⟩, ⟨spinIndices el Nx Ny false, Ndown⟩]

/-- From an expression to the matrix of a multisector (n_fermion_sectors.cpp:105-110, 161-202). -/
noncomputable def multisectorProgram (R R' : Type _) [RankingAlg R] [RankingAlg R'] [Algebra ℝ S] (H : Expr (Gen ι) S) (d : List (SectorDesc ι))
    (psi mem : List S) : Option (List S) :=
  match ofMonomials (esConstruct none) (H.terms.map (·.1)) with
  | .error _ => none
  | .ok hs =>
    match LOperator.make H hs with
    | .error _ => none
    | .ok op => FillMatrix.multisector R R' op hs d psi mem

/-- Hopping along a chain (hubbard_holstein_1d.cpp:61-65). -/
def chainHopping [Star S] (el : Nat → Nat → Bool → ι) (L : Nat) (t : S) (H : Expr (Gen ι) S) : Expr (Gen ι) S :=
  [true, false].foldl (fun H s => (List.range (L - 1)).foldl (fun H i => H + (-t) • (cDag (el i 0 s) * c (el (i + 1) 0 s) : Expr (Gen ι) S).plusHc) H) H

/-- Electron-phonon coupling (hubbard_holstein_1d.cpp:76-77). -/
def chainCoupling (el : Nat → Nat → Bool → ι) (ph : Nat → Nat → ι) (L : Nat) (g : S) (H : Expr (Gen ι) S) : Expr (Gen ι) S :=
  (List.range L).foldl (fun H i => H + g • (n (el i 0 true) + n (el i 0 false) : Expr (Gen ι) S) * (aDag (ph i 0) + a (ph i 0))) H

/-- `H` of examples/hubbard_holstein_1d.cpp:53-77; `el i 0 s` stands for the indices `(i, "up")` or `(i, "down")`, `ph i 0` for `(i, "")`. -/
def chain [Star S] (el : Nat → Nat → Bool → ι) (ph : Nat → Nat → ι) (L : Nat) (t mu U w g : S) : Expr (Gen ι) S :=
  chainCoupling el ph L g (phononsW ph L 1 w (coulomb el L 1 U (chemical el L 1 mu (chainHopping el L t 0))))

end Lattice
end LC
