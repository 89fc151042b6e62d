import Verif.Model.Views
import Verif.Model.Eigen
import Verif.Model.SectorView
/-
Programs that fill the matrix of an operator column by column: examples/n_fermion_sectors.cpp, examples/hubbard_holstein_1d.cpp (a sector, a
multisector), examples/spin1_heisenberg.cpp (a sparse Hilbert space). The matrix is an `Eigen::MatrixXd`, stored by columns in a memory of its
own. A failed call ends the program, here `none`. Coefficients are exact; sizes are converted to `int` and back by the programs, which is
the identity below 2^31.
-/
namespace LC
namespace FillMatrix
variable {ι S : Type _} [LinearOrder ι] [CommRing S] [DecidableEq S] [Algebra ℝ S]

/-- `psi = Eigen::VectorXd::Zero(dim); psi[i] = 1` (n_fermion_sectors.cpp:135-136, 193-194, hubbard_holstein_1d.cpp:110-111,
spin1_heisenberg.cpp:90-93). -/
def unit (dim i : Nat) : EigenSV S := ⟨(List.replicate dim 0).set i 1, .map 0 dim⟩

/-- The loop over columns (n_fermion_sectors.cpp:133-144, 191-202, hubbard_holstein_1d.cpp:108-119, spin1_heisenberg.cpp:85-101): `pos k` is the
number of the column, `src i` is `psi_view` after `psi` has been set, `dst` makes the view of the column, `contents` is the memory of `Hmat`. -/
noncomputable def loop {K X Y : Type _} [StateVec X S] [StateVec Y S] (op : LOperator S) (dim : Nat) (pos : K → Option Nat) (src : EigenSV S → X)
    (dst : EigenSV S → Option Y) (contents : Y → List S) : List K → List S → Option (List S)
  | [], mem => some mem
  | k :: ks, mem =>
    match pos k with
    | none => none
    | some i =>
      match dst ⟨mem, .col 0 dim i⟩ with
      | none => none
      | some vd =>
        match op.applyTo (src (unit dim i)) vd with
        | .error _ => none
        | .ok vd' => loop op dim pos src dst contents ks (contents vd')

/-- examples/n_fermion_sectors.cpp:119-144, hubbard_holstein_1d.cpp:92-119. `mem` and `psi` are the initial contents of `Hmat` and `psi`, which
the programs do not initialise. -/
noncomputable def sector (R R' : Type _) [RankingAlg R] [RankingAlg R'] (op : LOperator S) (hs : HilbertSpace ι) (N : Nat) (psi mem : List S) :
    Option (List S) :=
  match sectorSize hs N with
  | .error _ => none
  | .ok dim =>
    match (SectorView.make ⟨psi, .map 0 dim⟩ hs N : Except SectorError (SectorView (EigenSV S) R)) with
    | .error _ => none
    | .ok vs =>
      loop (X := SectorView (EigenSV S) R) (Y := SectorView (EigenSV S) R') op dim some (fun sv => { vs with sv := sv })
        (fun sv => (SectorView.make sv hs N).toOption) (fun vd => vd.sv.mem) (List.range dim) mem

/-- examples/n_fermion_sectors.cpp:176-202. -/
noncomputable def multisector (R R' : Type _) [RankingAlg R] [RankingAlg R'] (op : LOperator S) (hs : HilbertSpace ι) (d : List (SectorDesc ι))
    (psi mem : List S) : Option (List S) :=
  match multiSize hs d with
  | .error _ => none
  | .ok dim =>
    match (MultiView.make ⟨psi, .map 0 dim⟩ hs d : Except SectorError (MultiView (EigenSV S) R)) with
    | .error _ => none
    | .ok vs =>
      loop (X := MultiView (EigenSV S) R) (Y := MultiView (EigenSV S) R') op dim some (fun sv => { vs with sv := sv })
        (fun sv => (MultiView.make sv hs d).toOption) (fun vd => vd.sv.mem) (List.range dim) mem

/-- examples/spin1_heisenberg.cpp:64-101. -/
noncomputable def comp (op : LOperator S) (hs : HilbertSpace ι) (psi mem : List S) : Option (List S) :=
  match CompView.make (⟨psi, .map 0 hs.dim⟩ : EigenSV S) hs with
  | .error _ => none
  | .ok vs =>
    loop (X := CompView (EigenSV S)) (Y := CompView (EigenSV S)) op hs.dim (fun k => (vs.mapIndex k).toOption) (fun sv => { vs with sv := sv })
      (fun sv => (CompView.make sv hs).toOption) (fun vd => vd.sv.mem) hs.foreach mem

end FillMatrix
end LC
