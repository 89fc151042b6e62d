import Verif.Model.Factories
import Verif.Model.SpacePartition
import Verif.Model.Views
/-
The program examples/partition.cpp, for every number of orbitals and all parameters. Coefficients are exact; printing is left out; a failed
call ends the program, here `none`.
-/
namespace LC
namespace Atom
open Expr Factory HilbertSpace
variable {ι S H : Type _} [LinearOrder ι] [CommRing S] [DecidableEq S] [ConstScalar S]

/-- Chemical potential terms (partition.cpp:43-46); `el true o` stands for the indices `("up", o)`, `el false o` for `("dn", o)`. -/
def chemical (el : Bool → Nat → ι) (n : Nat) (mu : S) (E : Expr (Gen ι) S) : Expr (Gen ι) S :=
  (List.range n).foldl (fun E o => E + (-mu) • (Factory.n (el true o) + Factory.n (el false o) : Expr (Gen ι) S)) E

/-- Intraorbital interactions (partition.cpp:48-51). -/
def intra (el : Bool → Nat → ι) (n : Nat) (U : S) (E : Expr (Gen ι) S) : Expr (Gen ι) S :=
  (List.range n).foldl (fun E o => E + U • (Factory.n (el true o) : Expr (Gen ι) S) * Factory.n (el false o)) E

/-- Interorbital interactions, different spins (partition.cpp:52-58). -/
def interDiff (el : Bool → Nat → ι) (n : Nat) (U J : S) (E : Expr (Gen ι) S) : Expr (Gen ι) S :=
  (List.range n).foldl (fun E o1 => (List.range n).foldl (fun E o2 =>
    if !(o1 == o2) then E + (U - 2 * J) • (Factory.n (el true o1) : Expr (Gen ι) S) * Factory.n (el false o2) else E) E) E

/-- Interorbital interactions, equal spins (partition.cpp:59-66). -/
def interSame (el : Bool → Nat → ι) (n : Nat) (U J : S) (E : Expr (Gen ι) S) : Expr (Gen ι) S :=
  (List.range n).foldl (fun E o1 => (List.range n).foldl (fun E o2 =>
    if !(decide (o2 ≥ o1)) then E + (U - 3 * J) • (Factory.n (el true o1) : Expr (Gen ι) S) * Factory.n (el true o2) +
      (U - 3 * J) • (Factory.n (el false o1) : Expr (Gen ι) S) * Factory.n (el false o2) else E) E) E

/-- Spin flip and pair hopping terms (partition.cpp:67-74). -/
def exchange (el : Bool → Nat → ι) (n : Nat) (J : S) (E : Expr (Gen ι) S) : Expr (Gen ι) S :=
  (List.range n).foldl (fun E o1 => (List.range n).foldl (fun E o2 =>
    if !(o1 == o2) then E + (-J) • (cDag (el true o1) : Expr (Gen ι) S) * cDag (el false o1) * c (el true o2) * c (el false o2) +
      (-J) • (cDag (el true o1) : Expr (Gen ι) S) * cDag (el false o2) * c (el true o2) * c (el false o1) else E) E) E

/-- `H` (partition.cpp:41-74). -/
def ham (el : Bool → Nat → ι) (n : Nat) (mu U J : S) : Expr (Gen ι) S :=
  exchange el n J (interSame el n U J (interDiff el n U J (intra el n U (chemical el n mu 0))))

variable [Algebra ℝ S] [HashImpl H Nat S]

/-- The loop that merges subspaces (partition.cpp:113-125), over a list of orbitals. -/
noncomputable def mergeAll (H : Type _) [HashImpl H Nat S] (hs : HilbertSpace ι) : List ι → SpacePartition → Option (SpacePartition × List (MatElems S × MatElems S))
  | [], sp => some (sp, [])
  | i :: l, sp =>
    match LOperator.make (cDag i : Expr (Gen ι) S) hs, LOperator.make (c i : Expr (Gen ι) S) hs with
    | .ok cdagOp, .ok cOp =>
      match sp.mergeSubspaces H cdagOp cOp true with
      | .error _ => none
      | .ok (sp, me1, me2) => (mergeAll H hs l sp).map fun r => (r.1, (me1, me2) :: r.2)
    | _, _ => none

/-- What the program has computed before it acts on vectors: the Hilbert space, the Hamiltonian, both partitions, the matrix elements. -/
structure Result (ι S : Type _) where
  /-- `hs`. -/
  hs : HilbertSpace ι
  /-- `Hop`. -/
  op : LOperator S
  /-- `sp1`. -/
  sp1 : SpacePartition
  /-- `H_elements`. -/
  elements : MatElems S
  /-- `sp2` after the merges. -/
  sp2 : SpacePartition
  /-- The values of `matrix_elements` in the loop. -/
  merged : List (MatElems S × MatElems S)

/-- From the Hamiltonian to the merged partition (partition.cpp:80-125). -/
noncomputable def run (H : Type _) [HashImpl H Nat S] (el : Bool → Nat → ι) (n : Nat) (mu U J : S) : Option (Result ι S) :=
  match ofMonomials (esConstruct none) ((ham el n mu U J).terms.map (·.1)) with
  | .error _ => none
  | .ok hs =>
    match LOperator.make (ham el n mu U J) hs with
    | .error _ => none
    | .ok op =>
      match SpacePartition.make H op hs.foreach hs.vecSize, SpacePartition.makeMe H op hs.foreach hs.vecSize [] with
      | .ok sp1, .ok (sp2, me) =>
        (mergeAll H hs ((List.range n).map (el true) ++ (List.range n).map (el false)) sp2).map fun r => ⟨hs, op, sp1, me, r.1, r.2⟩
      | _, _ => none

/-- The rest of the program (partition.cpp:135-167) for the subspace number `i` (24 in the program) and a vector `psi`: the contents of `phi`, which is
zero before. -/
noncomputable def act (H₁ H₂ : Type _) [HashImpl H₁ Nat Nat] [HashImpl H₂ Nat Nat] (r : Result ι S) (i : Nat) (psi : List S) : Option (List S) :=
  match r.sp2.foreach with
  | .error _ => none
  | .ok (_, sp) =>
    match sp.subspaceBasis i with
    | .error _ => none
    | .ok (l, _) =>
      match r.op.applyTo ((BasisMapper.ofList l : BasisMapper H₁).makeView (⟨psi⟩ : DenseSV S))
          ((BasisMapper.ofList l : BasisMapper H₂).makeView (⟨List.replicate l.length 0⟩ : DenseSV S)) with
      | .error _ => none
      | .ok v => some v.sv.data

end Atom
end LC
