import Verif.Model.Faults
import Verif.Model.SpacePartition
/-
Exceptions at arbitrary points of `hilbert_space::add()`, of the copy assignment of Hilbert spaces, of
`space_partition::merge_subspaces()`, `find_connections()` and `foreach()`. See Model/Faults.lean for the fault model.
-/
namespace LC
namespace Flt
variable {σ α : Type _}

/-- A `throw` statement. Also used where the model without faults says that behaviour is undefined. -/
def raise : Flt σ α := fun _ n s => (none, n, s)

end Flt

open Flt
namespace Faults

/-! ### `hilbert_space` -/
section
variable {ι : Type} [LinearOrder ι]

/-- Loop of `recompute_bit_ranges` (hilbert_space.hpp:393-410) over the nodes from position `i` on. The virtual functions
`n_bits()` and `algebra_id()` and the insertion into `algebra_bit_ranges_` may throw. -/
def recomputeLoop : List (ESpace ι × BitRange) → Nat → Flt (HilbertSpace ι) Unit
  | [], _ => pure ()
  | (es, _) :: l, i => do
    point
    let hs ← read
    let range : BitRange := ⟨hs.bitRangeEnd + 1, hs.bitRangeEnd + es.nBits⟩
    modify fun hs => { hs with spaces := hs.spaces.set i (es, range) }
    point
    modify fun hs => { hs with algRanges := HilbertSpace.updateAlg es.algebraId range hs.algRanges }
    modify fun hs => { hs with bitRangeEnd := hs.bitRangeEnd + es.nBits }
    recomputeLoop l (i + 1)

/-- `recompute_bit_ranges` (hilbert_space.hpp:390-413). -/
def recompute : Flt (HilbertSpace ι) Unit := do
  modify fun hs => { hs with algRanges := [] }
  modify fun hs => { hs with bitRangeEnd := -1 }
  let hs ← read
  recomputeLoop hs.spaces 0
  let hs ← read
  if hs.bitRangeEnd ≥ 63 then raise else pure ()

/-- `init_foreach_alg` (hilbert_space.hpp:416-440). The memory for `sizes` and for the new `sparse_foreach_basis_state` is
allocated before `foreach_alg_` is changed. -/
def initForeach : Flt (HilbertSpace ι) Unit := do
  point
  point
  modify HilbertSpace.initForeach

/-- `add` (hilbert_space.hpp:286-292). -/
def addSpace (es : ESpace ι) : Flt (HilbertSpace ι) Unit := do
  point
  let hs ← read
  match HilbertSpace.emplaceSpace es hs.spaces with
  | none => raise
  | some sp => do
    modify fun hs => { hs with spaces := sp }
    recompute
    modify fun hs => { hs with dim := mul64 hs.dim es.dim }
    initForeach

/-- Copy assignment (hilbert_space.hpp:249-263) from another object. -/
def assignSpace (src : HilbertSpace ι) : Flt (HilbertSpace ι) Unit := do
  modify fun hs => { hs with bitRangeEnd := src.bitRangeEnd }
  modify fun hs => { hs with spaces := [] }
  each src.spaces fun p => do
    point
    modify fun hs => { hs with spaces := hs.spaces ++ [p] }
  modify fun hs => { hs with dim := src.dim }
  point
  modify fun hs => { hs with foreachAlg := src.foreachAlg }

end

/-! ### `space_partition` -/

/-- `ds.find_root(x)` (disjoint_sets.hpp:67-74), which does not throw. -/
def findRoot (x : Nat) : Flt SpacePartition Nat := do
  let sp ← read
  match sp.ds.findRoot x with
  | none => raise
  | some (r, ds) => do
    modify fun sp => { sp with ds := ds }
    pure r

section
variable {H S : Type} [CommRing S] [DecidableEq S] [Algebra ℝ S] [HashImpl H Nat S]

/-- The innermost functor (space_partition.hpp:160-164) called for the given arguments; the multimap and the map of matrix
elements are local variables. -/
def fillAll (store : Bool) (k inSub : Nat) : List (Nat × S) → List (Nat × Nat) → MatElems S →
    Flt SpacePartition (List (Nat × Nat) × MatElems S)
  | [], conn, me => pure (conn, me)
  | (t, a) :: l, conn, me => do
    let r ← findRoot t
    point
    point
    fillAll store k inSub l (multimapInsert inSub r conn) (if store then omapAssign (toLex (t, k)) a me else me)

/-- `fill_conn` (space_partition.hpp:155-165). The application of the operator may throw. -/
noncomputable def fillConn (store : Bool) (op : LOperator S) (k inSub : Nat) (u v : SparseSV H S) (conn : List (Nat × Nat)) (me : MatElems S) :
    Flt SpacePartition (SparseSV H S × List (Nat × Nat) × MatElems S) := do
  point
  match op.applyTo u v with
  | .error _ => raise
  | .ok v => do
    let r ← fillAll store k inSub v.foreach conn me
    pure (v, r)

/-- The loop that fills the multimaps (space_partition.hpp:151-171). -/
noncomputable def fillLoop (store : Bool) (Cd C : LOperator S) : List Nat → SparseSV H S → SparseSV H S → SpacePartition.Conns S →
    Flt SpacePartition (SpacePartition.Conns S)
  | [], _, _, cs => pure cs
  | k :: l, u, v, cs => do
    point
    let inSub ← findRoot k
    let r1 ← fillConn store Cd k inSub (u.set k 1) v cs.cdConn cs.cdElems
    let r2 ← fillConn store C k inSub (u.set k 1) r1.1 cs.cConn cs.cElems
    fillLoop store Cd C l (u.set k 1).setZeros r2.1 ⟨r1.2.1, r1.2.2, r2.2.1, r2.2.2⟩

/-- Loop of `update_root_to_subspace` over the basis states (space_partition.hpp:298-300); `node i` says whether the `i`-th call
of `emplace` throws. -/
def rootLoop (node : Nat → Bool) : List Nat → Nat → Flt SpacePartition Unit
  | [], _ => pure ()
  | n :: l, i => do
    let r ← findRoot n
    if node i then raise else pure ()
    modify fun sp => { sp with rootTo := omapEmplace r sp.rootTo.length sp.rootTo }
    rootLoop node l (i + 1)

/-- `update_root_to_subspace()` (space_partition.hpp:293-301). -/
def updateRoots (node : Nat → Bool) : Flt SpacePartition Unit := do
  let sp ← read
  match sp.ds.compressSets with
  | none => raise
  | some ds =>
    match ds.normalizeSets with
    | none => raise
    | some ds => do
      modify fun sp => { sp with ds := ds }
      modify fun sp => { sp with rootTo := [] }
      rootLoop node sp.states 0

/-- `merge_subspaces(Cd, C, store_matrix_elements)` (space_partition.hpp:131-213). `node` says which insertions into
`root_to_subspace` throw, the oracle which of the other operations: creation of the state vectors, insertion of elements,
application of the operators, insertions into the local maps, and copying of the two maps at the end. -/
noncomputable def mergeSubspaces (H : Type) [HashImpl H Nat S] (node : Nat → Bool) (Cd C : LOperator S) (store : Bool) :
    Flt SpacePartition (MatElems S × MatElems S) := do
  point
  point
  let sp ← read
  let cs ← fillLoop store Cd C sp.states (SparseSV.make sp.vecSize : SparseSV H S) (SparseSV.make sp.vecSize) ⟨[], [], [], []⟩
  let sp ← read
  match SpacePartition.mergeWhile cs.cdConn cs.cConn (sp.ds.numSets + 1) sp.ds with
  | none => raise
  | some ds => do
    modify fun sp => { sp with ds := ds }
    updateRoots node
    point
    pure (cs.cdElems, cs.cElems)

/-- The inner functor of `find_connections` (space_partition.hpp:251-255). -/
def connAll (inSub : Nat) : List (Nat × S) → List (Nat ×ₗ Nat) → Flt SpacePartition (List (Nat ×ₗ Nat))
  | [], cs => pure cs
  | (t, _) :: l, cs => do
    let r ← findRoot t
    let sp ← read
    match omapFind r sp.rootTo with
    | none => raise
    | some outSub => do
      point
      connAll inSub l (osetEmplace (toLex (inSub, outSub)) cs)

/-- The loop of `find_connections` (space_partition.hpp:244-258). -/
noncomputable def connLoop (op : LOperator S) : List Nat → SparseSV H S → SparseSV H S → List (Nat ×ₗ Nat) →
    Flt SpacePartition (List (Nat ×ₗ Nat))
  | [], _, _, cs => pure cs
  | k :: l, u, v, cs => do
    let r ← findRoot k
    let sp ← read
    match omapFind r sp.rootTo with
    | none => raise
    | some inSub => do
      point
      point
      match op.applyTo (u.set k 1) v with
      | .error _ => raise
      | .ok v => do
        let cs ← connAll inSub v.foreach cs
        connLoop op l (u.set k 1).setZeros v cs

/-- `find_connections(op)` (space_partition.hpp:232-261). -/
noncomputable def findConnections (H : Type) [HashImpl H Nat S] (op : LOperator S) : Flt SpacePartition (List (Nat ×ₗ Nat)) := do
  point
  point
  let sp ← read
  connLoop op sp.states (SparseSV.make sp.vecSize : SparseSV H S) (SparseSV.make sp.vecSize) []

end

/-- `operator[]` (space_partition.hpp:222-229). -/
def subspaceOf (index : Nat) : Flt SpacePartition Nat := do
  let r ← findRoot index
  let sp ← read
  match omapFind r sp.rootTo with
  | none => raise
  | some i => pure i

/-- Loop of `foreach(sp, f)` (space_partition.hpp:287-290): the functor may throw. The result lists the arguments of the calls. -/
def foreachLoop : List Nat → Flt SpacePartition (List (Nat × Nat))
  | [] => pure []
  | n :: l => do
    let i ← subspaceOf n
    point
    let r ← foreachLoop l
    pure ((n, i) :: r)

/-- `foreach(sp, f)` (space_partition.hpp:287-290); with `push_back` as the functor, `subspace_basis()` and `subspace_bases()`
(space_partition.hpp:264-282). -/
def foreach : Flt SpacePartition (List (Nat × Nat)) := do
  let sp ← read
  foreachLoop sp.states

end Faults
end LC
