import Mathlib.Data.Prod.Lex
import Verif.Model.LOperator
import Verif.Model.DisjointSets
/-
Model of `loperator/space_partition.hpp`.

The Hilbert space `hs` is represented by the list `states` of basis states visited by `foreach(hs, f)` and the value `vecSize` of `get_vec_size(hs)`. It is
held by reference in the code; the model assumes that it does not change (and outlives the partition).
-/
namespace LC

/-! ### `std::map`, `std::multimap` and `std::set` -/

section
variable {K V : Type _} [LinearOrder K]

/-- `std::map::find`: the value, if any. -/
def omapFind (k : K) : List (K × V) → Option V
  | [] => none
  | (k', v') :: t => if k' < k then omapFind k t else if k < k' then none else some v'

/-- `std::map::emplace`: no effect if the key is present. -/
def omapEmplace (k : K) (v : V) : List (K × V) → List (K × V)
  | [] => [(k, v)]
  | (k', v') :: t => if k' < k then (k', v') :: omapEmplace k v t else if k < k' then (k, v) :: (k', v') :: t else (k', v') :: t

/-- `m[k] = v` for a `std::map`. -/
def omapAssign (k : K) (v : V) : List (K × V) → List (K × V)
  | [] => [(k, v)]
  | (k', v') :: t => if k' < k then (k', v') :: omapAssign k v t else if k < k' then (k, v) :: (k', v') :: t else (k', v) :: t

/-- `std::set::emplace`. -/
def osetEmplace (k : K) : List K → List K
  | [] => [k]
  | k' :: t => if k' < k then k' :: osetEmplace k t else if k < k' then k :: k' :: t else k' :: t

/-- `std::multimap::insert`: after the elements with equivalent keys. -/
def multimapInsert (k : K) (v : V) : List (K × V) → List (K × V)
  | [] => [(k, v)]
  | (k', v') :: t => if k < k' then (k, v) :: (k', v') :: t else (k', v') :: multimapInsert k v t

end

/-! ### `space_partition` -/

/-- Failures: undefined behaviour, the exception `std::out_of_range` of `operator[]` (and of state vectors), the exception `std::runtime_error` of
`subspace_basis`. -/
inductive PartError where
  | ub
  | outOfRange
  | wrongSubspace
  deriving DecidableEq, Repr

/-- `matrix_elements_map<S>` (space_partition.hpp:36-38), keys are ordered pairs (row, column). -/
abbrev MatElems (S : Type _) := List ((Nat ×ₗ Nat) × S)

/-- `space_partition<HSType>` (space_partition.hpp:50-57). -/
structure SpacePartition where
  states : List Nat
  vecSize : Nat
  ds : DisjointSets
  rootTo : List (Nat × Nat)
  deriving DecidableEq, Repr

namespace SpacePartition

/-- A failure of a state vector. -/
def svError : SVError → PartError
  | .ub => .ub
  | .outOfRange => .outOfRange

/-- Loop of `update_root_to_subspace` over the basis states (space_partition.hpp:298-300). -/
def rootLoop : List Nat → DisjointSets → List (Nat × Nat) → Except PartError (DisjointSets × List (Nat × Nat))
  | [], ds, m => .ok (ds, m)
  | n :: l, ds, m =>
    match ds.findRoot n with
    | none => .error .ub
    | some (r, ds) => rootLoop l ds (omapEmplace r m.length m)

/-- `update_root_to_subspace()` (space_partition.hpp:293-301), for the object whose members besides `root_to_subspace` are given. -/
def update (states : List Nat) (vecSize : Nat) (ds : DisjointSets) : Except PartError SpacePartition :=
  match ds.compressSets with
  | none => .error .ub
  | some ds =>
    match ds.normalizeSets with
    | none => .error .ub
    | some ds =>
      match rootLoop states ds [] with
      | .error e => .error e
      | .ok (ds, m) => .ok ⟨states, vecSize, ds, m⟩

section
variable {H S : Type _} [CommRing S] [DecidableEq S] [Algebra ℝ S] [HashImpl H Nat S]

/-- The inner functor of the first constructor (space_partition.hpp:84-86) called for the given arguments. -/
def uniteAll (k : Nat) : List (Nat × S) → DisjointSets → Option DisjointSets
  | [], ds => some ds
  | (t, _) :: l, ds =>
    match ds.setUnion k t with
    | none => none
    | some (_, ds) => uniteAll k l ds

/-- The loop of the first constructor (space_partition.hpp:81-88) with the vectors `in_state` and `out_state`. -/
noncomputable def makeLoop (op : LOperator S) : List Nat → SparseSV H S → SparseSV H S → DisjointSets → Except PartError DisjointSets
  | [], _, _, ds => .ok ds
  | k :: l, u, v, ds =>
    let u := u.set k 1
    match op.applyTo u v with
    | .error e => .error (svError e)
    | .ok v =>
      match uniteAll k v.foreach ds with
      | none => .error .ub
      | some ds => makeLoop op l u.setZeros v ds

/-- The first constructor (space_partition.hpp:71-91) and `make_space_partition(h, hs)` (space_partition.hpp:305-310). -/
noncomputable def make (H : Type _) [HashImpl H Nat S] (op : LOperator S) (states : List Nat) (vecSize : Nat) : Except PartError SpacePartition :=
  match makeLoop op states (SparseSV.make vecSize : SparseSV H S) (SparseSV.make vecSize) (.make vecSize) with
  | .error e => .error e
  | .ok ds => update states vecSize ds

/-- The inner functor of the second constructor (space_partition.hpp:115-118). -/
def uniteAllMe (k : Nat) : List (Nat × S) → DisjointSets → MatElems S → Option (DisjointSets × MatElems S)
  | [], ds, me => some (ds, me)
  | (t, a) :: l, ds, me =>
    match ds.setUnion k t with
    | none => none
    | some (_, ds) => uniteAllMe k l ds (omapAssign (toLex (t, k)) a me)

/-- The loop of the second constructor (space_partition.hpp:111-121). -/
noncomputable def makeMeLoop (op : LOperator S) : List Nat → SparseSV H S → SparseSV H S → DisjointSets → MatElems S →
    Except PartError (DisjointSets × MatElems S)
  | [], _, _, ds, me => .ok (ds, me)
  | k :: l, u, v, ds, me =>
    let u := u.set k 1
    match op.applyTo u v with
    | .error e => .error (svError e)
    | .ok v =>
      match uniteAllMe k v.foreach ds me with
      | none => .error .ub
      | some (ds, me) => makeMeLoop op l u.setZeros v ds me

/-- The second constructor (space_partition.hpp:100-124), `make_space_partition(h, hs, me)` (space_partition.hpp:312-319): the object and the
new value of `me`. -/
noncomputable def makeMe (H : Type _) [HashImpl H Nat S] (op : LOperator S) (states : List Nat) (vecSize : Nat) (me : MatElems S) :
    Except PartError (SpacePartition × MatElems S) :=
  match makeMeLoop op states (SparseSV.make vecSize : SparseSV H S) (SparseSV.make vecSize) (.make vecSize) me with
  | .error e => .error e
  | .ok (ds, me) =>
    match update states vecSize ds with
    | .error e => .error e
    | .ok sp => .ok (sp, me)

/-! ### Phase II -/

/-- The innermost functor (space_partition.hpp:160-164) called for the given arguments. -/
def fillAll (store : Bool) (k inSub : Nat) : List (Nat × S) → DisjointSets → List (Nat × Nat) → MatElems S →
    Option (DisjointSets × List (Nat × Nat) × MatElems S)
  | [], ds, conn, me => some (ds, conn, me)
  | (t, a) :: l, ds, conn, me =>
    match ds.findRoot t with
    | none => none
    | some (r, ds) => fillAll store k inSub l ds (multimapInsert inSub r conn) (if store then omapAssign (toLex (t, k)) a me else me)

/-- `fill_conn` (space_partition.hpp:155-165); the new value of `out_state` is the first component. -/
noncomputable def fillConn (store : Bool) (op : LOperator S) (k inSub : Nat) (u v : SparseSV H S) (ds : DisjointSets) (conn : List (Nat × Nat))
    (me : MatElems S) : Except PartError (SparseSV H S × DisjointSets × List (Nat × Nat) × MatElems S) :=
  match op.applyTo u v with
  | .error e => .error (svError e)
  | .ok v =>
    match fillAll store k inSub v.foreach ds conn me with
    | none => .error .ub
    | some r => .ok (v, r)

/-- State of the loop that fills the multimaps: `Cd_conn`, `Cd_elements`, `C_conn`, `C_elements`. -/
structure Conns (S : Type _) where
  cdConn : List (Nat × Nat)
  cdElems : MatElems S
  cConn : List (Nat × Nat)
  cElems : MatElems S

/-- The loop that fills the multimaps (space_partition.hpp:151-171). -/
noncomputable def fillLoop (store : Bool) (Cd C : LOperator S) : List Nat → SparseSV H S → SparseSV H S → DisjointSets → Conns S →
    Except PartError (DisjointSets × Conns S)
  | [], _, _, ds, cs => .ok (ds, cs)
  | k :: l, u, v, ds, cs =>
    let u := u.set k 1
    match ds.findRoot k with
    | none => .error .ub
    | some (inSub, ds) =>
      match fillConn store Cd k inSub u v ds cs.cdConn cs.cdElems with
      | .error e => .error e
      | .ok (v, ds, cdConn, cdElems) =>
        match fillConn store C k inSub u v ds cs.cConn cs.cElems with
        | .error e => .error e
        | .ok (v, ds, cConn, cElems) => fillLoop store Cd C l u.setZeros v ds ⟨cdConn, cdElems, cConn, cElems⟩

end

/-- The loop of `merge_conn_targets` (space_partition.hpp:184-196) with the variables `in_subspace`, `out_subspace`, `subspaces_linked`. -/
def mergeLoop : List (Nat × Nat) → Nat → Nat → Bool → DisjointSets → Option (Bool × DisjointSets)
  | [], _, _, linked, ds => some (linked, ds)
  | (a, b) :: l, inSub, outSub, linked, ds =>
    match ds.findRoot a with
    | none => none
    | some (ra, ds) =>
      match ds.findRoot inSub with
      | none => none
      | some (ri, ds) =>
        if ra = ri then
          match ds.findRoot outSub with
          | none => none
          | some (o1, ds) =>
            match ds.findRoot b with
            | none => none
            | some (o2, ds) =>
              if o1 ≠ o2 then
                match ds.rootUnion o1 o2 with
                | none => none
                | some (_, ds) => mergeLoop l inSub outSub true ds
              else mergeLoop l inSub outSub linked ds
        else
          match ds.findRoot a with
          | none => none
          | some (inSub, ds) =>
            match ds.findRoot b with
            | none => none
            | some (outSub, ds) => mergeLoop l inSub outSub linked ds

/-- `merge_conn_targets` (space_partition.hpp:175-199). -/
def mergeConnTargets (conn : List (Nat × Nat)) (ds : DisjointSets) : Option (Bool × DisjointSets) :=
  match conn with
  | [] => some (false, ds)
  | (a, b) :: l =>
    match ds.findRoot a with
    | none => none
    | some (inSub, ds) =>
      match ds.findRoot b with
      | none => none
      | some (outSub, ds) => mergeLoop l inSub outSub false ds

/-- The `do`-`while` loop (space_partition.hpp:205-208); `none` also if there are more than `fuel` iterations. -/
def mergeWhile (cd c : List (Nat × Nat)) : Nat → DisjointSets → Option DisjointSets
  | 0, _ => none
  | fuel + 1, ds =>
    match mergeConnTargets cd ds with
    | none => none
    | some (l1, ds) =>
      match mergeConnTargets c ds with
      | none => none
      | some (l2, ds) => if l1 || l2 then mergeWhile cd c fuel ds else some ds

section
variable {H S : Type _} [CommRing S] [DecidableEq S] [Algebra ℝ S] [HashImpl H Nat S]

/-- `merge_subspaces(Cd, C, store_matrix_elements)` (space_partition.hpp:131-213): the new state and the returned pair. The `do`-`while` loop
is given `n_sets() + 1` iterations, which is always enough (proved in `Proof/Partition.lean`). -/
noncomputable def mergeSubspaces (H : Type _) [HashImpl H Nat S] (sp : SpacePartition) (Cd C : LOperator S) (store : Bool) :
    Except PartError (SpacePartition × MatElems S × MatElems S) :=
  match fillLoop store Cd C sp.states (SparseSV.make sp.vecSize : SparseSV H S) (SparseSV.make sp.vecSize) sp.ds ⟨[], [], [], []⟩ with
  | .error e => .error e
  | .ok (ds, cs) =>
    match mergeWhile cs.cdConn cs.cConn (ds.numSets + 1) ds with
    | none => .error .ub
    | some ds =>
      match update sp.states sp.vecSize ds with
      | .error e => .error e
      | .ok sp => .ok (sp, cs.cdElems, cs.cElems)

end

/-! ### Queries. `find_root` modifies the `mutable` member of `ds`, therefore they return a new state. -/

/-- `n_subspaces()` (space_partition.hpp:219). -/
def nSubspaces (sp : SpacePartition) : Nat := sp.rootTo.length

/-- `operator[](index)` (space_partition.hpp:222-229). -/
def subspaceOf (sp : SpacePartition) (index : Nat) : Except PartError (Nat × SpacePartition) :=
  match sp.ds.findRoot index with
  | none => .error .ub
  | some (r, ds) =>
    match omapFind r sp.rootTo with
    | none => .error .outOfRange
    | some i => .ok (i, { sp with ds := ds })

/-- `foreach(sp, f)` (space_partition.hpp:287-290): the arguments of the calls of `f` (which must not modify `sp`). -/
def foreachLoop : List Nat → SpacePartition → Except PartError (List (Nat × Nat) × SpacePartition)
  | [], sp => .ok ([], sp)
  | n :: l, sp =>
    match sp.subspaceOf n with
    | .error e => .error e
    | .ok (i, sp) =>
      match foreachLoop l sp with
      | .error e => .error e
      | .ok (r, sp) => .ok ((n, i) :: r, sp)

/-- `foreach(sp, f)` (space_partition.hpp:287-290). -/
def foreach (sp : SpacePartition) : Except PartError (List (Nat × Nat) × SpacePartition) := foreachLoop sp.states sp

/-- `subspace_basis(index)` (space_partition.hpp:264-272). -/
def subspaceBasis (sp : SpacePartition) (index : Nat) : Except PartError (List Nat × SpacePartition) :=
  if index ≥ sp.nSubspaces then .error .wrongSubspace
  else
    match sp.foreach with
    | .error e => .error e
    | .ok (l, sp) => .ok (l.foldl (fun b p => if p.2 = index then b ++ [p.1] else b) [], sp)

/-- Calls of the functor of `subspace_bases` (space_partition.hpp:278-280) on a vector of vectors. -/
def basesLoop : List (Nat × Nat) → List (List Nat) → Option (List (List Nat))
  | [], bs => some bs
  | (n, i) :: l, bs =>
    match bs[i]? with
    | none => none
    | some b => basesLoop l (bs.set i (b ++ [n]))

/-- `subspace_bases()` (space_partition.hpp:275-282). -/
def subspaceBases (sp : SpacePartition) : Except PartError (List (List Nat) × SpacePartition) :=
  match sp.foreach with
  | .error e => .error e
  | .ok (l, sp) =>
    match basesLoop l (List.replicate sp.nSubspaces []) with
    | none => .error .ub
    | some bs => .ok (bs, sp)

section
variable {H S : Type _} [CommRing S] [DecidableEq S] [Algebra ℝ S] [HashImpl H Nat S]

/-- The inner functor of `find_connections` (space_partition.hpp:251-255); dereferencing `end()` is undefined behaviour. -/
def connAll (rootTo : List (Nat × Nat)) (inSub : Nat) : List (Nat × S) → DisjointSets → List (Nat ×ₗ Nat) →
    Option (DisjointSets × List (Nat ×ₗ Nat))
  | [], ds, cs => some (ds, cs)
  | (t, _) :: l, ds, cs =>
    match ds.findRoot t with
    | none => none
    | some (r, ds) =>
      match omapFind r rootTo with
      | none => none
      | some outSub => connAll rootTo inSub l ds (osetEmplace (toLex (inSub, outSub)) cs)

/-- The loop of `find_connections` (space_partition.hpp:244-258). -/
noncomputable def connLoop (rootTo : List (Nat × Nat)) (op : LOperator S) : List Nat → SparseSV H S → SparseSV H S → DisjointSets → List (Nat ×ₗ Nat) →
    Except PartError (DisjointSets × List (Nat ×ₗ Nat))
  | [], _, _, ds, cs => .ok (ds, cs)
  | k :: l, u, v, ds, cs =>
    match ds.findRoot k with
    | none => .error .ub
    | some (r, ds) =>
      match omapFind r rootTo with
      | none => .error .ub
      | some inSub =>
        let u := u.set k 1
        match op.applyTo u v with
        | .error e => .error (svError e)
        | .ok v =>
          match connAll rootTo inSub v.foreach ds cs with
          | none => .error .ub
          | some (ds, cs) => connLoop rootTo op l u.setZeros v ds cs

/-- `find_connections(op)` (space_partition.hpp:232-261): the set in iteration order. -/
noncomputable def findConnections (H : Type _) [HashImpl H Nat S] (sp : SpacePartition) (op : LOperator S) :
    Except PartError (List (Nat ×ₗ Nat) × SpacePartition) :=
  match connLoop sp.rootTo op sp.states (SparseSV.make sp.vecSize : SparseSV H S) (SparseSV.make sp.vecSize) sp.ds [] with
  | .error e => .error e
  | .ok (ds, cs) => .ok (cs, { sp with ds := ds })

end
end SpacePartition
end LC
