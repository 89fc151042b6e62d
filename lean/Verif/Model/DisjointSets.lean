import Mathlib.Data.List.Basic
/-
Model of `loperator/disjoint_sets.hpp`.

`none` stands for undefined behaviour: an access outside a vector (the assertions of the code are not relied upon) or a recursion
that does not end.
-/
namespace LC

/-- `disjoint_sets` (disjoint_sets.hpp:30-33). -/
structure DisjointSets where
  parents : List Nat
  ranks : List Nat
  nSets : Nat
  deriving DecidableEq, Repr

namespace DisjointSets

/-- The constructor (disjoint_sets.hpp:36-39). -/
def make (n : Nat) : DisjointSets := ⟨List.range n, List.replicate n 0, n⟩

/-- `size()` (disjoint_sets.hpp:61). -/
def size (ds : DisjointSets) : Nat := ds.parents.length

/-- `make_set()` (disjoint_sets.hpp:42-47): the new object and the returned index. -/
def makeSet (ds : DisjointSets) : DisjointSets × Nat := (⟨ds.parents ++ [ds.size], ds.ranks ++ [0], ds.nSets + 1⟩, ds.size)

/-- Loop of `make_sets(n)` (disjoint_sets.hpp:53-56). -/
def makeSetsLoop : Nat → List Nat → List Nat → List Nat × List Nat
  | 0, ps, rs => (ps, rs)
  | n + 1, ps, rs => makeSetsLoop n (ps ++ [ps.length]) (rs ++ [0])

/-- `make_sets(n)` (disjoint_sets.hpp:50-58). -/
def makeSets (ds : DisjointSets) (n : Nat) : DisjointSets :=
  let r := makeSetsLoop n ds.parents ds.ranks
  ⟨r.1, r.2, ds.nSets + n⟩

/-- `n_sets()` (disjoint_sets.hpp:64). -/
def numSets (ds : DisjointSets) : Nat := ds.nSets

/-- `find_root(x)` (disjoint_sets.hpp:67-74) on the vector `parents_`: the returned value and the modified vector. `none` also if the
recursion is deeper than `fuel`. -/
def findRootRec : Nat → List Nat → Nat → Option (Nat × List Nat)
  | 0, _, _ => none
  | fuel + 1, ps, x =>
    match ps[x]? with
    | none => none
    | some p =>
      match ps[p]? with
      | none => none
      | some pp =>
        if pp ≠ p then
          match findRootRec fuel ps p with
          | none => none
          | some (r, ps) => some (r, ps.set x r)
        else some (p, ps)

/-- `find_root(x)` (disjoint_sets.hpp:67-74). A recursion deeper than `size()` never ends, because it meets an element twice. -/
def findRoot (ds : DisjointSets) (x : Nat) : Option (Nat × DisjointSets) :=
  (findRootRec (ds.size + 1) ds.parents x).map fun r => (r.1, { ds with parents := r.2 })

/-- `in_same_set(x, y)` (disjoint_sets.hpp:77-81); the order of the two calls is unspecified in C++, here the first one is made first. -/
def inSameSet (ds : DisjointSets) (x y : Nat) : Option (Bool × DisjointSets) :=
  match ds.findRoot x with
  | none => none
  | some (rx, ds) =>
    match ds.findRoot y with
    | none => none
    | some (ry, ds) => some (rx == ry, ds)

/-- `root_union(x, y)` (disjoint_sets.hpp:84-100). -/
def rootUnion (ds : DisjointSets) (x y : Nat) : Option (Nat × DisjointSets) :=
  match ds.ranks[x]?, ds.ranks[y]? with
  | some xr, some yr =>
    if x < ds.size ∧ y < ds.size then
      if xr < yr then some (y, ⟨ds.parents.set x y, ds.ranks, ds.nSets - 1⟩)
      else if xr = yr then some (x, ⟨ds.parents.set y x, ds.ranks.set x (xr + 1), ds.nSets - 1⟩)
      else some (x, ⟨ds.parents.set y x, ds.ranks, ds.nSets - 1⟩)
    else none
  | _, _ => none

/-- `set_union(x, y)` (disjoint_sets.hpp:103-107). -/
def setUnion (ds : DisjointSets) (x y : Nat) : Option (Nat × DisjointSets) :=
  match ds.findRoot x with
  | none => none
  | some (rx, ds) =>
    match ds.findRoot y with
    | none => none
    | some (ry, ds) => if rx ≠ ry then ds.rootUnion rx ry else some (rx, ds)

/-- The range-based loop of `compress_sets()` (disjoint_sets.hpp:111-112) over the positions `i`, …: the value at the position is read
when the position is reached, and `find_root` is called on it. -/
def compressLoop : List Nat → DisjointSets → Option DisjointSets
  | [], ds => some ds
  | i :: l, ds =>
    match ds.parents[i]? with
    | none => none
    | some x =>
      match ds.findRoot x with
      | none => none
      | some (_, ds) => compressLoop l ds

/-- `compress_sets()` (disjoint_sets.hpp:110-113). -/
def compressSets (ds : DisjointSets) : Option DisjointSets := compressLoop (List.range ds.size) ds

/-- The body of the loop of `normalize_sets()` (disjoint_sets.hpp:118-124). -/
def normalizeStep (ps : List Nat) (x : Nat) : Option (List Nat) :=
  match ps[x]? with
  | none => none
  | some p =>
    match ps[p]? with
    | none => none
    | some pp => if x > p ∨ pp ≠ p then some (ps.set x pp) else some ((ps.set p x).set x x)

/-- The loop of `normalize_sets()` (disjoint_sets.hpp:117-125). -/
def normalizeLoop : List Nat → List Nat → Option (List Nat)
  | [], ps => some ps
  | x :: l, ps =>
    match normalizeStep ps x with
    | none => none
    | some ps => normalizeLoop l ps

/-- `normalize_sets()` (disjoint_sets.hpp:116-126). -/
def normalizeSets (ds : DisjointSets) : Option DisjointSets :=
  (normalizeLoop (List.range ds.size) ds.parents).map fun ps => { ds with parents := ps }

end DisjointSets
end LC
