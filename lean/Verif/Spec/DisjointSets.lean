import Mathlib.Logic.Relation
import Mathlib.Data.Finset.Card
import Mathlib.Order.Interval.Finset.Nat
import Verif.Model.DisjointSets
/-
What a user knows about an object of `disjoint_sets`: the operations it went through and the pairs that were united.
-/
namespace LC

/-- Elements connected by the performed unions: the smallest equivalence relation that contains all united pairs. -/
def Linked (us : List (Nat × Nat)) : Nat → Nat → Prop := Relation.EqvGen fun a b => (a, b) ∈ us

/-- `x` is a representative: `find_root(x)` returns it. -/
def DisjointSets.IsRepresentative (ds : DisjointSets) (x : Nat) : Prop := ∃ d, ds.findRoot x = some (x, d)

/-- `DsHistory ds us`: some sequence of calls of public functions with valid arguments leads to the object `ds`, and `us` are the pairs
united by it. -/
inductive DsHistory : DisjointSets → List (Nat × Nat) → Prop
  /-- The constructor. -/
  | make (n : Nat) : DsHistory (.make n) []
  | makeSet {ds us} : DsHistory ds us → DsHistory ds.makeSet.1 us
  | makeSets {ds us} (n : Nat) : DsHistory ds us → DsHistory (ds.makeSets n) us
  | findRoot {ds us x r ds'} : DsHistory ds us → x < ds.size → ds.findRoot x = some (r, ds') → DsHistory ds' us
  | inSameSet {ds us x y b ds'} : DsHistory ds us → x < ds.size → y < ds.size → ds.inSameSet x y = some (b, ds') → DsHistory ds' us
  | setUnion {ds us x y r ds'} : DsHistory ds us → x < ds.size → y < ds.size → ds.setUnion x y = some (r, ds') →
      DsHistory ds' ((x, y) :: us)
  /-- `root_union` is meant for two different representatives. -/
  | rootUnion {ds us x y r ds'} : DsHistory ds us → x < ds.size → y < ds.size → ds.IsRepresentative x → ds.IsRepresentative y → x ≠ y →
      ds.rootUnion x y = some (r, ds') → DsHistory ds' ((x, y) :: us)
  | compressSets {ds us ds'} : DsHistory ds us → ds.compressSets = some ds' → DsHistory ds' us
  | normalizeSets {ds us ds'} : DsHistory ds us → ds.normalizeSets = some ds' → DsHistory ds' us

/-- The value `parents_[x]` of an object (disjoint_sets.hpp:31). -/
def DisjointSets.parent (ds : DisjointSets) (x : Nat) : Nat := ds.parents.getD x x

namespace DisjointSets
/-- `find_root` is called for the elements of a list, one after the other. -/
def findAll : List Nat → DisjointSets → Option DisjointSets
  | [], ds => some ds
  | x :: l, ds =>
    match ds.findRoot x with
    | none => none
    | some (_, ds) => findAll l ds

end DisjointSets

/-- `k` is the number of classes of `{0, …, n - 1}`: there is a set of `k` elements that has exactly one member in each class. -/
def NumClasses (us : List (Nat × Nat)) (n k : Nat) : Prop :=
  ∃ s : Finset Nat, s.card = k ∧ (∀ r ∈ s, r < n) ∧ ∀ x < n, ∃! r, r ∈ s ∧ Linked us x r

end LC
