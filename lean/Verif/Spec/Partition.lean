import Mathlib.Logic.Relation
import Verif.Spec.LOperator
import Verif.Spec.Reachable
import Verif.Model.SpacePartition
import Verif.Model.LOperator
/-
What a user knows about a space partition: how it was made, and the answers to the queries.
-/
namespace LC
section
variable {ι S : Type _} [LinearOrder ι] [CommRing S] [Algebra ℝ S]

/-- The operator has a non-zero matrix element from the basis state `k` to the basis state `t`. -/
def Leads (hs : HilbertSpace ι) (e : Expr (Gen ι) S) (k t : Nat) : Prop := ValidState hs k ∧ ValidState hs t ∧ opEl hs e t k ≠ 0

/-- Basis states connected by non-zero matrix elements: the smallest equivalence relation that contains the direct connections. -/
def Joined (hs : HilbertSpace ι) (e : Expr (Gen ι) S) : Nat → Nat → Prop := Relation.EqvGen (Leads hs e)

/-- The map `me'` holds the non-zero matrix elements between basis states, with the index of the final state first, and for other keys what `me` holds. -/
def HoldsElements (hs : HilbertSpace ι) (e : Expr (Gen ι) S) (me me' : MatElems S) : Prop :=
  (me'.Pairwise fun p q => p.1 < q.1) ∧
  ∀ t k a, (toLex (t, k), a) ∈ me' ↔ (Leads hs e k t ∧ a = opEl hs e t k) ∨ (¬ Leads hs e k t ∧ (toLex (t, k), a) ∈ me)

end

namespace SpacePartition

/-- `sp[k]` returns `i`. -/
def Sub (sp : SpacePartition) (k i : Nat) : Prop := ∃ s, sp.subspaceOf k = .ok (i, s)

section
variable {ι S : Type _} [LinearOrder ι] [CommRing S] [DecidableEq S] [ConstScalar S] [Star S] [Algebra ℝ S]

/-- Operators made by `make_loperator` from expressions over the generators `P`. -/
def OperatorOn (P : Gen ι → Prop) (hs : HilbertSpace ι) (e : Expr (Gen ι) S) (op : LOperator S) : Prop :=
  Reachable P e ∧ LOperator.make e hs = .ok op

/-- A call of a `const` member function or of `foreach` (they modify a `mutable` member). -/
inductive Query (H S : Type _) [CommRing S] [DecidableEq S] [ConstScalar S] [Star S] [Algebra ℝ S] [HashImpl H Nat S] (P : Gen ι → Prop)
    (hs : HilbertSpace ι) (sp : SpacePartition) (sp' : SpacePartition) : Prop
  | subspaceOf (k i : Nat) : sp.subspaceOf k = .ok (i, sp') → Query H S P hs sp sp'
  | foreach (l : List (Nat × Nat)) : sp.foreach = .ok (l, sp') → Query H S P hs sp sp'
  | basis (i : Nat) (l : List Nat) : sp.subspaceBasis i = .ok (l, sp') → Query H S P hs sp sp'
  | bases (l : List (List Nat)) : sp.subspaceBases = .ok (l, sp') → Query H S P hs sp sp'
  | findConnections (e : Expr (Gen ι) S) (op cs) : OperatorOn P hs e op → sp.findConnections H op = .ok (cs, sp') → Query H S P hs sp sp'

/-- Partition objects a user can have. -/
inductive PartitionOf (H S : Type _) [CommRing S] [DecidableEq S] [ConstScalar S] [Star S] [Algebra ℝ S] [HashImpl H Nat S] (P : Gen ι → Prop)
    (hs : HilbertSpace ι) : SpacePartition → Prop
  | make (e : Expr (Gen ι) S) {op sp} : OperatorOn P hs e op → SpacePartition.make H op hs.foreach hs.vecSize = .ok sp → PartitionOf H S P hs sp
  | makeMe (e : Expr (Gen ι) S) {op me sp me'} : OperatorOn P hs e op → (me.Pairwise fun p q => p.1 < q.1) →
      SpacePartition.makeMe H op hs.foreach hs.vecSize me = .ok (sp, me') → PartitionOf H S P hs sp
  | merge {sp : SpacePartition} (eCd eC : Expr (Gen ι) S) {Cd C store sp' me1 me2} : PartitionOf H S P hs sp → OperatorOn P hs eCd Cd →
      OperatorOn P hs eC C → sp.mergeSubspaces H Cd C store = .ok (sp', me1, me2) → PartitionOf H S P hs sp'
  | query {sp sp' : SpacePartition} : PartitionOf H S P hs sp → Query H S P hs sp sp' → PartitionOf H S P hs sp'

end
end SpacePartition
end LC
