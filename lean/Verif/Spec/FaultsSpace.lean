import Verif.Model.FaultsSpace
import Verif.Spec.SpaceHistory
import Verif.Spec.Partition
/-
What an exception may leave behind in Hilbert spaces and space partitions.
-/
namespace LC

/-- Outcome of a call of a member function: it returned `a`, or it threw; `s` is the object afterwards. -/
inductive Ended (σ α : Type _) where
  | returned (a : α) (s : σ)
  | threw (s : σ)

/-- Call a member function of the object `s`; `o n` says whether the `n`-th operation that may throw does. -/
def call {σ α : Type _} (p : Flt σ α) (o : Nat → Bool) (s : σ) : Ended σ α :=
  match p o 0 s with
  | (some a, _, s') => .returned a s'
  | (none, _, s') => .threw s'

/-- The object after the call. -/
def Ended.object {σ α : Type _} : Ended σ α → σ
  | .returned _ s => s
  | .threw s => s

/-- Two Hilbert spaces give the same answers about their elementary spaces. -/
structure SameFactors {ι : Type _} [LinearOrder ι] (a b : HilbertSpace ι) : Prop where
  elementarySpaces : a.elementarySpaces = b.elementarySpaces
  size : a.size = b.size
  has : ∀ es, a.has es = b.has es
  index : ∀ es, a.index es = b.index es
  dimOf : ∀ es, a.dimOf es = b.dimOf es

open SpacePartition in
/-- What a program does with a partition object, during which exceptions may be thrown. -/
inductive PartCmd (S : Type _) where
  /-- `sp.merge_subspaces(Cd, C, store)` -/
  | merge (Cd C : LOperator S) (store : Bool)
  /-- `sp.find_connections(op)` -/
  | findConnections (op : LOperator S)
  /-- `foreach(sp, f)` where `f` may throw -/
  | foreach
  /-- `sp[k]` for a basis state `k` -/
  | subspaceOf (k : Nat)

/-- The operators used are made from expressions over the generators `P`; indices are valid basis states. -/
def PartCmd.Ok {ι S : Type _} [LinearOrder ι] [CommRing S] [DecidableEq S] [ConstScalar S] [Star S] [Algebra ℝ S] (P : Gen ι → Prop)
    (hs : HilbertSpace ι) : PartCmd S → Prop
  | .merge Cd C _ => (∃ e, SpacePartition.OperatorOn P hs e Cd) ∧ ∃ e, SpacePartition.OperatorOn P hs e C
  | .findConnections op => ∃ e, SpacePartition.OperatorOn P hs e op
  | .foreach => True
  | .subspaceOf k => ValidState hs k

/-- The object after the statement, during which the oracle `o` decides what throws (insertions into `root_to_subspace` do not);
the exception is caught by the caller. -/
noncomputable def PartCmd.exec {S : Type} [CommRing S] [DecidableEq S] [Algebra ℝ S] (H : Type) [HashImpl H Nat S] (o : Nat → Bool)
    (sp : SpacePartition) : PartCmd S → SpacePartition
  | .merge Cd C store => (call (Faults.mergeSubspaces H (fun _ => false) Cd C store) o sp).object
  | .findConnections op => (call (Faults.findConnections H op) o sp).object
  | .foreach => (call Faults.foreach o sp).object
  | .subspaceOf k => (call (Faults.subspaceOf k) o sp).object

end LC
