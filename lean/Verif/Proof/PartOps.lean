import Verif.Proof.PartMerge
import Verif.Proof.Mapper
import Verif.Props.LOperator
import Verif.Spec.Partition
/- Space partitions of Hilbert spaces, for operators made from expressions. -/
set_option linter.unusedSectionVars false
namespace LC
open HilbertSpace Expr DisjointSets BasisMapper
namespace SpacePartition
variable {ι S H : Type _} [LinearOrder ι] {hs : HilbertSpace ι} [CommRing S] [DecidableEq S] [ConstScalar S] [ScalarLaws S]
  [IsDomain S] [CharZero S] [Star S] [Algebra ℝ S] [HashImpl H Nat S] {M : Nat → ι → Prop}

open Classical in
/-- Matrix elements between basis states, zero elsewhere. -/
noncomputable def mat (hs : HilbertSpace ι) (e : Expr (Gen ι) S) (t k : Nat) : S := if Leads hs e k t then opEl hs e t k else 0

theorem mat_ne (e : Expr (Gen ι) S) (t k : Nat) : mat hs e t k ≠ 0 ↔ Leads hs e k t := by
  unfold mat
  split
  · next h => exact ⟨fun _ => h, fun _ => h.2.2⟩
  · next h => exact ⟨fun h' => absurd rfl h', fun h' => absurd h' h⟩

theorem mat_eq {e : Expr (Gen ι) S} {t k : Nat} (h : Leads hs e k t) : mat hs e t k = opEl hs e t k := by rw [mat, if_pos h]

variable (hc : Constructed hs) (hsmall : hs.foreachAlg.isSome → hs.dim < 2 ^ 31)
include hc

theorem vecSize_eq : hs.vecSize = 2 ^ hs.totalNBits.toNat := by
  have h63 := (C26_bit_ranges hs hc).2.2.1
  unfold HilbertSpace.vecSize; rw [pow2_eq (by omega)]

include hsmall in
theorem mem_states (k : Nat) : k ∈ hs.foreach ↔ ValidState hs k := by
  rw [(C27_foreach hs hc hsmall).1, List.mem_filter, List.mem_range, decide_eq_true_eq]
  constructor
  · exact fun h => h.2
  · exact fun h => ⟨by rw [vecSize_eq hc]; exact h.1, h⟩

theorem opApply_single (e : Expr (Gen ι) S) {k : Nat} (hk : ValidState hs k) (t : Nat) :
    opApply hs e (fun n => if n = k then (1 : S) else 0) t = mat hs e t k := by
  rw [opApply]
  by_cases ht : ValidState hs t
  · rw [if_pos ht]
    have : k ∈ basisStates hs := by
      rw [basisStates, Finset.mem_filter, Finset.mem_range]
      exact ⟨hk.1, hk⟩
    simp only [smul_eq_mul, mul_ite, mul_one, mul_zero]
    rw [Finset.sum_ite_eq' (basisStates hs) k, if_pos this, mat]
    by_cases h0 : opEl hs e t k = 0
    · rw [h0]; split <;> rfl
    · rw [if_pos ⟨hk, ht, h0⟩]
  · rw [if_neg ht, mat, if_neg (fun h => ht h.2.1)]

include hsmall in
theorem opActs (hM : HalfAlone M) (hpre : PredefinedSpaces hs) {e : Expr (Gen ι) S} {op : LOperator S} (h : OperatorOn (InSpace M hs) hs e op) :
    OpActs H op hs.foreach (mat hs e) := by
  refine ⟨fun k hk u v hu hv => ?_, fun k hk t ht => ?_⟩
  · rw [mem_states hc hsmall] at hk
    have hst : Stores hs u (fun n => if n = k then (1 : S) else 0) := by
      refine ⟨hu.nodup, fun n => ?_, fun n => ?_, fun n hn => ?_⟩
      · rw [hu.find]; split <;> simp
      · rw [SparseSV.getElement_eq, hu.find]; split <;> simp
      · have : n = k := by by_contra h'; exact hn (by simp [h'])
        rw [this]; exact hk
    obtain ⟨v', a1, a2⟩ := apply_stores hc hpre h.2 (reach_actsOn hM h.1) hst hv
    refine ⟨v', a1, a2.nodup, fun t a => ?_⟩
    have e1 := a2.amp t
    have e2 := a2.nozero t
    rw [opApply_single hc e hk, SparseSV.getElement_eq] at e1
    have e3 : (t, a) ∈ v'.foreach ↔ v'.data.find? t = some a := (UMap.find?_iff a2.nodup t a).symm
    rw [e3, ← e1]
    cases hf : v'.data.find? t with
    | none => simp
    | some b =>
      rw [hf] at e2
      simp only [Option.some.injEq, Option.getD_some]
      constructor
      · rintro rfl; exact ⟨rfl, fun h0 => e2 (by rw [h0])⟩
      · rintro ⟨h1, _⟩; exact h1.symm
  · rw [mem_states hc hsmall]
    exact ((mat_ne e t k).1 ht).2.1

include hsmall in
theorem states_lt : ∀ k ∈ hs.foreach, k < hs.vecSize := fun k hk => by
  rw [mem_states hc hsmall] at hk
  rw [vecSize_eq hc]; exact hk.1

/-- The result of the constructors. -/
structure Made (hs : HilbertSpace ι) (e : Expr (Gen ι) S) (sp : SpacePartition) (R : Nat → Nat) : Prop where
  inv : Inv sp R
  states : sp.states = hs.foreach
  size : sp.vecSize = hs.vecSize
  joined : ∀ x < hs.vecSize, ∀ y < hs.vecSize, R x = R y ↔ Joined hs e x y

omit hc in
theorem joined_closed {e : Expr (Gen ι) S} {x y : Nat} (h : Joined hs e x y) : x = y ∨ ValidState hs x ∧ ValidState hs y := by
  induction h with
  | rel x y h => exact Or.inr ⟨h.1, h.2.1⟩
  | refl x => exact Or.inl rfl
  | symm x y _ ih =>
    rcases ih with h | h
    · exact Or.inl h.symm
    · exact Or.inr ⟨h.2, h.1⟩
  | trans x y z _ _ h1 h2 =>
    rcases h1 with h1 | h1
    · rw [h1]; exact h2
    · rcases h2 with h2 | h2
      · rw [← h2]; exact Or.inr h1
      · exact Or.inr ⟨h1.1, h2.2⟩

include hsmall in
theorem make_spec (hM : HalfAlone M) (hpre : PredefinedSpaces hs) {e : Expr (Gen ι) S} {op : LOperator S} (h : OperatorOn (InSpace M hs) hs e op)
    {me : MatElems S} (hme : OSorted me) :
    ∃ sp R me', make H op hs.foreach hs.vecSize = .ok sp ∧ makeMe H op hs.foreach hs.vecSize me = .ok (sp, me') ∧ Made hs e sp R ∧
      Stored true (mat hs e) hs.foreach me me' := by
  obtain ⟨R0, h0⟩ := (DsHistory.make hs.vecSize).inv
  obtain ⟨ds, us, R, me', a1, a2, a3, a4, a5, a6, a7⟩ := makeMeLoop_spec (opActs (H := H) hc hsmall hM hpre h) (states_lt hc hsmall) hs.foreach
    (fun _ h => h) (u := SparseSV.make hs.vecSize) (v := SparseSV.make hs.vecSize) rfl (nodup_make _) h0 (by simp [DisjointSets.make, DisjointSets.size]) hme
  have hus : ∀ x y, (x, y) ∈ us ↔ Leads hs e x y := by
    intro x y
    rw [a5, mat_ne, mem_states hc hsmall]
    constructor
    · rintro (h | h)
      · cases h
      · exact h.2
    · exact fun h => Or.inr ⟨h.1, h⟩
  have hJ : ∀ x y, Linked us x y ↔ Joined hs e x y := by
    intro x y
    have : (fun a b => (a, b) ∈ us) = Leads hs e := by funext x y; exact propext (hus x y)
    rw [Linked, Joined, this]
  have hR : ∀ x < hs.vecSize, ∀ y < hs.vecSize, R x = R y ↔ Joined hs e x y := by
    intro x hx y hy
    rw [← hJ]
    exact a3.linked x (by rw [a4]; exact hx) y (by rw [a4]; exact hy)
  obtain ⟨sp, R', b1, b2, b3, b4, b5⟩ := update_spec a3.good a4 (states_lt hc hsmall) (by
    intro k hk y hy he
    rcases joined_closed ((hR y hy k (states_lt hc hsmall k hk)).1 he) with h | h
    · rw [h]; exact hk
    · exact (mem_states hc hsmall y).2 h.1)
  refine ⟨sp, R', me', ?_, ?_, ⟨b2, b3, b4, fun x hx y hy => (b5 x hx y hy).trans (hR x hx y hy)⟩, a6, fun t j => ?_⟩
  · rw [make, a1]; exact b1
  · rw [makeMe, a2]; simp only [b1]
  · rw [a7]; simp

/-- The number of the subspace of a state. -/
abbrev num (R : Nat → Nat) (hs : HilbertSpace ι) (k : Nat) : Nat := (firsts R hs.foreach []).idxOf (R k)

/-- What is true of all partition objects of a Hilbert space. -/
structure HInv (hs : HilbertSpace ι) (sp : SpacePartition) (R : Nat → Nat) : Prop where
  inv : Inv sp R
  states : sp.states = hs.foreach
  size : sp.vecSize = hs.vecSize

omit hc in
theorem findRoot_none {ds : DisjointSets} {k : Nat} (h : ds.size ≤ k) : ds.findRoot k = none := by
  have : ds.parents[k]? = none := List.getElem?_eq_none h
  rw [DisjointSets.findRoot, findRootRec, this]; rfl

namespace HInv
variable {sp : SpacePartition} {R : Nat → Nat} (hi : HInv hs sp R)
include hsmall hi

theorem sub (k i : Nat) : sp.Sub k i ↔ ValidState hs k ∧ i = num R hs k := by
  have h1 := hi.inv
  constructor
  · rintro ⟨s, h⟩
    by_cases hk : k ∈ sp.states
    · obtain ⟨d, a1, _⟩ := h1.subspaceOf hk
      rw [a1] at h
      cases h
      rw [hi.states] at hk
      exact ⟨(mem_states hc hsmall k).1 hk, by rw [hi.states]⟩
    · by_cases hlt : k < sp.vecSize
      · rw [h1.subspaceOf_error hk hlt] at h; cases h
      · rw [SpacePartition.subspaceOf] at h
        have : sp.ds.findRoot k = none := findRoot_none (by rw [h1.size]; omega)
        rw [this] at h; cases h
  · rintro ⟨h, rfl⟩
    have hk : k ∈ sp.states := by rw [hi.states, mem_states hc hsmall]; exact h
    obtain ⟨d, a1, _⟩ := h1.subspaceOf hk
    exact ⟨_, by rw [a1, hi.states]⟩

omit hc hsmall in
theorem withDs {ds : DisjointSets} (h : Inv { sp with ds := ds } R) : HInv hs { sp with ds := ds } R := ⟨h, hi.states, hi.size⟩

omit hc hsmall in
theorem foreach : ∃ ds, sp.foreach = .ok (hs.foreach.map fun k => (k, num R hs k), { sp with ds := ds }) ∧ HInv hs { sp with ds := ds } R := by
  obtain ⟨d, a1, a2⟩ := hi.inv.foreachLoop sp.states (fun _ h => h)
  exact ⟨d, by rw [SpacePartition.foreach, a1, hi.states], hi.withDs a2⟩

omit hc hsmall in
theorem nSubspaces : sp.nSubspaces = (firsts R hs.foreach []).length := by
  rw [SpacePartition.nSubspaces, hi.inv.numbering.length, hi.states]

omit hc hsmall hi in
theorem foldl_basis (f : Nat → Nat) (i : Nat) (l acc : List Nat) :
    (l.map fun k => (k, f k)).foldl (fun b p => if p.2 = i then b ++ [p.1] else b) acc = acc ++ l.filter fun k => f k = i := by
  induction l generalizing acc with
  | nil => simp
  | cons k l ih =>
    rw [List.map_cons, List.foldl_cons, ih]
    by_cases h : f k = i
    · rw [if_pos h, List.filter_cons_of_pos (by simpa using h), List.append_assoc]; rfl
    · rw [if_neg h, List.filter_cons_of_neg (by simpa using h)]

omit hc hsmall in
theorem subspaceBasis {i : Nat} (h : i < sp.nSubspaces) : ∃ ds, sp.subspaceBasis i = .ok (hs.foreach.filter fun k => num R hs k = i, { sp with ds := ds }) ∧
    HInv hs { sp with ds := ds } R := by
  obtain ⟨d, a1, a2⟩ := hi.foreach
  refine ⟨d, ?_, a2⟩
  rw [SpacePartition.subspaceBasis, if_neg (by omega), a1]
  simp only [foldl_basis, List.nil_append]

omit hc hsmall hi in
theorem basesLoop_spec (f : Nat → Nat) (l : List Nat) (bs : List (List Nat)) (hl : ∀ k ∈ l, f k < bs.length) :
    ∃ bs', basesLoop (l.map fun k => (k, f k)) bs = some bs' ∧ bs'.length = bs.length ∧
      ∀ i, bs'[i]? = bs[i]?.map fun b => b ++ l.filter fun k => f k = i := by
  induction l generalizing bs with
  | nil => exact ⟨bs, rfl, rfl, fun i => by simp⟩
  | cons k l ih =>
    have hk := hl k List.mem_cons_self
    obtain ⟨bs', a1, a2, a3⟩ := ih (bs.set (f k) (bs[f k] ++ [k])) (fun j hj => by rw [List.length_set]; exact hl j (List.mem_cons_of_mem _ hj))
    refine ⟨bs', ?_, by rw [a2, List.length_set], fun i => ?_⟩
    · rw [List.map_cons, basesLoop, List.getElem?_eq_getElem hk]; exact a1
    · rw [a3, List.getElem?_set]
      by_cases h : f k = i
      · subst h
        rw [if_pos rfl, if_pos hk, List.getElem?_eq_getElem hk, List.filter_cons_of_pos (by simp)]
        simp
      · rw [if_neg h, List.filter_cons_of_neg (by simpa using h)]

omit hc hsmall in
theorem num_lt {k : Nat} (hk : k ∈ hs.foreach) : num R hs k < sp.nSubspaces := by
  rw [hi.nSubspaces]
  exact List.idxOf_lt_length_of_mem ((mem_firsts _ _ _).2 (Or.inr ⟨k, hk, rfl⟩))

omit hc hsmall in
theorem subspaceBases : ∃ bs ds, sp.subspaceBases = .ok (bs, { sp with ds := ds }) ∧ HInv hs { sp with ds := ds } R ∧ bs.length = sp.nSubspaces ∧
    ∀ i < sp.nSubspaces, bs[i]? = some (hs.foreach.filter fun k => num R hs k = i) := by
  obtain ⟨d, a1, a2⟩ := hi.foreach
  obtain ⟨bs, b1, b2, b3⟩ := basesLoop_spec (num R hs) hs.foreach (List.replicate sp.nSubspaces [])
    (fun k hk => by rw [List.length_replicate]; exact hi.num_lt hk)
  refine ⟨bs, d, ?_, a2, by rw [b2, List.length_replicate], fun i h => ?_⟩
  · rw [SpacePartition.subspaceBases, a1]
    have : ({ sp with ds := d } : SpacePartition).nSubspaces = sp.nSubspaces := rfl
    simp only [this, b1]
  · rw [b3, List.getElem?_replicate, if_pos h]; simp

theorem findConnections (hM : HalfAlone M) (hpre : PredefinedSpaces hs) {e : Expr (Gen ι) S} {op : LOperator S} (h : OperatorOn (InSpace M hs) hs e op) :
    ∃ cs ds, sp.findConnections H op = .ok (cs, { sp with ds := ds }) ∧ HInv hs { sp with ds := ds } R ∧ cs.Pairwise (· < ·) ∧
      ∀ x, x ∈ cs ↔ ∃ k t, Leads hs e k t ∧ x = toLex (num R hs k, num R hs t) := by
  obtain ⟨cs, d, a1, a2, a3, a4⟩ := hi.inv.findConnections (H := H) (by rw [hi.states]; exact opActs (H := H) hc hsmall hM hpre h)
  refine ⟨cs, d, a1, hi.withDs a2, a3, fun x => ?_⟩
  rw [a4, hi.states]
  constructor
  · rintro ⟨k, _, t, h1, h2⟩
    exact ⟨k, t, (mat_ne e t k).1 h1, h2⟩
  · rintro ⟨k, t, h1, h2⟩
    exact ⟨k, (mem_states hc hsmall k).2 h1.1, t, (mat_ne e t k).2 h1, h2⟩

omit hc hsmall hi in
theorem inj {k k' : Nat} (hk : k ∈ hs.foreach) : num R hs k = num R hs k' ↔ R k = R k' :=
  List.idxOf_inj ((mem_firsts _ _ _).2 (Or.inr ⟨k, hk, rfl⟩))

theorem query (hM : HalfAlone M) (hpre : PredefinedSpaces hs) {sp' : SpacePartition} (h : Query H S (InSpace M hs) hs sp sp') : HInv hs sp' R := by
  cases h with
  | subspaceOf k i h =>
    have hk := ((hi.sub hc hsmall k i).1 ⟨_, h⟩).1
    obtain ⟨d, a1, a2⟩ := hi.inv.subspaceOf (k := k) (by rw [hi.states, mem_states hc hsmall]; exact hk)
    rw [a1] at h; cases h
    exact hi.withDs a2
  | foreach l h =>
    obtain ⟨d, a1, a2⟩ := hi.foreach
    rw [a1] at h; cases h; exact a2
  | basis i l h =>
    by_cases hlt : i < sp.nSubspaces
    · obtain ⟨d, a1, a2⟩ := hi.subspaceBasis hlt
      rw [a1] at h; cases h; exact a2
    · rw [SpacePartition.subspaceBasis, if_pos (by omega)] at h; cases h
  | bases l h =>
    obtain ⟨bs, d, a1, a2, _⟩ := hi.subspaceBases
    rw [a1] at h; cases h; exact a2
  | findConnections e op cs ho h =>
    obtain ⟨cs, d, a1, a2, _⟩ := hi.findConnections (H := H) hc hsmall hM hpre ho
    rw [a1] at h; cases h; exact a2

end HInv

include hsmall in
theorem partitionOf_inv (hM : HalfAlone M) (hpre : PredefinedSpaces hs) {sp : SpacePartition} (h : PartitionOf H S (InSpace M hs) hs sp) :
    ∃ R, HInv hs sp R := by
  induction h with
  | make e ho h =>
    obtain ⟨sp, R, _, a1, _, a2, _⟩ := make_spec (H := H) hc hsmall hM hpre ho (me := []) (by simp [OSorted])
    rw [a1] at h; cases h
    exact ⟨R, a2.inv, a2.states, a2.size⟩
  | makeMe e ho hme h =>
    obtain ⟨sp, R, _, _, a1, a2, _⟩ := make_spec (H := H) hc hsmall hM hpre ho hme
    rw [a1] at h; cases h
    exact ⟨R, a2.inv, a2.states, a2.size⟩
  | merge e1 e2 _ h1 h2 h ih =>
    obtain ⟨R, hi⟩ := ih
    obtain ⟨sp', R', me1, me2, a1, a2, a3, a4, _⟩ := hi.inv.merge (H := H) (by rw [hi.states]; exact opActs (H := H) hc hsmall hM hpre h1)
      (by rw [hi.states]; exact opActs (H := H) hc hsmall hM hpre h2) _
    rw [a1] at h; cases h
    exact ⟨R', a2, a3.trans hi.states, a4.trans hi.size⟩
  | query _ h ih =>
    obtain ⟨R, hi⟩ := ih
    exact ⟨R, hi.query hc hsmall hM hpre h⟩

/-! ### Order of the numbers -/

omit hc in
theorem firsts_prefix (R : Nat → Nat) (l acc : List Nat) : ∃ d, firsts R l acc = acc ++ d := by
  induction l generalizing acc with
  | nil => exact ⟨[], by simp [firsts]⟩
  | cons k l ih =>
    obtain ⟨d, hd⟩ := ih (if R k ∈ acc then acc else acc ++ [R k])
    have e : firsts R (k :: l) acc = firsts R l (if R k ∈ acc then acc else acc ++ [R k]) := rfl
    rw [e, hd]
    split
    · exact ⟨d, rfl⟩
    · exact ⟨R k :: d, by simp⟩

omit hc in
theorem firsts_earlier (R : Nat → Nat) (l1 l2 : List Nat) (k i : Nat) (h : i < (firsts R (l1 ++ k :: l2) []).idxOf (R k)) :
    ∃ n ∈ l1, (firsts R (l1 ++ k :: l2) []).idxOf (R n) = i := by
  obtain ⟨d, hd⟩ := firsts_prefix R l2 (firsts R (l1 ++ [k]) [])
  have e : firsts R (l1 ++ k :: l2) [] = firsts R (l1 ++ [k]) [] ++ d := by
    rw [← hd]; simp [firsts, List.foldl_append]
  have hmem : R k ∈ firsts R (l1 ++ [k]) [] := (mem_firsts _ _ _).2 (Or.inr ⟨k, by simp, rfl⟩)
  have hnd : (firsts R (l1 ++ [k]) []).Nodup := firsts_nodup _ _ List.nodup_nil
  rw [e, List.idxOf_append_of_mem hmem] at h
  have hlt : i < (firsts R (l1 ++ [k]) []).length := h.trans (List.idxOf_lt_length_of_mem hmem)
  have hget : (firsts R (l1 ++ [k]) [])[i] ∈ firsts R (l1 ++ [k]) [] := List.getElem_mem hlt
  have hidx : (firsts R (l1 ++ [k]) []).idxOf (firsts R (l1 ++ [k]) [])[i] = i := hnd.idxOf_getElem i hlt
  have hne : (firsts R (l1 ++ [k]) [])[i] ≠ R k := by
    intro h'
    rw [h'] at hidx
    omega
  obtain h' | ⟨n, hn, h'⟩ := (mem_firsts _ _ _).1 hget
  · cases h'
  rw [List.mem_append, List.mem_singleton] at hn
  rcases hn with hn | hn
  · refine ⟨n, hn, ?_⟩
    rw [e, h', List.idxOf_append_of_mem hget, hidx]
  · exact absurd (by rw [← h', hn]) hne

end SpacePartition
end LC
