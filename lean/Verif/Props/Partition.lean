import Verif.Proof.PartOps
import Verif.Props.Mapper
/-
C55-C58: space partitions. `hs.foreach` and `hs.vecSize` are what the objects use of the Hilbert space. The condition `hs.foreachAlg.isSome → hs.dim < 2 ^ 31`
is that of C27 (finding F4).
-/
set_option linter.unusedSectionVars false
namespace LC
open HilbertSpace Expr SpacePartition
variable {ι S H : Type _} [LinearOrder ι] {hs : HilbertSpace ι} [CommRing S] [DecidableEq S] [ConstScalar S] [ScalarLaws S]
  [IsDomain S] [CharZero S] [Star S] [Algebra ℝ S] [HashImpl H Nat S] {M : Nat → ι → Prop}

theorem omapFind_of_mem {K V : Type _} [LinearOrder K] {l : List (K × V)} (hl : OSorted l) {k : K} {v : V} (h : (k, v) ∈ l) :
    omapFind k l = some v := by
  induction l with
  | nil => cases h
  | cons p l ih =>
    obtain ⟨k', v'⟩ := p
    have hl' := List.pairwise_cons.1 hl
    rcases List.mem_cons.1 h with h | h
    · cases h; simp [omapFind]
    · rw [omapFind, if_pos (hl'.1 _ h)]
      exact ih hl'.2 h

theorem omapFind_iff {K V : Type _} [LinearOrder K] {l : List (K × V)} (hl : OSorted l) (k : K) (v : V) :
    omapFind k l = some v ↔ (k, v) ∈ l := ⟨omapFind_mem, omapFind_of_mem hl⟩

theorem holdsElements (hc : Constructed hs) (hsmall : hs.foreachAlg.isSome → hs.dim < 2 ^ 31) {e : Expr (Gen ι) S} {me me' : MatElems S}
    (hme : OSorted me) (h : Stored true (mat hs e) hs.foreach me me') : HoldsElements hs e me me' := by
  refine ⟨h.1, fun t k a => ?_⟩
  rw [← omapFind_iff h.1, ← omapFind_iff hme, h.2]
  by_cases hl : Leads hs e k t
  · rw [if_pos ⟨rfl, (mem_states hc hsmall k).2 hl.1, (mat_ne e t k).2 hl⟩, mat_eq hl, Option.some.injEq]
    constructor
    · rintro rfl; exact Or.inl ⟨hl, rfl⟩
    · rintro (h | h)
      · exact h.2.symm
      · exact absurd hl h.1
  · rw [if_neg (fun h => hl ((mat_ne e t k).1 h.2.2))]
    constructor
    · exact fun h => Or.inr ⟨hl, h⟩
    · rintro (h | h)
      · exact absurd h.1 hl
      · exact h.2

section
variable (hM : HalfAlone M) (hc : Constructed hs) (hpre : PredefinedSpaces hs) (hsmall : hs.foreachAlg.isSome → hs.dim < 2 ^ 31)
include hM hc hpre hsmall

/-- **C55** For every expression over the generators of a Hilbert space, the partition can be constructed, and `sp[k] == sp[k']` for two basis
states if and only if they are connected by non-zero matrix elements - also after any number of queries. -/
theorem C55_partition (e : Expr (Gen ι) S) (he : Reachable (InSpace M hs) e) :
    ∃ op, LOperator.make e hs = .ok op ∧ ∃ sp, SpacePartition.make H op hs.foreach hs.vecSize = .ok sp ∧
      ∀ sp', Relation.ReflTransGen (Query H S (InSpace M hs) hs) sp sp' → ∀ k k', ValidState hs k → ValidState hs k' →
        ∃ i i', sp'.Sub k i ∧ sp'.Sub k' i' ∧ (i = i' ↔ Joined hs e k k') := by
  obtain ⟨op, hop⟩ := make_ok hc hpre (reach_actsOn hM he)
  obtain ⟨sp, R, _, a1, _, a2, _⟩ := make_spec (H := H) hc hsmall hM hpre ⟨he, hop⟩ (me := []) (by simp [OSorted])
  refine ⟨op, hop, sp, a1, fun sp' hq k k' hk hk' => ?_⟩
  have hi : HInv hs sp' R := by
    induction hq with
    | refl => exact ⟨a2.inv, a2.states, a2.size⟩
    | tail _ h ih => exact ih.query hc hsmall hM hpre h
  refine ⟨_, _, (hi.sub hc hsmall k _).2 ⟨hk, rfl⟩, (hi.sub hc hsmall k' _).2 ⟨hk', rfl⟩, ?_⟩
  rw [HInv.inj ((mem_states hc hsmall k).2 hk)]
  exact a2.joined k (by rw [vecSize_eq hc]; exact hk.1) k' (by rw [vecSize_eq hc]; exact hk'.1)

/-- **C55** Each subspace is invariant: a non-zero matrix element never leads out of a subspace. -/
theorem C55_invariant (e : Expr (Gen ι) S) (op : LOperator S) (ho : OperatorOn (InSpace M hs) hs e op) (sp : SpacePartition)
    (h : SpacePartition.make H op hs.foreach hs.vecSize = .ok sp) (k t i : Nat) (hl : Leads hs e k t) : sp.Sub k i ↔ sp.Sub t i := by
  obtain ⟨op', hop, sp', a1, a2⟩ := C55_partition (H := H) hM hc hpre hsmall e ho.1
  rw [ho.2] at hop; cases hop
  rw [h] at a1; cases a1
  obtain ⟨j, j', b1, b2, b3⟩ := a2 sp Relation.ReflTransGen.refl k t hl.1 hl.2.1
  have := b3.2 (Relation.EqvGen.rel _ _ hl)
  subst this
  obtain ⟨s1, c1⟩ := b1
  obtain ⟨s2, c2⟩ := b2
  constructor
  · rintro ⟨s, h⟩
    rw [c1] at h; cases h; exact ⟨_, c2⟩
  · rintro ⟨s, h⟩
    rw [c2] at h; cases h; exact ⟨_, c1⟩

/-- **C55** No finer partition of the basis is invariant: whenever a labelling of the basis states is respected by all non-zero matrix
elements, states in the same subspace have the same label. -/
theorem C55_finest (e : Expr (Gen ι) S) (op : LOperator S) (ho : OperatorOn (InSpace M hs) hs e op) (sp : SpacePartition)
    (h : SpacePartition.make H op hs.foreach hs.vecSize = .ok sp) {L : Type _} (label : Nat → L)
    (hlabel : ∀ k t, Leads hs e k t → label k = label t) (k k' i : Nat) (hk : sp.Sub k i) (hk' : sp.Sub k' i) : label k = label k' := by
  obtain ⟨op', hop, sp', a1, a2⟩ := C55_partition (H := H) hM hc hpre hsmall e ho.1
  rw [ho.2] at hop; cases hop
  rw [h] at a1; cases a1
  obtain ⟨R, hi⟩ := partitionOf_inv hc hsmall hM hpre (.make e ho h)
  have v1 := ((hi.sub hc hsmall k i).1 hk).1
  have v2 := ((hi.sub hc hsmall k' i).1 hk').1
  obtain ⟨j, j', ⟨s1, c1⟩, ⟨s2, c2⟩, b3⟩ := a2 sp Relation.ReflTransGen.refl k k' v1 v2
  obtain ⟨s3, c3⟩ := hk
  obtain ⟨s4, c4⟩ := hk'
  rw [c1] at c3; cases c3
  rw [c2] at c4; cases c4
  have hj := b3.1 rfl
  clear c1 c2 b3 v1 v2
  induction hj with
  | rel x y h => exact hlabel x y h
  | refl x => rfl
  | symm x y _ ih => exact ih.symm
  | trans x y z _ _ h1 h2 => exact h1.trans h2

/-- **C55** The constructor with the argument `me` makes the same partition, and puts the non-zero matrix elements into `me`, with the index of the
final state first. -/
theorem C55_matrix_elements (e : Expr (Gen ι) S) (op : LOperator S) (ho : OperatorOn (InSpace M hs) hs e op) (me : MatElems S)
    (hme : me.Pairwise fun p q => p.1 < q.1) : ∃ sp me', SpacePartition.make H op hs.foreach hs.vecSize = .ok sp ∧
      SpacePartition.makeMe H op hs.foreach hs.vecSize me = .ok (sp, me') ∧ HoldsElements hs e me me' := by
  obtain ⟨sp, R, me', a1, a2, _, a3⟩ := make_spec (H := H) hc hsmall hM hpre ho hme
  exact ⟨sp, me', a1, a2, holdsElements hc hsmall hme a3⟩

/-- **C56** The values of `operator[]` on basis states are exactly 0, …, `n_subspaces() - 1`; for other indices below `get_vec_size(hs)` it throws. -/
theorem C56_values (sp : SpacePartition) (h : PartitionOf H S (InSpace M hs) hs sp) :
    (∀ k, ValidState hs k → ∃! i, sp.Sub k i) ∧ (∀ i, i < sp.nSubspaces ↔ ∃ k, sp.Sub k i) ∧ (∀ k i, sp.Sub k i → ValidState hs k) ∧
      ∀ k < hs.vecSize, ¬ ValidState hs k → sp.subspaceOf k = .error .outOfRange := by
  obtain ⟨R, hi⟩ := partitionOf_inv hc hsmall hM hpre h
  refine ⟨fun k hk => ⟨_, (hi.sub hc hsmall k _).2 ⟨hk, rfl⟩, fun i h => ((hi.sub hc hsmall k i).1 h).2⟩, fun i => ⟨fun hlt => ?_, ?_⟩,
    fun k i h => ((hi.sub hc hsmall k i).1 h).1, fun k hk hv => ?_⟩
  · rw [hi.nSubspaces] at hlt
    have hget := List.getElem_mem hlt
    obtain h' | ⟨k, hk, h'⟩ := (mem_firsts _ _ _).1 hget
    · cases h'
    refine ⟨k, (hi.sub hc hsmall k i).2 ⟨(mem_states hc hsmall k).1 hk, ?_⟩⟩
    rw [num, h']
    exact ((firsts_nodup _ _ List.nodup_nil).idxOf_getElem i hlt).symm
  · rintro ⟨k, h⟩
    obtain ⟨h1, rfl⟩ := (hi.sub hc hsmall k i).1 h
    exact hi.num_lt ((mem_states hc hsmall k).2 h1)
  · exact hi.inv.subspaceOf_error (by rw [hi.states, mem_states hc hsmall]; exact hv) (by rw [hi.size]; exact hk)

/-- **C56** `subspace_basis(i)` lists the states numbered `i` in increasing order, and throws if `i` is too large; `subspace_bases()` contains these
lists in order; `foreach` passes every basis state with its number, in increasing order. -/
theorem C56_bases (sp : SpacePartition) (h : PartitionOf H S (InSpace M hs) hs sp) :
    (∀ i < sp.nSubspaces, ∃ l s, sp.subspaceBasis i = .ok (l, s) ∧ l.Pairwise (· < ·) ∧ ∀ k, k ∈ l ↔ sp.Sub k i) ∧
      (∀ i, sp.nSubspaces ≤ i → sp.subspaceBasis i = .error .wrongSubspace) ∧
      (∃ ls s, sp.subspaceBases = .ok (ls, s) ∧ ls.length = sp.nSubspaces ∧
        ∀ i l, ls[i]? = some l ↔ ∃ s, sp.subspaceBasis i = .ok (l, s)) ∧
      ∃ l s, sp.foreach = .ok (l, s) ∧ l.map Prod.fst = hs.foreach ∧ ∀ k i, (k, i) ∈ l ↔ sp.Sub k i := by
  obtain ⟨R, hi⟩ := partitionOf_inv hc hsmall hM hpre h
  have hsort : hs.foreach.Pairwise (· < ·) := by
    rw [(C27_foreach hs hc hsmall).1]
    exact List.Pairwise.filter _ List.pairwise_lt_range
  have wrong : ∀ i, sp.nSubspaces ≤ i → sp.subspaceBasis i = .error .wrongSubspace := fun i h => by
    rw [SpacePartition.subspaceBasis, if_pos h]
  refine ⟨fun i hlt => ?_, wrong, ?_, ?_⟩
  · obtain ⟨d, a1, _⟩ := hi.subspaceBasis hlt
    refine ⟨_, _, a1, List.Pairwise.filter _ hsort, fun k => ?_⟩
    rw [List.mem_filter, decide_eq_true_eq, mem_states hc hsmall, hi.sub hc hsmall, eq_comm]
  · obtain ⟨bs, d, a1, _, a2, a3⟩ := hi.subspaceBases
    refine ⟨bs, _, a1, a2, fun i l => ?_⟩
    by_cases hlt : i < sp.nSubspaces
    · obtain ⟨d, b1, _⟩ := hi.subspaceBasis hlt
      rw [a3 i hlt, b1]
      constructor
      · intro h; cases h; exact ⟨_, rfl⟩
      · rintro ⟨s, h⟩; cases h; rfl
    · rw [wrong i (by omega), List.getElem?_eq_none (by omega)]
      simp
  · obtain ⟨d, a1, _⟩ := hi.foreach
    refine ⟨_, _, a1, by simp [Function.comp_def], fun k i => ?_⟩
    rw [hi.sub hc hsmall, List.mem_map]
    constructor
    · rintro ⟨k', h1, h2⟩
      cases h2
      exact ⟨(mem_states hc hsmall _).1 h1, rfl⟩
    · rintro ⟨h1, rfl⟩
      exact ⟨k, (mem_states hc hsmall k).2 h1, rfl⟩

/-- **C56** Subspaces are numbered in the order of their smallest states: before every state of a subspace there is a state of each subspace with
a smaller number. -/
theorem C56_order (sp : SpacePartition) (h : PartitionOf H S (InSpace M hs) hs sp) (i j k : Nat) (hij : i < j) (hk : sp.Sub k j) :
    ∃ k' < k, sp.Sub k' i := by
  obtain ⟨R, hi⟩ := partitionOf_inv hc hsmall hM hpre h
  obtain ⟨hv, rfl⟩ := (hi.sub hc hsmall k j).1 hk
  have hsort : hs.foreach.Pairwise (· < ·) := by
    rw [(C27_foreach hs hc hsmall).1]
    exact List.Pairwise.filter _ List.pairwise_lt_range
  obtain ⟨l1, l2, hl⟩ := List.append_of_mem ((mem_states hc hsmall k).2 hv)
  unfold num at hij
  rw [hl] at hij hsort
  obtain ⟨n, hn, h2⟩ := firsts_earlier R l1 l2 k i hij
  refine ⟨n, (List.pairwise_append.1 hsort).2.2 n hn k List.mem_cons_self, (hi.sub hc hsmall n i).2 ⟨?_, ?_⟩⟩
  · rw [← mem_states hc hsmall, hl]; exact List.mem_append_left _ hn
  · rw [num, hl, h2]

/-- **C56** Queries do not change the answers of later queries. -/
theorem C56_queries (sp sp' : SpacePartition) (h : PartitionOf H S (InSpace M hs) hs sp) (hq : Query H S (InSpace M hs) hs sp sp') :
    sp'.nSubspaces = sp.nSubspaces ∧ ∀ k i, sp'.Sub k i ↔ sp.Sub k i := by
  obtain ⟨R, hi⟩ := partitionOf_inv hc hsmall hM hpre h
  have hi' := hi.query hc hsmall hM hpre hq
  exact ⟨by rw [hi.nSubspaces, hi'.nSubspaces], fun k i => by rw [hi.sub hc hsmall, hi'.sub hc hsmall]⟩

/-- **C58** `find_connections(op)` returns exactly the pairs `(i, j)` such that the operator has a non-zero matrix element from a state of subspace
`i` to a state of subspace `j`, each once. -/
theorem C58_find_connections (sp : SpacePartition) (h : PartitionOf H S (InSpace M hs) hs sp) (e : Expr (Gen ι) S) (op : LOperator S)
    (ho : OperatorOn (InSpace M hs) hs e op) : ∃ cs s, sp.findConnections H op = .ok (cs, s) ∧ cs.Pairwise (· < ·) ∧
      ∀ i j, toLex (i, j) ∈ cs ↔ ∃ k t, sp.Sub k i ∧ sp.Sub t j ∧ opEl hs e t k ≠ 0 := by
  obtain ⟨R, hi⟩ := partitionOf_inv hc hsmall hM hpre h
  obtain ⟨cs, d, a1, _, a2, a3⟩ := hi.findConnections (H := H) hc hsmall hM hpre ho
  refine ⟨cs, _, a1, a2, fun i j => ?_⟩
  rw [a3]
  simp only [hi.sub hc hsmall]
  constructor
  · rintro ⟨k, t, hl, h⟩
    have := toLex.injective h
    simp only [Prod.mk.injEq] at this
    exact ⟨k, t, ⟨hl.1, this.1⟩, ⟨hl.2.1, this.2⟩, hl.2.2⟩
  · rintro ⟨k, t, ⟨h1, rfl⟩, ⟨h2, rfl⟩, h3⟩
    exact ⟨k, t, ⟨h1, h2, h3⟩, rfl⟩

/-- **C57** (partial) `merge_subspaces(Cd, C)` terminates without an error for every partition and every pair of operators, and

* the resulting partition is coarser than the one before;
* each of `Cd` and `C` connects every *original* subspace to at most one of the new subspaces;
* the merging is not excessive: every partition that is coarser than the original one and for which `Cd` and `C` connect every subspace to at most one
  subspace, is also coarser than the result;
* if nothing had to be merged, then `Cd` and `C` connect every subspace of the result to at most one subspace;
* the returned maps are the non-zero matrix elements (if they are requested, otherwise empty).

Missing, because it is not true (finding F6, `C57_F6_not_one_to_one` in Props/PartitionF6.lean): `Cd` and `C` connect every *new* subspace to at most one new subspace. -/
theorem C57_merge_partial (sp : SpacePartition) (h : PartitionOf H S (InSpace M hs) hs sp) (eCd eC : Expr (Gen ι) S) (Cd C : LOperator S)
    (hCd : OperatorOn (InSpace M hs) hs eCd Cd) (hC : OperatorOn (InSpace M hs) hs eC C) (store : Bool) :
    ∃ sp' me1 me2, sp.mergeSubspaces H Cd C store = .ok (sp', me1, me2) ∧
      (∀ k k' i, sp.Sub k i → sp.Sub k' i → ∃ j, sp'.Sub k j ∧ sp'.Sub k' j) ∧
      (∀ e ∈ [eCd, eC], ∀ k k' t t' i j j', sp.Sub k i → sp.Sub k' i → Leads hs e k t → Leads hs e k' t' → sp'.Sub t j → sp'.Sub t' j' → j = j') ∧
      (∀ (L : Type) (label : Nat → L), (∀ k k' i, sp.Sub k i → sp.Sub k' i → label k = label k') →
        (∀ e ∈ [eCd, eC], ∀ k k' t t', label k = label k' → Leads hs e k t → Leads hs e k' t' → label t = label t') →
        ∀ k k' j, sp'.Sub k j → sp'.Sub k' j → label k = label k') ∧
      ((∀ k k' j, sp'.Sub k j → sp'.Sub k' j → ∃ i, sp.Sub k i ∧ sp.Sub k' i) →
        ∀ e ∈ [eCd, eC], ∀ k k' t t' i j j', sp'.Sub k i → sp'.Sub k' i → Leads hs e k t → Leads hs e k' t' → sp'.Sub t j → sp'.Sub t' j' → j = j') ∧
      (store = true → HoldsElements hs eCd [] me1 ∧ HoldsElements hs eC [] me2) ∧ (store = false → me1 = [] ∧ me2 = []) := by
  obtain ⟨R, hi⟩ := partitionOf_inv hc hsmall hM hpre h
  obtain ⟨sp', R', me1, me2, a1, a2, a3, a4, a5, a6, a7, a8, a9, a10⟩ := hi.inv.merge (H := H) (by rw [hi.states]; exact opActs (H := H) hc hsmall hM hpre hCd)
      (by rw [hi.states]; exact opActs (H := H) hc hsmall hM hpre hC) store
  have hi' : HInv hs sp' R' := ⟨a2, a3.trans hi.states, a4.trans hi.size⟩
  have hmem := mem_states hc hsmall
  have sub := hi.sub hc hsmall
  have sub' := hi'.sub hc hsmall
  have hlt : ∀ k, ValidState hs k → k < sp.vecSize := fun k hk => by rw [hi.size, vecSize_eq hc]; exact hk.1
  simp only [hi.states, hmem, mat_ne] at a6 a7 a8
  have same : ∀ k k', ValidState hs k → (num R hs k = num R hs k' ↔ R k = R k') := fun k k' hk => HInv.inj ((hmem k).2 hk)
  have same' : ∀ k k', ValidState hs k → (num R' hs k = num R' hs k' ↔ R' k = R' k') := fun k k' hk => HInv.inj ((hmem k).2 hk)
  have fwd : ∀ e ∈ [eCd, eC], ∀ k k' t t', ValidState hs k → ValidState hs k' → R k = R k' → Leads hs e k t → Leads hs e k' t' → R' t = R' t' := by
    intro e he k k' t t' hk hk' hR h1 h2
    simp only [List.mem_cons, List.not_mem_nil, or_false] at he
    rcases he with rfl | rfl
    · exact a6 k hk k' hk' hR t t' h1 h2
    · exact a7 k hk k' hk' hR t t' h1 h2
  have one : ∀ e ∈ [eCd, eC], ∀ k k' t t' i j j', sp.Sub k i → sp.Sub k' i → Leads hs e k t → Leads hs e k' t' → sp'.Sub t j → sp'.Sub t' j' → j = j' := by
    intro e he k k' t t' i j j' h1 h2 l1 l2 h3 h4
    obtain ⟨v1, e1⟩ := (sub _ _).1 h1
    obtain ⟨v2, e2⟩ := (sub _ _).1 h2
    obtain ⟨v3, rfl⟩ := (sub' _ _).1 h3
    obtain ⟨v4, rfl⟩ := (sub' _ _).1 h4
    rw [same' _ _ v3]
    exact fwd e he k k' t t' v1 v2 ((same _ _ v1).1 (e1.symm.trans e2)) l1 l2
  refine ⟨sp', me1, me2, a1, ?_, one, ?_, ?_, ?_, ?_⟩
  · intro k k' i h1 h2
    obtain ⟨v1, rfl⟩ := (sub _ _).1 h1
    obtain ⟨v2, e2⟩ := (sub _ _).1 h2
    refine ⟨_, (sub' _ _).2 ⟨v1, rfl⟩, (sub' _ _).2 ⟨v2, ?_⟩⟩
    rw [same' _ _ v1]
    exact a5 k (hlt k v1) k' (hlt k' v2) ((same _ _ v1).1 e2)
  · intro L label h1 h2 k k' j h3 h4
    obtain ⟨v1, rfl⟩ := (sub' _ _).1 h3
    obtain ⟨v2, e2⟩ := (sub' _ _).1 h4
    refine a8 (fun x y => label x = label y) ⟨fun _ => rfl, fun h => h.symm, fun h h' => h.trans h'⟩ ?_ ?_ ?_ k v1 k' v2 ((same' _ _ v1).1 e2)
    · intro x hx y hy hR
      exact h1 x y _ ((sub _ _).2 ⟨hx, rfl⟩) ((sub _ _).2 ⟨hy, (same _ _ hx).2 hR⟩)
    · intro x _ y _ hxy t t' l1 l2
      exact h2 eCd (by simp) x y t t' hxy l1 l2
    · intro x _ y _ hxy t t' l1 l2
      exact h2 eC (by simp) x y t t' hxy l1 l2
  · intro hsame e he k k' t t' i j j' h1 h2 l1 l2 h3 h4
    obtain ⟨i', g1, g2⟩ := hsame k k' i h1 h2
    exact one e he k k' t t' i' j j' g1 g2 l1 l2 h3 h4
  · rintro rfl
    rw [hi.states] at a9 a10
    exact ⟨holdsElements hc hsmall (by simp [OSorted]) a9, holdsElements hc hsmall (by simp [OSorted]) a10⟩
  · rintro rfl
    have key : ∀ (m : Nat → Nat → S) (me : MatElems S), Stored false m sp.states [] me → me = [] := by
      intro m me h
      cases me with
      | nil => rfl
      | cons p l =>
        have := h.2 (ofLex p.1).1 (ofLex p.1).2
        rw [if_neg (by simp)] at this
        have h2 : omapFind p.1 (p :: l) = some p.2 := omapFind_of_mem h.1 List.mem_cons_self
        rw [show toLex ((ofLex p.1).1, (ofLex p.1).2) = p.1 from rfl, h2] at this
        cases this
    exact ⟨key _ _ a9, key _ _ a10⟩

end

/-! ### The hypotheses are met -/

theorem valid_zero (hc : Constructed hs) : ValidState hs 0 := by
  refine ⟨Nat.two_pow_pos _, fun p hp => ?_⟩
  obtain ⟨l, hf, rfl⟩ := hc.canon
  rw [HilbertSpace.canon_spaces] at hp
  have : p.1 ∈ l := by
    have := List.mem_map_of_mem (f := Prod.fst) hp
    rw [HilbertSpace.layout_fst] at this
    exact this
  simpa using (hf.wf _ this).dim_pos

open Factory BasisMapper in
theorem leads_create (hM : HalfAlone M) (hc : Constructed hs) (hpre : PredefinedSpaces hs)
    (hnb : ∀ es ∈ hs.elementarySpaces, es.algebraId ≠ -2) (i : ι) (hi : hs.has (ESpace.fermion i) = true) :
    ∃ t, Leads hs (cDag i : Expr (Gen ι) S) 0 t := by
  have hc0 : Reachable (InSpace M hs) (c i : Expr (Gen ι) S) := by
    refine .ofMonomial _ _ ?_
    simp only [List.mem_singleton, forall_eq]
    exact ⟨trivial, hi⟩
  have hd0 : Reachable (InSpace M hs) (cDag i : Expr (Gen ι) S) := by
    refine .ofMonomial _ _ ?_
    simp only [List.mem_singleton, forall_eq]
    exact ⟨trivial, hi⟩
  have hv : ValidState hs 0 := valid_zero hc
  by_contra hn
  push Not at hn
  have h0 : opApply hs (cDag i : Expr (Gen ι) S) (vacAmp : Nat → S) = fun _ => 0 := by
    funext t
    rw [show (vacAmp : Nat → S) = fun n => if n = 0 then 1 else 0 from rfl, opApply_single hc _ hv]
    by_contra h
    exact hn t ((mat_ne _ _ _).1 h)
  have h1 := opApply_add (hs := hs) (c i * cDag i : Expr (Gen ι) S) (cDag i * c i) (vacAmp : Nat → S) 0
  have h2 := (C13_car (S := S) i i).1
  rw [eqOp_iff] at h2
  rw [h2, if_pos rfl, opApply_mul hM hc hpre hnb hd0 hc0, annihilate_vac, opApply_mul hM hc hpre hnb hc0 hd0, h0, opApply_zero, opApply_zero,
    opApply_unit _ hv hv vacAmp fun j => rfl, opEl, show (const (1 : S) : Expr (Gen ι) S).terms = [([], 1)] by
      rw [const, if_neg one_ne_zero]] at h1
  have : matEl hs ([] : List (Gen ι)) 0 0 = 1 := by
    unfold matEl
    exact if_pos ⟨rfl, fun _ _ => rfl⟩
  simp [this] at h1

open Factory BasisMapper in
/-- A creation operator does not change the occupation numbers of the other modes. -/
theorem leads_other {i : ι} {k t : Nat} (h : Leads hs (cDag i : Expr (Gen ι) S) k t) (x : Mode ι) (hx : x ≠ .fermion i) :
    conf hs t x = conf hs k x := by
  have hterms : (cDag i : Expr (Gen ι) S).terms = [([Gen.fermion true i], 1)] := ofMonomial_single_terms _
  have h3 := h.2.2
  rw [opEl, hterms] at h3
  have hm : matEl hs [Gen.fermion true i] t k ≠ 0 := by
    intro h0; apply h3; simp [h0]
  unfold matEl at hm
  simp only [monAct, Option.bind_some, genAct] at hm
  split at hm
  · exact absurd rfl hm
  · next n y hn =>
    split at hn
    · simp only [Option.map_some, Option.some.injEq, Prod.mk.injEq] at hn
      split at hm
      · next he => rw [he.1, ← hn.1, Function.update_of_ne hx]
      · exact absurd rfl hm
    · cases hn

open Factory in
open scoped Classical in
/-- For two fermionic modes, complex coefficients and the operator `c†_0`: all hypotheses of C55 - C58 are met, there is a basis state connected to the
vacuum, and a basis state that is not connected to it. -/
theorem c55_hypotheses : ∃ hs : HilbertSpace Nat, HalfAlone (fun n (_ : Nat) => n = 2) ∧ Constructed hs ∧ PredefinedSpaces hs ∧
    (hs.foreachAlg.isSome → hs.dim < 2 ^ 31) ∧ hs.foreach = [0, 1, 2, 3] ∧
    ∃ op, OperatorOn (InSpace (fun n _ => n = 2) hs) hs (cDag 0 : Expr (Gen Nat) ℂ) op ∧
      (∃ t ≠ 0, Joined hs (cDag 0 : Expr (Gen Nat) ℂ) 0 t) ∧ ¬ Joined hs (cDag 0 : Expr (Gen Nat) ℂ) 0 2 := by
  obtain ⟨hs, hof, h1, h2, h3⟩ := smallSpace (l := [ESpace.fermion 0, ESpace.fermion 1])
    (by simp only [List.mem_cons, List.not_mem_nil, or_false, forall_eq_or_imp, forall_eq]; exact ⟨wf_fermion _, wf_fermion _⟩)
    (by simp only [List.mem_cons, List.not_mem_nil, or_false, forall_eq_or_imp, forall_eq]
        exact ⟨⟨fun _ => ⟨_, rfl⟩, by simp [ESpace.fermion], by simp [ESpace.fermion]⟩,
          ⟨fun _ => ⟨_, rfl⟩, by simp [ESpace.fermion], by simp [ESpace.fermion]⟩⟩)
    (by decide +kernel)
  have facts : ((HilbertSpace.ofArgs [ESpace.fermion 0, ESpace.fermion 1]).toOption.map fun hs : HilbertSpace Nat =>
    (decide (hs.foreach = [0, 1, 2, 3]) && decide (hs.dim = 4) && hs.has (ESpace.fermion 0) && decide (conf hs 0 (.fermion 0) = 0) &&
      decide (conf hs 0 (.fermion 1) = 0) && decide (conf hs 2 (.fermion 1) = 1))) = some true := by decide +kernel
  rw [hof] at facts
  simp only [Except.toOption, Option.map_some, Option.some.injEq, Bool.and_eq_true, decide_eq_true_eq] at facts
  obtain ⟨⟨⟨⟨⟨f1, f2⟩, f3⟩, f4⟩, f5⟩, f6⟩ := facts
  have hM : HalfAlone (fun n (_ : Nat) => n = 2) := fun i n _ h => h
  have he : Reachable (InSpace (fun n _ => n = 2) hs) (cDag 0 : Expr (Gen Nat) ℂ) := by
    refine .ofMonomial _ _ ?_
    simp only [List.mem_singleton, forall_eq]
    exact ⟨trivial, f3⟩
  have hnb : ∀ es ∈ hs.elementarySpaces, es.algebraId ≠ -2 := by
    rw [h3]
    simp only [List.mem_cons, List.not_mem_nil, or_false, forall_eq_or_imp, forall_eq]
    exact ⟨by simp [ESpace.fermion], by simp [ESpace.fermion]⟩
  obtain ⟨op, hop⟩ := make_ok h1 h2 (reach_actsOn hM he)
  refine ⟨hs, hM, h1, h2, fun _ => by rw [f2]; norm_num, f1, op, ⟨he, hop⟩, ?_, ?_⟩
  · obtain ⟨t, ht⟩ := leads_create (S := ℂ) hM h1 h2 hnb 0 f3
    refine ⟨t, ?_, Relation.EqvGen.rel _ _ ht⟩
    rintro rfl
    have hterms : (cDag 0 : Expr (Gen Nat) ℂ).terms = [([Gen.fermion true 0], 1)] := ofMonomial_single_terms _
    apply ht.2.2
    rw [opEl, hterms]
    have hm : matEl hs [Gen.fermion true 0] 0 0 = 0 := by
      unfold matEl
      simp only [monAct, Option.bind_some, genAct, f4, if_true, Option.map_some]
      rw [if_neg]
      intro h
      have := congrFun h.1 (.fermion 0)
      rw [f4, Function.update_self] at this
      cases this
    simp [hm]
  · intro h
    have key : ∀ x y, Joined hs (cDag 0 : Expr (Gen Nat) ℂ) x y → conf hs x (.fermion 1) = conf hs y (.fermion 1) := by
      intro x y h
      induction h with
      | rel x y h => exact (leads_other h _ (by simp)).symm
      | refl x => rfl
      | symm x y _ ih => exact ih.symm
      | trans x y z _ _ h1 h2 => exact h1.trans h2
    have := key _ _ h
    rw [f5, f6] at this
    cases this

end LC
