import Verif.Spec.FaultsSpace
import Verif.Proof.FaultsSpace
import Verif.Proof.SpaceHistory
import Verif.Props.HilbertSpace
import Verif.Props.Partition
/-
C94, C95: Hilbert spaces and space partitions after exceptions.
-/
set_option linter.unusedSectionVars false
namespace LC
open Flt HilbertSpace

theorem call_of_tri {σ α : Type _} {o : Nat → Bool} {p : Flt σ α} {s : σ} {Q : α → σ → Prop} {X : σ → Prop} (h : Tri o p s Q X) :
    match call p o s with
    | .returned a t => Q a t
    | .threw t => X t := by
  unfold call
  rcases h 0 with ⟨a, n', s', e, hq⟩ | ⟨n', s', e, hx⟩
  · rw [e]; exact hq
  · rw [e]; exact hx

section
variable {ι : Type} [LinearOrder ι]

theorem idxOf_fst {l : List (ESpace ι × BitRange)} (hnd : (l.map (·.1)).Nodup) {k : ESpace ι × BitRange} (hk : k ∈ l) :
    l.idxOf k = (l.map (·.1)).idxOf k.1 := by
  induction l with
  | nil => cases hk
  | cons q l ih =>
    rw [List.map_cons, List.nodup_cons] at hnd
    by_cases h : q = k
    · subst h; simp
    · have hk' : k ∈ l := by
        rcases List.mem_cons.1 hk with h' | h'
        · exact absurd h'.symm h
        · exact h'
      have hne : q.1 ≠ k.1 := fun e => hnd.1 (by rw [e]; exact List.mem_map_of_mem hk')
      rw [List.map_cons, List.idxOf_cons_ne _ h, List.idxOf_cons_ne _ hne, ih hnd.2 hk']

theorem findSpace_fst (es : ESpace ι) (l m : List (ESpace ι × BitRange)) (h : l.map (·.1) = m.map (·.1)) :
    (findSpace es l).map (·.1) = (findSpace es m).map (·.1) := by
  induction l generalizing m with
  | nil =>
    cases m with
    | nil => rfl
    | cons q m => cases h
  | cons p l ih =>
    cases m with
    | nil => cases h
    | cons q m =>
      rw [List.map_cons, List.map_cons, List.cons.injEq] at h
      obtain ⟨k, r⟩ := p
      obtain ⟨k', r'⟩ := q
      simp only at h
      obtain ⟨rfl, h⟩ := h
      simp only [findSpace]
      split
      · exact ih m h
      · split <;> rfl

theorem sameFactors_of {a b : HilbertSpace ι} (h : a.elementarySpaces = b.elementarySpaces) (hs : SortedES a.elementarySpaces) :
    SameFactors a b := by
  have hf := fun es => findSpace_fst es a.spaces b.spaces h
  have hnd : (a.spaces.map (·.1)).Nodup := List.Nodup.of_map _ hs.nodup
  have hlen : a.spaces.length = b.spaces.length := by
    have := congrArg List.length h
    simpa [HilbertSpace.elementarySpaces] using this
  refine ⟨h, hlen, fun es => ?_, fun es => ?_, fun es => ?_⟩
  · have := congrArg Option.isSome (hf es)
    simpa [HilbertSpace.has] using this
  · have := hf es
    unfold HilbertSpace.index
    cases h1 : findSpace es a.spaces with
    | none =>
      cases h2 : findSpace es b.spaces with
      | none => rfl
      | some q => rw [h1, h2] at this; cases this
    | some p =>
      cases h2 : findSpace es b.spaces with
      | none => rw [h1, h2] at this; cases this
      | some q =>
        rw [h1, h2, Option.map_some, Option.map_some, Option.some.injEq] at this
        simp only
        rw [idxOf_fst hnd (findSpace_some h1).1, idxOf_fst (by rw [← show a.spaces.map (·.1) = b.spaces.map (·.1) from h]; exact hnd) (findSpace_some h2).1, this]
        rw [show a.spaces.map (·.1) = b.spaces.map (·.1) from h]
  · have := hf es
    unfold HilbertSpace.dimOf
    cases h1 : findSpace es a.spaces with
    | none =>
      cases h2 : findSpace es b.spaces with
      | none => rfl
      | some q => rw [h1, h2] at this; cases this
    | some p =>
      cases h2 : findSpace es b.spaces with
      | none => rw [h1, h2] at this; cases this
      | some q =>
        rw [h1, h2, Option.map_some, Option.map_some, Option.some.injEq] at this
        simp only [this]

/-- **C94** (partial: see F41) `hs.add(es)`, interrupted by an exception at any point. If it returns normally, the space is added. Otherwise
either the object is unchanged - always if `es` is present already - or `es` is now one of its elementary spaces, and the object answers
all questions about its elementary spaces (`has`, `index`, `dim(es)`, `size`, `foreach_elementary_space`) like the complete product.
Missing: the other answers (`dim`, `foreach`, bit ranges) need not fit the elementary spaces. -/
theorem C94_add_partial (hs : HilbertSpace ι) (hc : Constructed hs) (es : ESpace ι) (o : Nat → Bool) :
    match call (Faults.addSpace es) o hs with
    | .returned _ t => hs.add es = (t, none)
    | .threw t =>
      (t = hs ∧ ((∃ n, o n = true) ∨ hs.add es = (hs, some .exists_))) ∨
      (hs.has es = false ∧ t.elementarySpaces.Perm (es :: hs.elementarySpaces) ∧ SameFactors t (hs.add es).1 ∧
        ((∃ n, o n = true) ∨ ∃ n, hs.add es = (t, some (.tooBig n)))) := by
  obtain ⟨l, hfit, rfl⟩ := hc.canon
  have hsort : SortedES ((canon l).spaces.map (·.1)) := by rw [canon_spaces, layout_fst]; exact hfit.sorted
  have h := call_of_tri (Faults.addSpace_tri (o := o) es (canon l))
  revert h
  cases call (Faults.addSpace es) o (canon l) with
  | returned a t => exact id
  | threw t =>
    rintro (h | ⟨sp, h1, h2, h3, h4, h5⟩)
    · exact Or.inl h
    · right
      obtain ⟨g1, g2, g3⟩ := emplaceSpace_some hsort h1
      have hk : ((canon l).add es).1.elementarySpaces = sp.map (·.1) := by
        have e1 := recompute_eq { (canon l) with spaces := sp }
        unfold HilbertSpace.add
        rw [h1]
        simp only [e1]
        split
        · next h' => rw [Prod.mk.injEq] at h'; rw [← h'.1]; exact layout_fst 0 _
        · next h' => rw [Prod.mk.injEq] at h'; rw [← h'.1]; exact layout_fst 0 _
      refine ⟨?_, by rw [h2]; exact g2, sameFactors_of (h2.trans hk.symm) (by rw [h2]; exact g1), h5⟩
      rw [HilbertSpace.has]
      cases hf : findSpace es (canon l).spaces with
      | none => rfl
      | some k =>
        obtain ⟨e1, e2⟩ := findSpace_some hf
        exact absurd e2 (g3 k.1 (List.mem_map_of_mem e1))

/-- **C94** An exception thrown by the very first operation of `add()` - cloning `es` and allocating its node - leaves the object
unchanged. -/
theorem C94_add_first (hs : HilbertSpace ι) (es : ESpace ι) (o : Nat → Bool) (h : o 0 = true) :
    call (Faults.addSpace es) o hs = .threw hs := by
  unfold call Faults.addSpace
  rw [bind_none (n' := 1) (s' := hs) (by unfold point; rw [h]; rfl)]

/-- **C94** An interrupted assignment `a = b` leaves in `a` the first few of the elementary spaces of `b`, with their bit ranges. -/
theorem C94_assign_partial (a b : HilbertSpace ι) (o : Nat → Bool) :
    match call (Faults.assignSpace b) o a with
    | .returned _ t => SameAnswers t b false
    | .threw t => (∃ k ≤ b.size, t.spaces = b.spaces.take k) ∧ ∃ n, o n = true := by
  have h := call_of_tri (Faults.assignSpace_tri (o := o) b a)
  revert h
  cases call (Faults.assignSpace b) o a with
  | returned u t =>
    rintro rfl
    exact ⟨rfl, rfl, rfl, rfl, rfl, rfl, rfl, fun _ => rfl, fun _ => rfl, fun _ => rfl, fun _ => rfl, fun _ _ => rfl,
      fun _ => rfl, fun _ => rfl, fun h => Bool.noConfusion h, fun h => Bool.noConfusion h⟩
  | threw t =>
    rintro ⟨h1, -, -, -, -, h2⟩
    exact ⟨h1, h2⟩

/-- **C94** Whatever an object of type `hilbert_space` has become by exceptions, assigning another one to it without an exception makes it
answer all questions like the other one, except those about algebras (finding F1). -/
theorem C94_recovery (a b : HilbertSpace ι) (o : Nat → Bool) (ho : ∀ n, o n = false) :
    ∃ t, call (Faults.assignSpace b) o a = .returned () t ∧ SameAnswers t b false := by
  have h := C94_assign_partial a b o
  revert h
  cases call (Faults.assignSpace b) o a with
  | returned u t => exact fun h => ⟨t, rfl, h⟩
  | threw t =>
    rintro ⟨-, n, hn⟩
    rw [ho n] at hn; cases hn

end

/-- **C94, F41** To a spin 1 (three states), a bosonic mode with three states is added, and the last allocation in `add()` fails: the exception is
caught, and the object has both elementary spaces and the right dimension, but `foreach` visits states that do not exist instead of those that
do. If an earlier operation fails, the dimension remains that of the old space, even after another space has been added successfully. -/
theorem C94_F41_interrupted_add : ∃ hs t t' t'' : HilbertSpace Nat, Constructed hs ∧
    call (Faults.addSpace (ESpace.boson 3 0)) (fun n => n == 6) hs = .threw t ∧
    t.size = 2 ∧ t.dim = 9 ∧ t.foreach = [0, 1, 2, 3, 4, 5, 6, 7, 8] ∧ (hs.add (ESpace.boson 3 0)).1.foreach = [0, 1, 2, 4, 5, 6, 8, 9, 10] ∧
    call (Faults.addSpace (ESpace.boson 3 0)) (fun n => n == 4) hs = .threw t' ∧ t'.size = 2 ∧ t'.dim = 3 ∧
    t'.add (ESpace.fermion 0) = (t'', none) ∧ t''.size = 3 ∧ t''.dim = 6 := by
  obtain ⟨hs, hof⟩ : ∃ hs : HilbertSpace Nat, HilbertSpace.ofArgs [ESpace.spin 3 0] = .ok hs := ⟨_, rfl⟩
  have hc : Constructed hs := .ofArgs (by simp only [List.mem_singleton, forall_eq]; exact wf_spin 3 (by decide) 0) hof
  cases hof
  exact ⟨_, _, _, _, hc, rfl, by decide +kernel, by decide +kernel, by decide +kernel, by decide +kernel, rfl, by decide +kernel, by decide +kernel,
    rfl, by decide +kernel, by decide +kernel⟩

/-! ### Space partitions -/
section
open SpacePartition
variable {ι S H : Type} [LinearOrder ι] {hs : HilbertSpace ι} [CommRing S] [DecidableEq S] [ConstScalar S] [ScalarLaws S]
  [IsDomain S] [CharZero S] [Star S] [Algebra ℝ S] [HashImpl H Nat S] {M : Nat → ι → Prop}
  (hc : Constructed hs) (hsmall : hs.foreachAlg.isSome → hs.dim < 2 ^ 31) (hM : HalfAlone M) (hpre : PredefinedSpaces hs)
include hc hsmall hM hpre

/-- **C95** (partial: see F42) `sp.merge_subspaces(Cd, C, store)`, interrupted by an exception: when the operators are applied to the basis states, when
the results are stored, or when they are returned. The object then is either unchanged or the completely merged partition. Missing: exceptions
thrown by insertions into the member `root_to_subspace`. -/
theorem C95_merge_partial (sp : SpacePartition) (h : PartitionOf H S (InSpace M hs) hs sp) (eCd eC : Expr (Gen ι) S) (Cd C : LOperator S)
    (hCd : OperatorOn (InSpace M hs) hs eCd Cd) (hC : OperatorOn (InSpace M hs) hs eC C) (store : Bool) (o : Nat → Bool) :
    ∃ sp' e1 e2, sp.mergeSubspaces H Cd C store = .ok (sp', e1, e2) ∧
      match call (Faults.mergeSubspaces H (fun _ => false) Cd C store) o sp with
      | .returned r t => t = sp' ∧ r = (e1, e2)
      | .threw t => (t = sp ∨ t = sp') ∧ ∃ n, o n = true := by
  obtain ⟨R, hi⟩ := partitionOf_inv hc hsmall hM hpre h
  have hf := partitionOf_flat hc hsmall hM hpre h
  have o1 : OpActs H Cd sp.states (mat hs eCd) := by rw [hi.states]; exact opActs (H := H) hc hsmall hM hpre hCd
  have o2 : OpActs H C sp.states (mat hs eC) := by rw [hi.states]; exact opActs (H := H) hc hsmall hM hpre hC
  obtain ⟨sp', R', e1, e2, a1, -⟩ := hi.inv.merge (H := H) o1 o2 store
  refine ⟨sp', e1, e2, a1, ?_⟩
  have := call_of_tri (Faults.mergeSubspaces_tri (o := o) hf o1 o2 (node := fun _ => false) (fun _ => rfl) store a1)
  revert this
  cases call (Faults.mergeSubspaces H (fun _ => false) Cd C store) o sp with
  | returned r t => exact id
  | threw t => exact id

/-- **C95** `find_connections(op)`, `foreach(sp, f)` (also `subspace_basis()` and `subspace_bases()`) and `sp[k]`, interrupted by an exception at any point - of the
operator, of the functor, of an allocation -, leave the object unchanged. -/
theorem C95_queries (sp : SpacePartition) (h : PartitionOf H S (InSpace M hs) hs sp) (o : Nat → Bool) :
    (∀ e op, OperatorOn (InSpace M hs) hs (e : Expr (Gen ι) S) op →
      match call (Faults.findConnections H op) o sp with
      | .returned r t => sp.findConnections H op = .ok (r, t) ∧ t = sp
      | .threw t => t = sp ∧ ∃ n, o n = true) ∧
    (match call Faults.foreach o sp with
      | .returned r t => sp.foreach = .ok (r, t) ∧ t = sp
      | .threw t => t = sp ∧ ∃ n, o n = true) ∧
    ∀ k, ValidState hs k → ∃ i, sp.subspaceOf k = .ok (i, sp) ∧ call (Faults.subspaceOf k) o sp = .returned i sp := by
  obtain ⟨R, hi⟩ := partitionOf_inv hc hsmall hM hpre h
  have hf := partitionOf_flat hc hsmall hM hpre h
  refine ⟨fun e op ho => ?_, ?_, fun k hk => ?_⟩
  · obtain ⟨cs, s, a1, -⟩ := C58_find_connections (H := H) hM hc hpre hsmall sp h e op ho
    have hs' := query_pure (H := H) (S := S) hc hsmall hM hpre hi hf (.findConnections e op cs ho a1)
    subst hs'
    have := call_of_tri (Faults.findConnections_tri (o := o) hf (by rw [hi.states]; exact opActs (H := H) hc hsmall hM hpre ho) a1)
    revert this
    cases call (Faults.findConnections H op) o s with
    | returned r t => rintro ⟨rfl, rfl⟩; exact ⟨a1, rfl⟩
    | threw t => exact id
  · obtain ⟨-, -, -, l, s, a1, -⟩ := C56_bases (H := H) (S := S) hM hc hpre hsmall sp h
    have hs' := hf.foreach a1
    subst hs'
    have := call_of_tri (Faults.foreach_tri (o := o) hf a1)
    revert this
    cases call Faults.foreach o s with
    | returned r t => rintro ⟨rfl, rfl⟩; exact ⟨a1, rfl⟩
    | threw t => exact id
  · obtain ⟨i, ⟨s, hi'⟩, -⟩ := (C56_values (H := H) (S := S) hM hc hpre hsmall sp h).1 k hk
    have hmem : k ∈ sp.states := by rw [hi.states, mem_states hc hsmall]; exact hk
    have e := hf.subspaceOf hmem hi'
    subst e
    refine ⟨i, hi', ?_⟩
    have := call_of_tri (Faults.subspaceOf_tri (o := o) (X := fun _ => False) hf hmem hi')
    revert this
    cases call (Faults.subspaceOf k) o s with
    | returned r t => rintro ⟨rfl, rfl⟩; rfl
    | threw t => exact False.elim

/-- **C95** A program may go on with a partition object after exceptions: after any finite sequence of merges and queries, interrupted by exceptions at any points (as in
`C95_merge_partial`) or not, the object is one that could have been made without exceptions: all theorems about partitions apply to it. -/
theorem C95_history_partial (sp : SpacePartition) (h : PartitionOf H S (InSpace M hs) hs sp) (prog : List (PartCmd S × (Nat → Bool)))
    (hp : ∀ c ∈ prog, c.1.Ok (InSpace M hs) hs) : PartitionOf H S (InSpace M hs) hs (prog.foldl (fun sp c => c.1.exec H c.2 sp) sp) := by
  induction prog generalizing sp with
  | nil => exact h
  | cons c prog ih =>
    refine ih _ ?_ fun d hd => hp d (List.mem_cons_of_mem _ hd)
    obtain ⟨c, o⟩ := c
    have hok := hp (c, o) List.mem_cons_self
    have hq := C95_queries hc hsmall hM hpre sp h o
    cases c with
    | merge Cd C store =>
      obtain ⟨⟨e1, h1⟩, e2, h2⟩ := hok
      obtain ⟨sp', m1, m2, a1, a2⟩ := C95_merge_partial hc hsmall hM hpre sp h e1 e2 Cd C h1 h2 store o
      have hsp' : PartitionOf H S (InSpace M hs) hs sp' := .merge e1 e2 h h1 h2 a1
      revert a2
      show _ → PartitionOf H S (InSpace M hs) hs (call (Faults.mergeSubspaces H (fun _ => false) Cd C store) o sp).object
      cases call (Faults.mergeSubspaces H (fun _ => false) Cd C store) o sp with
      | returned r t => rintro ⟨rfl, -⟩; exact hsp'
      | threw t =>
        rintro ⟨rfl | rfl, -⟩
        · exact h
        · exact hsp'
    | findConnections op =>
      obtain ⟨e, ho⟩ := hok
      have := hq.1 e op ho
      revert this
      show _ → PartitionOf H S (InSpace M hs) hs (call (Faults.findConnections H op) o sp).object
      cases call (Faults.findConnections H op) o sp with
      | returned r t => rintro ⟨-, rfl⟩; exact h
      | threw t => rintro ⟨rfl, -⟩; exact h
    | foreach =>
      have := hq.2.1
      revert this
      show _ → PartitionOf H S (InSpace M hs) hs (call Faults.foreach o sp).object
      cases call Faults.foreach o sp with
      | returned r t => rintro ⟨-, rfl⟩; exact h
      | threw t => rintro ⟨rfl, -⟩; exact h
    | subspaceOf k =>
      obtain ⟨i, -, e⟩ := hq.2.2 k hok
      show PartitionOf H S (InSpace M hs) hs (call (Faults.subspaceOf k) o sp).object
      rw [e]; exact h

/-- **C95, F42** If the first insertion into `root_to_subspace` at the end of `merge_subspaces` throws (and nothing else does), the object is destroyed as a
partition: there are no subspaces, and `sp[k]` fails for every `k`. -/
theorem C95_F42_lost_partition (sp : SpacePartition) (h : PartitionOf H S (InSpace M hs) hs sp) (eCd eC : Expr (Gen ι) S) (Cd C : LOperator S)
    (hCd : OperatorOn (InSpace M hs) hs eCd Cd) (hC : OperatorOn (InSpace M hs) hs eC C) (store : Bool) :
    0 < sp.nSubspaces ∧
    ∃ t, call (Faults.mergeSubspaces H (fun i => i == 0) Cd C store) (fun _ => false) sp = .threw t ∧
      t.nSubspaces = 0 ∧ ∀ k r, t.subspaceOf k ≠ .ok r := by
  obtain ⟨R, hi⟩ := partitionOf_inv hc hsmall hM hpre h
  have hf := partitionOf_flat hc hsmall hM hpre h
  have o1 : OpActs H Cd sp.states (mat hs eCd) := by rw [hi.states]; exact opActs (H := H) hc hsmall hM hpre hCd
  have o2 : OpActs H C sp.states (mat hs eC) := by rw [hi.states]; exact opActs (H := H) hc hsmall hM hpre hC
  have h0 : 0 ∈ sp.states := by rw [hi.states, mem_states hc hsmall]; exact valid_zero hc
  constructor
  · obtain ⟨q1, q2, -⟩ := C56_values (H := H) (S := S) hM hc hpre hsmall sp h
    obtain ⟨i, hi', -⟩ := q1 0 (valid_zero hc)
    exact lt_of_le_of_lt (Nat.zero_le _) ((q2 i).2 ⟨0, hi'⟩)
  · obtain ⟨sp', R', e1, e2, a1, -⟩ := hi.inv.merge (H := H) o1 o2 store
    have := call_of_tri (Faults.mergeSubspaces_node (o := fun _ => false) (node := fun i => i == 0) hf o1 o2 rfl (fun _ => rfl)
      (List.ne_nil_of_mem h0) store a1)
    revert this
    cases call (Faults.mergeSubspaces H (fun i => i == 0) Cd C store) (fun _ => false) sp with
    | returned r t => exact False.elim
    | threw t =>
      rintro ⟨e, -, -⟩
      refine ⟨t, rfl, by rw [SpacePartition.nSubspaces, e]; rfl, fun k r hk => ?_⟩
      unfold SpacePartition.subspaceOf at hk
      rw [e] at hk
      simp only [omapFind] at hk
      split at hk <;> cases hk

end

open Factory SpacePartition in
open scoped Classical in
/-- The hypotheses of C95 are met: two fermionic modes, the partition made by `c†_0`, and a program that merges subspaces and asks for connections,
both interrupted by exceptions. -/
example (H : Type) [HashImpl H Nat ℂ] : ∃ (hs : HilbertSpace Nat) (sp : SpacePartition) (op : LOperator ℂ),
    HalfAlone (fun n (_ : Nat) => n = 2) ∧ Constructed hs ∧ PredefinedSpaces hs ∧ (hs.foreachAlg.isSome → hs.dim < 2 ^ 31) ∧
    PartitionOf H ℂ (InSpace (fun n _ => n = 2) hs) hs sp ∧
    ∀ c ∈ ([(.merge op op true, fun n => n == 5), (.findConnections op, fun n => n == 7)] : List (PartCmd ℂ × (Nat → Bool))),
      c.1.Ok (InSpace (fun n _ => n = 2) hs) hs := by
  obtain ⟨hs, h1, h2, h3, h4, h5, op, h6, -⟩ := c55_hypotheses
  obtain ⟨sp, me', a1, -⟩ := C55_matrix_elements (H := H) h1 h2 h3 h4 (cDag 0 : Expr (Gen Nat) ℂ) op h6 [] List.Pairwise.nil
  refine ⟨hs, sp, op, h1, h2, h3, h4, .make _ h6 a1, ?_⟩
  simp only [List.mem_cons, List.not_mem_nil, or_false, forall_eq_or_imp, forall_eq, PartCmd.Ok]
  exact ⟨⟨⟨_, h6⟩, ⟨_, h6⟩⟩, ⟨_, h6⟩⟩

end LC
