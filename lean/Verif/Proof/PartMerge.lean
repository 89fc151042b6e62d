import Verif.Proof.Partition
/- Connections between subspaces and merging of subspaces. -/
set_option linter.unusedSectionVars false
namespace LC
open DisjointSets

theorem DisjointSets.Good.rootUnion_nSets {ds ds' : DisjointSets} {R : Nat → Nat} (hg : Good ds R) {x y r : Nat} (hx : x < ds.size) (rx : R x = x)
    (a : ds.rootUnion x y = some (r, ds')) : ds'.nSets + 1 = ds.nSets := by
  have hpos : 0 < ds.nSets := by
    rw [hg.count]
    exact Finset.card_pos.2 ⟨x, Finset.mem_filter.2 ⟨Finset.mem_range.2 hx, rx⟩⟩
  unfold DisjointSets.rootUnion at a
  split at a
  · split at a
    · split at a
      · simp only [Option.some.injEq, Prod.mk.injEq] at a
        rw [← a.2]; simp only; omega
      · split at a
        · simp only [Option.some.injEq, Prod.mk.injEq] at a
          rw [← a.2]; simp only; omega
        · simp only [Option.some.injEq, Prod.mk.injEq] at a
          rw [← a.2]; simp only; omega
    · simp at a
  · simp at a

namespace SpacePartition
variable {H S : Type _} [CommRing S] [DecidableEq S] [Algebra ℝ S] [HashImpl H Nat S]
variable {op : LOperator S} {states : List Nat} {m : Nat → Nat → S} {n : Nat}

theorem OpActs.keys {v : SparseSV H S} {k : Nat} (h : ∀ t a, (t, a) ∈ v.foreach ↔ a = m t k ∧ a ≠ 0) (t : Nat) :
    t ∈ v.foreach.map Prod.fst ↔ m t k ≠ 0 := by
  rw [List.mem_map]
  constructor
  · rintro ⟨⟨t', a⟩, h1, rfl⟩
    obtain ⟨h2, h3⟩ := (h t' a).1 h1
    rw [← h2]; exact h3
  · intro h'
    exact ⟨(t, m t k), (h _ _).2 ⟨rfl, h'⟩, rfl⟩

/-! ### `find_connections` -/

theorem connAll_spec {sp : SpacePartition} {R : Nat → Nat} (hi : Inv sp R) (inSub : Nat) (l : List (Nat × S)) (hl : ∀ p ∈ l, p.1 ∈ sp.states) {ds : DisjointSets}
    (hg : Good ds R) (hsz : ds.size = sp.vecSize) {cs : List (Nat ×ₗ Nat)} (hcs : cs.Pairwise (· < ·)) :
    ∃ ds' cs', connAll sp.rootTo inSub l ds cs = some (ds', cs') ∧ Good ds' R ∧ ds'.size = sp.vecSize ∧ cs'.Pairwise (· < ·) ∧
      ∀ x, x ∈ cs' ↔ x ∈ cs ∨ ∃ t ∈ l.map Prod.fst, x = toLex (inSub, (firsts R sp.states []).idxOf (R t)) := by
  induction l generalizing ds cs with
  | nil => exact ⟨ds, cs, rfl, hg, hsz, hcs, by simp⟩
  | cons q l ih =>
    obtain ⟨t, a⟩ := q
    have ht := hl (t, a) List.mem_cons_self
    obtain ⟨d1, a1, a2, a3⟩ := hg.findRoot (x := t) (by rw [hsz]; exact hi.lt t ht)
    obtain ⟨s1, s2⟩ := osetEmplace_spec hcs (toLex (inSub, (firsts R sp.states []).idxOf (R t)))
    obtain ⟨d2, c2, b1, b2, b3, b4, b5⟩ := ih (fun p hp => hl p (List.mem_cons_of_mem _ hp)) a2 (a3.1.trans hsz) s1
    refine ⟨d2, c2, ?_, b2, b3, b4, fun x => ?_⟩
    · rw [connAll, a1]
      simp only [hi.idx ht]
      exact b1
    · rw [b5, s2]
      simp only [List.map_cons, List.mem_cons, exists_eq_or_imp]
      tauto

theorem connLoop_spec {sp : SpacePartition} {R : Nat → Nat} (hi : Inv sp R) (hop : OpActs H op sp.states m) (l : List Nat) (hl : ∀ k ∈ l, k ∈ sp.states)
    {u v : SparseSV H S} (hu : u.data.items = []) (hv : v.data.Nodup) {ds : DisjointSets}
    (hg : Good ds R) (hsz : ds.size = sp.vecSize) {cs : List (Nat ×ₗ Nat)} (hcs : cs.Pairwise (· < ·)) :
    ∃ ds' cs', connLoop sp.rootTo op l u v ds cs = .ok (ds', cs') ∧ Good ds' R ∧ ds'.size = sp.vecSize ∧ cs'.Pairwise (· < ·) ∧
      ∀ x, x ∈ cs' ↔ x ∈ cs ∨ ∃ k ∈ l, ∃ t, m t k ≠ 0 ∧
        x = toLex ((firsts R sp.states []).idxOf (R k), (firsts R sp.states []).idxOf (R t)) := by
  induction l generalizing u v ds cs with
  | nil => exact ⟨ds, cs, rfl, hg, hsz, hcs, by simp⟩
  | cons k l ih =>
    have hk := hl k List.mem_cons_self
    obtain ⟨d1, a1, a2, a3⟩ := hg.findRoot (x := k) (by rw [hsz]; exact hi.lt k hk)
    obtain ⟨v1, e1, e2, e3⟩ := hop.act k hk _ v (single_set hu k) hv
    have hkeys := OpActs.keys e3
    obtain ⟨d2, c2, b1, b2, b3, b4, b5⟩ := connAll_spec hi ((firsts R sp.states []).idxOf (R k)) v1.foreach
      (fun p hp => hop.mem k hk _ ((hkeys p.1).1 (List.mem_map_of_mem hp))) a2 (a3.1.trans hsz) hcs
    obtain ⟨d3, c3, f1, f2, f3, f4, f5⟩ := ih (fun j hj => hl j (List.mem_cons_of_mem _ hj)) (u := (u.set k 1).setZeros) (v := v1) rfl e2 b2 b3 b4
    refine ⟨d3, c3, ?_, f2, f3, f4, fun x => ?_⟩
    · rw [connLoop, a1]
      simp only [hi.idx hk, e1, b1]
      exact f1
    · rw [f5, b5]
      simp only [hkeys, List.mem_cons, exists_eq_or_imp]
      exact or_assoc

theorem Inv.findConnections {sp : SpacePartition} {R : Nat → Nat} (hi : Inv sp R) (hop : OpActs H op sp.states m) :
    ∃ cs ds, sp.findConnections H op = .ok (cs, { sp with ds := ds }) ∧ Inv { sp with ds := ds } R ∧ cs.Pairwise (· < ·) ∧
      ∀ x, x ∈ cs ↔ ∃ k ∈ sp.states, ∃ t, m t k ≠ 0 ∧
        x = toLex ((firsts R sp.states []).idxOf (R k), (firsts R sp.states []).idxOf (R t)) := by
  obtain ⟨d, c, a1, a2, a3, a4, a5⟩ := connLoop_spec hi hop sp.states (fun _ h => h) (u := SparseSV.make sp.vecSize) (v := SparseSV.make sp.vecSize) rfl
    (nodup_make _) hi.good hi.size (cs := []) List.Pairwise.nil
  refine ⟨c, d, ?_, hi.withDs a2 (a3.trans hi.size.symm), a4, fun x => by rw [a5]; simp⟩
  rw [SpacePartition.findConnections, a1]

/-! ### Filling the multimaps -/

/-- Effect on a map of matrix elements. -/
def Stored (store : Bool) (m : Nat → Nat → S) (ks : List Nat) (me me' : MatElems S) : Prop :=
  OSorted me' ∧ ∀ t j, omapFind (toLex (t, j)) me' = if store = true ∧ j ∈ ks ∧ m t j ≠ 0 then some (m t j) else omapFind (toLex (t, j)) me

theorem fillAll_spec {R : Nat → Nat} (store : Bool) (k inSub : Nat) (l : List (Nat × S)) (hnd : (l.map Prod.fst).Nodup) {ds : DisjointSets}
    (hg : Good ds R) (hl : ∀ p ∈ l, p.1 < ds.size) {conn : List (Nat × Nat)} (hc : conn.Pairwise fun p q => p.1 ≤ q.1) {me : MatElems S} (hme : OSorted me) :
    ∃ ds' conn' me', fillAll store k inSub l ds conn me = some (ds', conn', me') ∧ Good ds' R ∧ ds'.size = ds.size ∧
      (conn'.Pairwise fun p q => p.1 ≤ q.1) ∧ (∀ p, p ∈ conn' ↔ p ∈ conn ∨ p.1 = inSub ∧ ∃ t ∈ l.map Prod.fst, p.2 = R t) ∧
      OSorted me' ∧ ∀ t j a, omapFind (toLex (t, j)) me' = some a ↔
        (store = true ∧ j = k ∧ (t, a) ∈ l) ∨ (¬ (store = true ∧ j = k ∧ t ∈ l.map Prod.fst) ∧ omapFind (toLex (t, j)) me = some a) := by
  induction l generalizing ds conn me with
  | nil => exact ⟨ds, conn, me, rfl, hg, rfl, hc, by simp, hme, by simp⟩
  | cons q l ih =>
    obtain ⟨t0, a0⟩ := q
    obtain ⟨d1, a1, a2, a3⟩ := hg.findRoot (x := t0) (hl (t0, a0) List.mem_cons_self)
    obtain ⟨s1, s2⟩ := multimapInsert_spec hc inSub (R t0)
    rw [List.map_cons, List.nodup_cons] at hnd
    obtain ⟨m1, _, m2⟩ := omapFind_assign hme (toLex (t0, k)) a0
    have hme1 : OSorted (if store then omapAssign (toLex (t0, k)) a0 me else me) := by
      cases store
      · exact hme
      · exact m1
    obtain ⟨d2, c2, me2, b1, b2, b3, b4, b5, b6, b7⟩ := ih hnd.2 a2 (fun p hp => by rw [a3.1]; exact hl p (List.mem_cons_of_mem _ hp)) s1 hme1
    refine ⟨d2, c2, me2, ?_, b2, b3.trans a3.1, b4, fun p => ?_, b6, fun t j a => ?_⟩
    · rw [fillAll, a1]; exact b1
    · rw [b5, s2]
      simp only [List.map_cons, List.mem_cons, exists_eq_or_imp, Prod.ext_iff]
      tauto
    · rw [b7, List.map_cons, List.mem_cons, List.mem_cons, Prod.mk.injEq]
      cases store
      · simp
      · simp only [if_true, true_and]
        rw [m2]
        by_cases hj : j = k
        · subst hj
          by_cases ht : t = t0
          · subst ht
            have h1 : ∀ a, (t, a) ∉ l := fun a hh => hnd.1 (List.mem_map.2 ⟨(t, a), hh, rfl⟩)
            have h2 := hnd.1
            have h3 := h1 a
            rw [if_pos rfl, Option.some.injEq]
            simp only at h2
            have : a0 = a ↔ a = a0 := eq_comm
            tauto
          · have hne : toLex (t, j) ≠ toLex (t0, j) := fun hh => ht (Prod.mk.inj (toLex.injective hh)).1
            rw [if_neg hne]
            tauto
        · have hne : toLex (t, j) ≠ toLex (t0, k) := fun hh => hj (Prod.mk.inj (toLex.injective hh)).2
          rw [if_neg hne]
          tauto

theorem fillConn_spec {R : Nat → Nat} (store : Bool) (hop : OpActs H op states m) (hlt : ∀ k ∈ states, k < n) {k : Nat} (hk : k ∈ states) (inSub : Nat) {u v : SparseSV H S}
    (hu : Single u k) (hv : v.data.Nodup) {ds : DisjointSets} (hg : Good ds R) (hsz : ds.size = n) {conn : List (Nat × Nat)}
    (hc : conn.Pairwise fun p q => p.1 ≤ q.1) {me : MatElems S} (hme : OSorted me) :
    ∃ v' ds' conn' me', fillConn store op k inSub u v ds conn me = .ok (v', ds', conn', me') ∧ v'.data.Nodup ∧ Good ds' R ∧ ds'.size = n ∧
      (conn'.Pairwise fun p q => p.1 ≤ q.1) ∧ (∀ p, p ∈ conn' ↔ p ∈ conn ∨ p.1 = inSub ∧ ∃ t, m t k ≠ 0 ∧ p.2 = R t) ∧
      Stored store m [k] me me' := by
  obtain ⟨v1, e1, e2, e3⟩ := hop.act k hk u v hu hv
  have hkeys := OpActs.keys e3
  obtain ⟨d1, c1, me1, b1, b2, b3, b4, b5, b6, b7⟩ := fillAll_spec store k inSub v1.foreach e2 hg
    (fun p hp => by rw [hsz]; exact hlt _ (hop.mem k hk _ ((hkeys p.1).1 (List.mem_map_of_mem hp)))) hc hme
  refine ⟨v1, d1, c1, me1, ?_, e2, b2, b3.trans hsz, b4, fun p => ?_, b6, fun t j => ?_⟩
  · rw [fillConn, e1]
    simp only [b1]
  · rw [b5]; simp only [hkeys]
  · apply Option.ext
    intro a
    rw [b7, hkeys]
    by_cases hcase : store = true ∧ j = k ∧ m t j ≠ 0
    · obtain ⟨h1, rfl, h3⟩ := hcase
      rw [if_pos ⟨h1, List.mem_singleton_self _, h3⟩, e3, Option.some.injEq]
      constructor
      · rintro (⟨_, _, h, _⟩ | ⟨h, _⟩)
        · exact h.symm
        · exact absurd ⟨h1, rfl, h3⟩ h
      · rintro rfl; exact Or.inl ⟨h1, rfl, rfl, h3⟩
    · rw [if_neg (fun h => hcase ⟨h.1, List.mem_singleton.1 h.2.1, h.2.2⟩)]
      constructor
      · rintro (⟨h1, h2, h3⟩ | h)
        · rw [e3] at h3
          exact absurd ⟨h1, h2, by rw [h2, ← h3.1]; exact h3.2⟩ hcase
        · exact h.2
      · intro h
        refine Or.inr ⟨?_, h⟩
        rintro ⟨h1, h2, h3⟩
        exact hcase ⟨h1, h2, h2 ▸ h3⟩

theorem Stored.trans {store : Bool} {k : Nat} {l : List Nat} {me me' me'' : MatElems S} (h1 : Stored store m [k] me me') (h2 : Stored store m l me' me'') :
    Stored store m (k :: l) me me'' := by
  refine ⟨h2.1, fun t j => ?_⟩
  rw [h2.2, h1.2]
  by_cases ha : store = true ∧ j ∈ l ∧ m t j ≠ 0
  · rw [if_pos ha, if_pos ⟨ha.1, List.mem_cons_of_mem _ ha.2.1, ha.2.2⟩]
  · rw [if_neg ha]
    by_cases hb : store = true ∧ j ∈ [k] ∧ m t j ≠ 0
    · rw [if_pos hb, if_pos]
      exact ⟨hb.1, List.mem_cons.2 (Or.inl (List.mem_singleton.1 hb.2.1)), hb.2.2⟩
    · rw [if_neg hb, if_neg]
      rintro ⟨h3, h4, h5⟩
      rcases List.mem_cons.1 h4 with h4 | h4
      · exact hb ⟨h3, List.mem_singleton.2 h4, h5⟩
      · exact ha ⟨h3, h4, h5⟩

/-- A multimap contains the connections of the states of a list. -/
def Connects (R : Nat → Nat) (m : Nat → Nat → S) (ks : List Nat) (conn conn' : List (Nat × Nat)) : Prop :=
  (conn'.Pairwise fun p q => p.1 ≤ q.1) ∧ ∀ p, p ∈ conn' ↔ p ∈ conn ∨ ∃ k ∈ ks, ∃ t, m t k ≠ 0 ∧ p = (R k, R t)

theorem Connects.step {R : Nat → Nat} {k : Nat} {l : List Nat} {c c' c'' : List (Nat × Nat)}
    (h1 : ∀ p, p ∈ c' ↔ p ∈ c ∨ p.1 = R k ∧ ∃ t, m t k ≠ 0 ∧ p.2 = R t) (h2 : Connects R m l c' c'') : Connects R m (k :: l) c c'' := by
  refine ⟨h2.1, fun p => ?_⟩
  rw [h2.2, h1]
  simp only [List.mem_cons, exists_eq_or_imp, Prod.ext_iff]
  constructor
  · rintro ((h | ⟨h3, t, h4, h5⟩) | h)
    · exact Or.inl h
    · exact Or.inr (Or.inl ⟨t, h4, h3, h5⟩)
    · exact Or.inr (Or.inr h)
  · rintro (h | ⟨t, h3, h4, h5⟩ | h)
    · exact Or.inl (Or.inl h)
    · exact Or.inl (Or.inr ⟨h4, t, h3, h5⟩)
    · exact Or.inr h

theorem fillLoop_spec {R : Nat → Nat} (store : Bool) {Cd C : LOperator S} {mCd mC : Nat → Nat → S} (hCd : OpActs H Cd states mCd) (hC : OpActs H C states mC)
    (hlt : ∀ k ∈ states, k < n) (l : List Nat) (hl : ∀ k ∈ l, k ∈ states) {u v : SparseSV H S} (hu : u.data.items = []) (hv : v.data.Nodup)
    {ds : DisjointSets} (hg : Good ds R) (hsz : ds.size = n) {cs : Conns S} (h1 : cs.cdConn.Pairwise fun p q => p.1 ≤ q.1)
    (h2 : cs.cConn.Pairwise fun p q => p.1 ≤ q.1) (h3 : OSorted cs.cdElems) (h4 : OSorted cs.cElems) :
    ∃ ds' cs', fillLoop store Cd C l u v ds cs = .ok (ds', cs') ∧ Good ds' R ∧ ds'.size = n ∧
      Connects R mCd l cs.cdConn cs'.cdConn ∧ Connects R mC l cs.cConn cs'.cConn ∧
      Stored store mCd l cs.cdElems cs'.cdElems ∧ Stored store mC l cs.cElems cs'.cElems := by
  induction l generalizing u v ds cs with
  | nil =>
    exact ⟨ds, cs, rfl, hg, hsz, ⟨h1, by simp⟩, ⟨h2, by simp⟩, ⟨h3, by simp⟩, ⟨h4, by simp⟩⟩
  | cons k l ih =>
    have hk := hl k List.mem_cons_self
    obtain ⟨d0, a1, a2, a3⟩ := hg.findRoot (x := k) (by rw [hsz]; exact hlt k hk)
    obtain ⟨v1, d1, c1, e1, b1, b2, b3, b4, b5, b6, b7⟩ := fillConn_spec store hCd hlt hk (R k) (single_set hu k) hv a2 (a3.1.trans hsz) h1 h3
    obtain ⟨v2, d2, c2, e2, f1, f2, f3, f4, f5, f6, f7⟩ := fillConn_spec store hC hlt hk (R k) (single_set hu k) b2 b3 b4 h2 h4
    obtain ⟨d3, cs3, g1, g2, g3, g4, g5, g6, g7⟩ := ih (fun j hj => hl j (List.mem_cons_of_mem _ hj)) (u := (u.set k 1).setZeros) (v := v2) rfl f2
      (ds := d2) (cs := ⟨c1, e1, c2, e2⟩) f3 f4 b5 f5 b7.1 f7.1
    refine ⟨d3, cs3, ?_, g2, g3, Connects.step b6 g4, Connects.step f6 g5, b7.trans g6, f7.trans g7⟩
    rw [fillLoop, a1]
    simp only [b1, f1]
    exact g1

/-! ### Merging -/

/-- What a pass without any union says about the connections (`i`, `o` are the current values of `in_subspace` and `out_subspace`). -/
def Aligned (R : Nat → Nat) : List (Nat × Nat) → Nat → Nat → Prop
  | [], _, _ => True
  | (a, b) :: l, i, o => if R a = R i then R b = R o ∧ Aligned R l i o else Aligned R l (R a) (R b)

/-- An equivalence relation under which the connections are one-to-one in the forward direction. -/
structure OneToOne (E : Nat → Nat → Prop) (conn : List (Nat × Nat)) : Prop where
  equiv : Equivalence E
  closed : ∀ p ∈ conn, ∀ q ∈ conn, E p.1 q.1 → E p.2 q.2

/-- Result of (a part of) the merging. -/
structure Merged (ds : DisjointSets) (R : Nat → Nat) (ds' : DisjointSets) (R' : Nat → Nat) : Prop where
  good : Good ds' R'
  size : ds'.size = ds.size
  coarser : ∀ x < ds.size, ∀ y < ds.size, R x = R y → R' x = R' y
  le : ds'.nSets ≤ ds.nSets

theorem Merged.refl {ds : DisjointSets} {R : Nat → Nat} (hg : Good ds R) : Merged ds R ds R := ⟨hg, rfl, fun _ _ _ _ h => h, le_rfl⟩

theorem Merged.trans {d1 d2 d3 : DisjointSets} {R1 R2 R3 : Nat → Nat} (h : Merged d1 R1 d2 R2) (h' : Merged d2 R2 d3 R3) : Merged d1 R1 d3 R3 :=
  ⟨h'.good, h'.size.trans h.size, fun x hx y hy e => h'.coarser x (by rw [h.size]; exact hx) y (by rw [h.size]; exact hy) (h.coarser x hx y hy e),
    h'.le.trans h.le⟩

theorem Merged.same {ds ds' : DisjointSets} {R : Nat → Nat} (hg : Good ds' R) (hs : Same ds ds') : Merged ds R ds' R :=
  ⟨hg, hs.1, fun _ _ _ _ h => h, hs.2.2.le⟩

theorem mergeLoop_spec {E : Nat → Nat → Prop} {conn : List (Nat × Nat)} (l : List (Nat × Nat)) (hsub : ∀ p ∈ l, p ∈ conn)
    {ds : DisjointSets} {R : Nat → Nat} (hg : Good ds R) (hl : ∀ p ∈ l, p.1 < ds.size ∧ p.2 < ds.size) {i o : Nat} (hi : i < ds.size) (ho : o < ds.size)
    (linked : Bool) : ∃ linked' ds' R', mergeLoop l i o linked ds = some (linked', ds') ∧ Merged ds R ds' R' ∧
      (OneToOne E conn → (∀ p ∈ conn, p.1 < ds.size ∧ p.2 < ds.size) → (∀ x < ds.size, ∀ y < ds.size, R x = R y → E x y) →
        (∃ p ∈ conn, E i p.1 ∧ E o p.2) → ∀ x < ds.size, ∀ y < ds.size, R' x = R' y → E x y) ∧
      (linked' = true → linked = true ∨ ds'.nSets < ds.nSets) ∧
      (linked' = false → linked = false ∧ (∀ x, R' x = R x) ∧ Aligned R l i o) := by
  induction l generalizing ds R i o linked with
  | nil =>
    exact ⟨linked, ds, R, rfl, Merged.refl hg, fun _ _ h _ => h, fun h => Or.inl h, fun h => ⟨h, fun _ => rfl, trivial⟩⟩
  | cons q l ih =>
    obtain ⟨a, b⟩ := q
    obtain ⟨ha, hb⟩ := hl (a, b) List.mem_cons_self
    simp only at ha hb
    have hsub' : ∀ p ∈ l, p ∈ conn := fun p hp => hsub p (List.mem_cons_of_mem _ hp)
    have hmem : (a, b) ∈ conn := hsub _ List.mem_cons_self
    obtain ⟨d1, a1, a2, a3⟩ := hg.findRoot ha
    obtain ⟨d2, b1, b2, b3⟩ := a2.findRoot (x := i) (by rw [a3.1]; exact hi)
    have s2 : d2.size = ds.size := b3.1.trans a3.1
    have n2 : d2.nSets = ds.nSets := b3.2.2.trans a3.2.2
    rw [mergeLoop, a1]
    simp only [b1]
    by_cases hc : R a = R i
    · rw [if_pos hc]
      obtain ⟨d3, c1, c2, c3⟩ := b2.findRoot (x := o) (by rw [s2]; exact ho)
      obtain ⟨d4, e1, e2, e3⟩ := c2.findRoot (x := b) (by rw [c3.1, s2]; exact hb)
      simp only [c1, e1]
      have s4 : d4.size = ds.size := e3.1.trans (c3.1.trans s2)
      have n4 : d4.nSets = ds.nSets := e3.2.2.trans (c3.2.2.trans n2)
      have hsame : Merged ds R d4 R := ⟨e2, s4, fun _ _ _ _ h => h, n4.le⟩
      have hbound : ∀ p ∈ l, p.1 < d4.size ∧ p.2 < d4.size := fun p hp => by rw [s4]; exact hl p (List.mem_cons_of_mem _ hp)
      by_cases hne : R o ≠ R b
      · rw [if_pos hne]
        have hRo : R o < d4.size := by rw [s4]; exact hg.lt ho
        have hRb : R b < d4.size := by rw [s4]; exact hg.lt hb
        obtain ⟨r, d5, R5, f1, f2, f3, f4, f5⟩ := e2.rootUnion hRo hRb (hg.RR ho) (hg.RR hb) hne
        have hns := e2.rootUnion_nSets hRo (hg.RR ho) f1
        simp only [f1]
        have s5 : d5.size = ds.size := f3.trans s4
        have hm5 : Merged ds R d5 R5 := by
          refine ⟨f2, s5, fun x hx y hy e => ?_, by omega⟩
          rw [Good.union_iff f4 f5]; exact Or.inl e
        obtain ⟨l', d6, R6, g1, g2, g3, g4, g5⟩ := ih hsub' f2 (fun p hp => by rw [s5]; exact hl p (List.mem_cons_of_mem _ hp)) (i := i) (o := o)
          (by rw [s5]; exact hi) (by rw [s5]; exact ho) true
        refine ⟨l', d6, R6, g1, hm5.trans g2, ?_, ?_, ?_⟩
        · intro hE hcl hRE hio x hx y hy
          rw [s5] at g3
          refine g3 hE hcl ?_ hio x hx y hy
          intro x hx y hy e
          rw [Good.union_iff f4 f5] at e
          have hob : E o b := by
            obtain ⟨p, hp, h1, h2⟩ := hio
            have : E p.1 a := hE.equiv.trans (hE.equiv.symm h1) (hRE i hi a ha hc.symm)
            exact hE.equiv.trans h2 (hE.closed p hp (a, b) hmem this)
          have key : ∀ z < ds.size, R z = R o ∨ R z = R b → E z o := by
            intro z hz h
            rcases h with h | h
            · exact hRE z hz o ho h
            · exact hE.equiv.trans (hRE z hz b hb h) (hE.equiv.symm hob)
          rcases e with e | ⟨e1, e2⟩
          · exact hRE x hx y hy e
          · exact hE.equiv.trans (key x hx e1) (hE.equiv.symm (key y hy e2))
        · intro _
          right
          have := g2.le
          omega
        · intro h
          exact absurd (g5 h).1 (by simp)
      · rw [if_neg hne]
        push Not at hne
        obtain ⟨l', d6, R6, g1, g2, g3, g4, g5⟩ := ih hsub' e2 hbound (i := i) (o := o) (by rw [s4]; exact hi) (by rw [s4]; exact ho) linked
        refine ⟨l', d6, R6, g1, hsame.trans g2, ?_, ?_, ?_⟩
        · rw [s4] at g3; exact g3
        · intro h; rw [n4] at g4; exact g4 h
        · intro h
          obtain ⟨h1, h2, h3⟩ := g5 h
          refine ⟨h1, h2, ?_⟩
          rw [Aligned, if_pos hc]
          exact ⟨hne.symm, h3⟩
    · rw [if_neg hc]
      obtain ⟨d3, c1, c2, c3⟩ := b2.findRoot (x := a) (by rw [s2]; exact ha)
      obtain ⟨d4, e1, e2, e3⟩ := c2.findRoot (x := b) (by rw [c3.1, s2]; exact hb)
      simp only [c1, e1]
      have s4 : d4.size = ds.size := e3.1.trans (c3.1.trans s2)
      have n4 : d4.nSets = ds.nSets := e3.2.2.trans (c3.2.2.trans n2)
      have hsame : Merged ds R d4 R := ⟨e2, s4, fun _ _ _ _ h => h, n4.le⟩
      obtain ⟨l', d6, R6, g1, g2, g3, g4, g5⟩ := ih hsub' e2 (fun p hp => by rw [s4]; exact hl p (List.mem_cons_of_mem _ hp)) (i := R a) (o := R b)
        (by rw [s4]; exact hg.lt ha) (by rw [s4]; exact hg.lt hb) linked
      refine ⟨l', d6, R6, g1, hsame.trans g2, ?_, ?_, ?_⟩
      · intro hE hcl hRE _
        rw [s4] at g3
        exact g3 hE hcl hRE ⟨(a, b), hmem, hRE _ (hg.lt ha) _ ha (hg.RR ha), hRE _ (hg.lt hb) _ hb (hg.RR hb)⟩
      · intro h; rw [n4] at g4; exact g4 h
      · intro h
        obtain ⟨h1, h2, h3⟩ := g5 h
        refine ⟨h1, h2, ?_⟩
        rw [Aligned, if_neg hc]
        exact h3

/-- A pass over aligned connections: equal keys lead to the same class. -/
theorem Aligned.equal {R : Nat → Nat} {l : List (Nat × Nat)} {i o a0 : Nat} (hRR : ∀ p ∈ l, R (R p.1) = R p.1 ∧ R (R p.2) = R p.2)
    (hs : l.Pairwise fun p q => p.1 ≤ q.1) (h0 : ∀ p ∈ l, a0 ≤ p.1) (hi : R i = R a0) (h : Aligned R l i o) :
    (∀ p ∈ l, p.1 = a0 → R p.2 = R o) ∧ ∀ p ∈ l, ∀ q ∈ l, p.1 = q.1 → R p.2 = R q.2 := by
  induction l generalizing i o a0 with
  | nil => simp
  | cons x l ih =>
    obtain ⟨a, b⟩ := x
    rw [List.pairwise_cons] at hs
    have hRR' : ∀ p ∈ l, R (R p.1) = R p.1 ∧ R (R p.2) = R p.2 := fun p hp => hRR p (List.mem_cons_of_mem _ hp)
    obtain ⟨hra, hrb⟩ := hRR (a, b) List.mem_cons_self
    simp only at hra hrb
    have ha0 : a0 ≤ a := h0 (a, b) List.mem_cons_self
    rw [Aligned] at h
    by_cases hc : R a = R i
    · rw [if_pos hc] at h
      obtain ⟨e1, e2⟩ := ih (a0 := a) hRR' hs.2 (fun p hp => hs.1 p hp) hc.symm h.2
      refine ⟨fun p hp e => ?_, fun p hp q hq e => ?_⟩
      · rcases List.mem_cons.1 hp with rfl | hp
        · exact h.1
        · have h1 : a ≤ p.1 := hs.1 p hp
          exact e1 p hp (by omega)
      · rcases List.mem_cons.1 hp with rfl | hp <;> rcases List.mem_cons.1 hq with rfl | hq
        · rfl
        · rw [e1 q hq e.symm]; exact h.1
        · rw [e1 p hp e]; exact h.1.symm
        · exact e2 p hp q hq e
    · rw [if_neg hc] at h
      obtain ⟨e1, e2⟩ := ih (a0 := a) hRR' hs.2 (fun p hp => hs.1 p hp) hra h
      have hne : a ≠ a0 := by rintro rfl; exact hc hi.symm
      refine ⟨fun p hp e => ?_, fun p hp q hq e => ?_⟩
      · rcases List.mem_cons.1 hp with rfl | hp
        · exact absurd e hne
        · have h1 : a ≤ p.1 := hs.1 p hp
          omega
      · rcases List.mem_cons.1 hp with rfl | hp <;> rcases List.mem_cons.1 hq with rfl | hq
        · rfl
        · rw [e1 q hq e.symm]; exact hrb.symm
        · rw [e1 p hp e]; exact hrb
        · exact e2 p hp q hq e

theorem mergeConnTargets_spec {E : Nat → Nat → Prop} {conn : List (Nat × Nat)} {ds : DisjointSets} {R : Nat → Nat} (hg : Good ds R)
    (hl : ∀ p ∈ conn, p.1 < ds.size ∧ p.2 < ds.size) (hs : conn.Pairwise fun p q => p.1 ≤ q.1) :
    ∃ linked ds' R', mergeConnTargets conn ds = some (linked, ds') ∧ Merged ds R ds' R' ∧
      (OneToOne E conn → (∀ x < ds.size, ∀ y < ds.size, R x = R y → E x y) → ∀ x < ds.size, ∀ y < ds.size, R' x = R' y → E x y) ∧
      (linked = true → ds'.nSets < ds.nSets) ∧
      (linked = false → (∀ x, R' x = R x) ∧ ∀ p ∈ conn, ∀ q ∈ conn, p.1 = q.1 → R p.2 = R q.2) := by
  cases conn with
  | nil => exact ⟨false, ds, R, rfl, Merged.refl hg, fun _ h => h, by simp, fun _ => ⟨fun _ => rfl, by simp⟩⟩
  | cons x l =>
    obtain ⟨a, b⟩ := x
    obtain ⟨ha, hb⟩ := hl (a, b) List.mem_cons_self
    simp only at ha hb
    obtain ⟨d1, a1, a2, a3⟩ := hg.findRoot ha
    obtain ⟨d2, b1, b2, b3⟩ := a2.findRoot (x := b) (by rw [a3.1]; exact hb)
    have s2 : d2.size = ds.size := b3.1.trans a3.1
    have n2 : d2.nSets = ds.nSets := b3.2.2.trans a3.2.2
    obtain ⟨l', d6, R6, g1, g2, g3, g4, g5⟩ := mergeLoop_spec (E := E) (conn := (a, b) :: l) l (fun p hp => List.mem_cons_of_mem _ hp) b2
      (fun p hp => by rw [s2]; exact hl p (List.mem_cons_of_mem _ hp)) (i := R a) (o := R b) (by rw [s2]; exact hg.lt ha) (by rw [s2]; exact hg.lt hb) false
    rw [mergeConnTargets, a1]
    simp only [b1]
    have hsame : Merged ds R d2 R := ⟨b2, s2, fun _ _ _ _ h => h, n2.le⟩
    refine ⟨l', d6, R6, g1, hsame.trans g2, ?_, ?_, ?_⟩
    · intro hE hRE
      rw [s2] at g3
      exact g3 hE hl hRE ⟨(a, b), List.mem_cons_self, hRE _ (hg.lt ha) _ ha (hg.RR ha), hRE _ (hg.lt hb) _ hb (hg.RR hb)⟩
    · intro h
      rw [← n2]
      exact (g4 h).resolve_left (by simp)
    · intro h
      obtain ⟨_, h2, h3⟩ := g5 h
      refine ⟨h2, ?_⟩
      have hRR : ∀ p ∈ (a, b) :: l, R (R p.1) = R p.1 ∧ R (R p.2) = R p.2 := fun p hp => ⟨hg.RR (hl p hp).1, hg.RR (hl p hp).2⟩
      have hal : Aligned R ((a, b) :: l) (R a) (R b) := by
        rw [Aligned, if_pos (hg.RR ha).symm]
        exact ⟨(hg.RR hb).symm, h3⟩
      refine (Aligned.equal (a0 := a) hRR hs (fun p hp => ?_) (hg.RR ha) hal).2
      rcases List.mem_cons.1 hp with rfl | hp
      · exact le_rfl
      · exact (List.pairwise_cons.1 hs).1 p hp

theorem mergeWhile_spec {E : Nat → Nat → Prop} {cd c : List (Nat × Nat)} (fuel : Nat) {ds : DisjointSets} {R : Nat → Nat} (hg : Good ds R)
    (h1 : ∀ p ∈ cd, p.1 < ds.size ∧ p.2 < ds.size) (h2 : ∀ p ∈ c, p.1 < ds.size ∧ p.2 < ds.size)
    (s1 : cd.Pairwise fun p q => p.1 ≤ q.1) (s2 : c.Pairwise fun p q => p.1 ≤ q.1) (hf : ds.nSets < fuel) :
    ∃ ds' R', mergeWhile cd c fuel ds = some ds' ∧ Merged ds R ds' R' ∧
      (OneToOne E cd → OneToOne E c → (∀ x < ds.size, ∀ y < ds.size, R x = R y → E x y) → ∀ x < ds.size, ∀ y < ds.size, R' x = R' y → E x y) ∧
      (∀ p ∈ cd, ∀ q ∈ cd, p.1 = q.1 → R' p.2 = R' q.2) ∧ ∀ p ∈ c, ∀ q ∈ c, p.1 = q.1 → R' p.2 = R' q.2 := by
  induction fuel generalizing ds R with
  | zero => omega
  | succ fuel ih =>
    obtain ⟨l1, d1, R1, a1, a2, a3, a4, a5⟩ := mergeConnTargets_spec (E := E) hg h1 s1
    obtain ⟨l2, d2, R2, b1, b2, b3, b4, b5⟩ := mergeConnTargets_spec (E := E) a2.good (conn := c) (fun p hp => by rw [a2.size]; exact h2 p hp) s2
    rw [mergeWhile, a1]
    simp only [b1]
    rw [a2.size] at b3
    have h12 := a2.trans b2
    by_cases hc : (l1 || l2) = true
    · rw [if_pos hc]
      have hlt : d2.nSets < ds.nSets := by
        have e1 := a2.le
        have e2 := b2.le
        rcases Bool.or_eq_true _ _ ▸ hc with h | h
        · have := a4 h; omega
        · have := b4 h; omega
      obtain ⟨d3, R3, c1, c2, c3, c4, c5⟩ := ih h12.good (fun p hp => by rw [h12.size]; exact h1 p hp) (fun p hp => by rw [h12.size]; exact h2 p hp) (by omega)
      rw [h12.size] at c3
      exact ⟨d3, R3, c1, h12.trans c2, fun e1 e2 hRE => c3 e1 e2 (b3 e2 (a3 e1 hRE)), c4, c5⟩
    · rw [if_neg hc]
      obtain ⟨hc1, hc2⟩ := Bool.or_eq_false_iff.1 (Bool.eq_false_iff.2 hc)
      obtain ⟨e1, e2⟩ := a5 hc1
      obtain ⟨e3, e4⟩ := b5 hc2
      refine ⟨d2, R2, rfl, h12, fun g1 g2 hRE => b3 g2 (a3 g1 hRE), fun p hp q hq e => ?_, fun p hp q hq e => ?_⟩
      · rw [e3, e3, e1, e1]; exact e2 p hp q hq e
      · rw [e3, e3]; exact e4 p hp q hq e

/-- `merge_subspaces`. -/
theorem Inv.merge {sp : SpacePartition} {R : Nat → Nat} (hi : Inv sp R) {Cd C : LOperator S} {mCd mC : Nat → Nat → S}
    (hCd : OpActs H Cd sp.states mCd) (hC : OpActs H C sp.states mC) (store : Bool) :
    ∃ sp' R' me1 me2, sp.mergeSubspaces H Cd C store = .ok (sp', me1, me2) ∧ Inv sp' R' ∧ sp'.states = sp.states ∧ sp'.vecSize = sp.vecSize ∧
      (∀ x < sp.vecSize, ∀ y < sp.vecSize, R x = R y → R' x = R' y) ∧
      (∀ k ∈ sp.states, ∀ k' ∈ sp.states, R k = R k' → ∀ t t', mCd t k ≠ 0 → mCd t' k' ≠ 0 → R' t = R' t') ∧
      (∀ k ∈ sp.states, ∀ k' ∈ sp.states, R k = R k' → ∀ t t', mC t k ≠ 0 → mC t' k' ≠ 0 → R' t = R' t') ∧
      (∀ E : Nat → Nat → Prop, Equivalence E → (∀ x ∈ sp.states, ∀ y ∈ sp.states, R x = R y → E x y) →
        (∀ k ∈ sp.states, ∀ k' ∈ sp.states, E k k' → ∀ t t', mCd t k ≠ 0 → mCd t' k' ≠ 0 → E t t') →
        (∀ k ∈ sp.states, ∀ k' ∈ sp.states, E k k' → ∀ t t', mC t k ≠ 0 → mC t' k' ≠ 0 → E t t') →
        ∀ x ∈ sp.states, ∀ y ∈ sp.states, R' x = R' y → E x y) ∧
      Stored store mCd sp.states [] me1 ∧ Stored store mC sp.states [] me2 := by
  obtain ⟨d1, cs, a1, a2, a3, a4, a5, a6, a7⟩ := fillLoop_spec store hCd hC hi.lt sp.states (fun _ h => h)
    (u := SparseSV.make sp.vecSize) (v := SparseSV.make sp.vecSize) rfl (nodup_make _) hi.good hi.size (cs := ⟨[], [], [], []⟩)
    (by simp) (by simp) (by simp [OSorted]) (by simp [OSorted])
  have hRlt : ∀ k ∈ sp.states, R k < d1.size := fun k hk => by
    rw [a3, ← hi.size]; exact hi.good.lt (by rw [hi.size]; exact hi.lt k hk)
  have m1 : ∀ p, p ∈ cs.cdConn ↔ ∃ k ∈ sp.states, ∃ t, mCd t k ≠ 0 ∧ p = (R k, R t) := fun p => by rw [a4.2]; simp
  have m2 : ∀ p, p ∈ cs.cConn ↔ ∃ k ∈ sp.states, ∃ t, mC t k ≠ 0 ∧ p = (R k, R t) := fun p => by rw [a5.2]; simp
  have l1 : ∀ p ∈ cs.cdConn, p.1 < d1.size ∧ p.2 < d1.size := by
    intro p hp
    obtain ⟨k, hk, t, ht, rfl⟩ := (m1 p).1 hp
    exact ⟨hRlt k hk, hRlt t (hCd.mem k hk t ht)⟩
  have l2 : ∀ p ∈ cs.cConn, p.1 < d1.size ∧ p.2 < d1.size := by
    intro p hp
    obtain ⟨k, hk, t, ht, rfl⟩ := (m2 p).1 hp
    exact ⟨hRlt k hk, hRlt t (hC.mem k hk t ht)⟩
  have hlt := hi.lt
  have hRR : ∀ x < sp.vecSize, R (R x) = R x := fun x hx => hi.good.RR (by rw [hi.size]; exact hx)
  have hRv : ∀ x < sp.vecSize, R x < sp.vecSize := fun x hx => by
    have := hi.good.lt (x := x) (by rw [hi.size]; exact hx)
    rwa [hi.size] at this
  have hRmem : ∀ k ∈ sp.states, R k ∈ sp.states := fun k hk => hi.closed k hk _ (hRv k (hlt k hk)) (hRR k (hlt k hk))
  -- the relation is only used on the states; elsewhere it is equality
  have hmain : ∀ E : Nat → Nat → Prop, ∃ d2 R2, mergeWhile cs.cdConn cs.cConn (d1.numSets + 1) d1 = some d2 ∧ Merged d1 R d2 R2 ∧
      (OneToOne E cs.cdConn → OneToOne E cs.cConn → (∀ x < d1.size, ∀ y < d1.size, R x = R y → E x y) → ∀ x < d1.size, ∀ y < d1.size, R2 x = R2 y → E x y) ∧
      (∀ p ∈ cs.cdConn, ∀ q ∈ cs.cdConn, p.1 = q.1 → R2 p.2 = R2 q.2) ∧ ∀ p ∈ cs.cConn, ∀ q ∈ cs.cConn, p.1 = q.1 → R2 p.2 = R2 q.2 :=
    fun E => mergeWhile_spec (E := E) (d1.numSets + 1) a2 l1 l2 a4.1 a5.1 (Nat.lt_succ_self _)
  obtain ⟨d2, R2, b1, b2, _, b4, b5⟩ := hmain (fun _ _ => True)
  have hmin : ∀ E : Nat → Nat → Prop, OneToOne E cs.cdConn → OneToOne E cs.cConn → (∀ x < d1.size, ∀ y < d1.size, R x = R y → E x y) →
      ∀ x < d1.size, ∀ y < d1.size, R2 x = R2 y → E x y := by
    intro E e1 e2 e3 x hx y hy e
    obtain ⟨d2', R2', c1, c2, c3, _⟩ := hmain E
    rw [b1, Option.some.injEq] at c1
    subst c1
    refine c3 e1 e2 e3 x hx y hy ?_
    -- both maps describe the same object
    obtain ⟨d, f1, _⟩ := b2.good.findRoot (x := x) (by rw [b2.size]; exact hx)
    obtain ⟨d', f2, _⟩ := c2.good.findRoot (x := x) (by rw [b2.size]; exact hx)
    obtain ⟨d'', f3, _⟩ := b2.good.findRoot (x := y) (by rw [b2.size]; exact hy)
    obtain ⟨d''', f4, _⟩ := c2.good.findRoot (x := y) (by rw [b2.size]; exact hy)
    rw [f1, Option.some.injEq, Prod.mk.injEq] at f2
    rw [f3, Option.some.injEq, Prod.mk.injEq] at f4
    rw [← f2.1, ← f4.1, e]
  have s2 : d2.size = sp.vecSize := b2.size.trans a3
  have hco : ∀ x < sp.vecSize, ∀ y < sp.vecSize, R x = R y → R2 x = R2 y := by
    have := b2.coarser
    rw [a3] at this
    exact this
  have hcl2 : ∀ k ∈ sp.states, ∀ y < sp.vecSize, R2 y = R2 k → y ∈ sp.states := by
    -- the relation "both are states, or both have the same class"
    intro k hk y hy e
    have hE := hmin (fun x y => (x ∈ sp.states ↔ y ∈ sp.states)) ⟨⟨fun _ => Iff.rfl, fun h => h.symm, fun h h' => h.trans h'⟩, fun p hp q hq _ => ?_⟩
      ⟨⟨fun _ => Iff.rfl, fun h => h.symm, fun h h' => h.trans h'⟩, fun p hp q hq _ => ?_⟩ ?_ y (by rw [a3]; exact hy) k (by rw [a3]; exact hlt k hk) e
    · exact hE.2 hk
    · obtain ⟨k1, hk1, t1, ht1, rfl⟩ := (m1 p).1 hp
      obtain ⟨k2, hk2, t2, ht2, rfl⟩ := (m1 q).1 hq
      exact ⟨fun _ => hRmem _ (hCd.mem k2 hk2 t2 ht2), fun _ => hRmem _ (hCd.mem k1 hk1 t1 ht1)⟩
    · obtain ⟨k1, hk1, t1, ht1, rfl⟩ := (m2 p).1 hp
      obtain ⟨k2, hk2, t2, ht2, rfl⟩ := (m2 q).1 hq
      exact ⟨fun _ => hRmem _ (hC.mem k2 hk2 t2 ht2), fun _ => hRmem _ (hC.mem k1 hk1 t1 ht1)⟩
    · intro x hx y hy e
      rw [a3] at hx hy
      exact ⟨fun h => hi.closed x h y hy e.symm, fun h => hi.closed y h x hx e⟩
  obtain ⟨sp', R', c1, c2, c3, c4, c5⟩ := update_spec (states := sp.states) (n := sp.vecSize) b2.good s2 hlt hcl2
  refine ⟨sp', R', cs.cdElems, cs.cElems, ?_, c2, c3, c4, fun x hx y hy e => (c5 x hx y hy).2 (hco x hx y hy e), ?_, ?_, ?_, a6, a7⟩
  · rw [mergeSubspaces, a1]
    simp only [b1, c1]
  · intro k hk k' hk' e t t' ht ht'
    have mt := hCd.mem k hk t ht
    have mt' := hCd.mem k' hk' t' ht'
    rw [c5 t (hlt t mt) t' (hlt t' mt'), hco t (hlt t mt) (R t) (hRv t (hlt t mt)) (hRR t (hlt t mt)).symm,
      hco t' (hlt t' mt') (R t') (hRv t' (hlt t' mt')) (hRR t' (hlt t' mt')).symm]
    exact b4 (R k, R t) ((m1 _).2 ⟨k, hk, t, ht, rfl⟩) (R k', R t') ((m1 _).2 ⟨k', hk', t', ht', rfl⟩) e
  · intro k hk k' hk' e t t' ht ht'
    have mt := hC.mem k hk t ht
    have mt' := hC.mem k' hk' t' ht'
    rw [c5 t (hlt t mt) t' (hlt t' mt'), hco t (hlt t mt) (R t) (hRv t (hlt t mt)) (hRR t (hlt t mt)).symm,
      hco t' (hlt t' mt') (R t') (hRv t' (hlt t' mt')) (hRR t' (hlt t' mt')).symm]
    exact b5 (R k, R t) ((m2 _).2 ⟨k, hk, t, ht, rfl⟩) (R k', R t') ((m2 _).2 ⟨k', hk', t', ht', rfl⟩) e
  · intro E hE hRE e1 e2 x hx y hy e
    rw [c5 x (hlt x hx) y (hlt y hy)] at e
    -- extend the relation to all indices
    have key := hmin (fun x y => (x ∈ sp.states ∧ y ∈ sp.states ∧ E x y) ∨ (x ∉ sp.states ∧ y ∉ sp.states)) ?_ ?_ ?_ x (by rw [a3]; exact hlt x hx) y
      (by rw [a3]; exact hlt y hy) e
    · rcases key with h | h
      · exact h.2.2
      · exact absurd hx h.1
    · refine ⟨⟨fun z => ?_, fun h => ?_, fun h h' => ?_⟩, fun p hp q hq h => ?_⟩
      · by_cases hz : z ∈ sp.states
        · exact Or.inl ⟨hz, hz, hE.refl z⟩
        · exact Or.inr ⟨hz, hz⟩
      · rcases h with h | h
        · exact Or.inl ⟨h.2.1, h.1, hE.symm h.2.2⟩
        · exact Or.inr ⟨h.2, h.1⟩
      · rcases h with h | h <;> rcases h' with h' | h'
        · exact Or.inl ⟨h.1, h'.2.1, hE.trans h.2.2 h'.2.2⟩
        · exact absurd h.2.1 h'.1
        · exact absurd h'.1 h.2
        · exact Or.inr ⟨h.1, h'.2⟩
      · obtain ⟨k1, hk1, t1, ht1, rfl⟩ := (m1 p).1 hp
        obtain ⟨k2, hk2, t2, ht2, rfl⟩ := (m1 q).1 hq
        have mt1 := hCd.mem k1 hk1 t1 ht1
        have mt2 := hCd.mem k2 hk2 t2 ht2
        simp only at h
        have hEk : E k1 k2 := by
          rcases h with h | h
          · exact hE.trans (hRE k1 hk1 (R k1) (hRmem k1 hk1) (hRR k1 (hlt k1 hk1)).symm) (hE.trans h.2.2 (hRE (R k2) (hRmem k2 hk2) k2 hk2 (hRR k2 (hlt k2 hk2))))
          · exact absurd (hRmem k1 hk1) h.1
        refine Or.inl ⟨hRmem t1 mt1, hRmem t2 mt2, ?_⟩
        exact hE.trans (hRE (R t1) (hRmem t1 mt1) t1 mt1 (hRR t1 (hlt t1 mt1))) (hE.trans (e1 k1 hk1 k2 hk2 hEk t1 t2 ht1 ht2)
          (hRE t2 mt2 (R t2) (hRmem t2 mt2) (hRR t2 (hlt t2 mt2)).symm))
    · refine ⟨⟨fun z => ?_, fun h => ?_, fun h h' => ?_⟩, fun p hp q hq h => ?_⟩
      · by_cases hz : z ∈ sp.states
        · exact Or.inl ⟨hz, hz, hE.refl z⟩
        · exact Or.inr ⟨hz, hz⟩
      · rcases h with h | h
        · exact Or.inl ⟨h.2.1, h.1, hE.symm h.2.2⟩
        · exact Or.inr ⟨h.2, h.1⟩
      · rcases h with h | h <;> rcases h' with h' | h'
        · exact Or.inl ⟨h.1, h'.2.1, hE.trans h.2.2 h'.2.2⟩
        · exact absurd h.2.1 h'.1
        · exact absurd h'.1 h.2
        · exact Or.inr ⟨h.1, h'.2⟩
      · obtain ⟨k1, hk1, t1, ht1, rfl⟩ := (m2 p).1 hp
        obtain ⟨k2, hk2, t2, ht2, rfl⟩ := (m2 q).1 hq
        have mt1 := hC.mem k1 hk1 t1 ht1
        have mt2 := hC.mem k2 hk2 t2 ht2
        simp only at h
        have hEk : E k1 k2 := by
          rcases h with h | h
          · exact hE.trans (hRE k1 hk1 (R k1) (hRmem k1 hk1) (hRR k1 (hlt k1 hk1)).symm) (hE.trans h.2.2 (hRE (R k2) (hRmem k2 hk2) k2 hk2 (hRR k2 (hlt k2 hk2))))
          · exact absurd (hRmem k1 hk1) h.1
        refine Or.inl ⟨hRmem t1 mt1, hRmem t2 mt2, ?_⟩
        exact hE.trans (hRE (R t1) (hRmem t1 mt1) t1 mt1 (hRR t1 (hlt t1 mt1))) (hE.trans (e2 k1 hk1 k2 hk2 hEk t1 t2 ht1 ht2)
          (hRE t2 mt2 (R t2) (hRmem t2 mt2) (hRR t2 (hlt t2 mt2)).symm))
    · intro x hx y hy e
      rw [a3] at hx hy
      by_cases h : x ∈ sp.states
      · have h' := hi.closed x h y hy e.symm
        exact Or.inl ⟨h, h', hRE x h y h' e⟩
      · exact Or.inr ⟨h, fun h' => h (hi.closed y h' x hx e)⟩

end SpacePartition
end LC
