import Verif.Proof.OMap
import Verif.Proof.StateVec
import Verif.Proof.DsHistory
/- Partitions: the loops of `space_partition`, for an operator given by its matrix elements. -/
set_option linter.unusedSectionVars false
namespace LC
open DisjointSets
namespace SpacePartition
variable {H S : Type _} [CommRing S] [DecidableEq S] [Algebra ℝ S] [HashImpl H Nat S]

/-- The vector holds one amplitude, 1. -/
structure Single (u : SparseSV H S) (k : Nat) : Prop where
  nodup : u.data.Nodup
  find : ∀ n, u.data.find? n = if n = k then some 1 else none

/-- The action of an operator on basis states. -/
structure OpActs (H : Type _) [HashImpl H Nat S] (op : LOperator S) (states : List Nat) (m : Nat → Nat → S) : Prop where
  act : ∀ k ∈ states, ∀ u v : SparseSV H S, Single u k → v.data.Nodup →
    ∃ v' : SparseSV H S, op.applyTo u v = .ok v' ∧ v'.data.Nodup ∧ ∀ t a, (t, a) ∈ v'.foreach ↔ a = m t k ∧ a ≠ 0
  mem : ∀ k ∈ states, ∀ t, m t k ≠ 0 → t ∈ states

theorem single_set {u : SparseSV H S} (h : u.data.items = []) (k : Nat) : Single (u.set k 1) k := by
  have hn : u.data.Nodup := by unfold UMap.Nodup; rw [h]; simp
  obtain ⟨h1, h2⟩ := UMap.set_spec hn k (1 : S)
  refine ⟨h1, fun n => ?_⟩
  show (u.data.set k 1).find? n = _
  rw [h2]
  split
  · rfl
  · simp [UMap.find?, h]

theorem nodup_make (n : Nat) : (SparseSV.make n : SparseSV H S).data.Nodup := UMap.nodup_empty

/-! ### Constructors -/

theorem uniteAll_spec {k : Nat} (l : List (Nat × S)) {ds : DisjointSets} {us : List (Nat × Nat)} {R : Nat → Nat} (hi : DsInv ds us R) (hk : k < ds.size)
    (hl : ∀ p ∈ l, p.1 < ds.size) : ∃ ds' us' R', uniteAll k l ds = some ds' ∧ DsInv ds' us' R' ∧ ds'.size = ds.size ∧
      ∀ p, p ∈ us' ↔ p ∈ us ∨ p.1 = k ∧ p.2 ∈ l.map Prod.fst := by
  induction l generalizing ds us R with
  | nil => exact ⟨ds, us, R, rfl, hi, rfl, by simp⟩
  | cons q l ih =>
    obtain ⟨t, a⟩ := q
    have ht := hl (t, a) List.mem_cons_self
    obtain ⟨r, d1, R1, a1, a2, a3, a4, a5⟩ := hi.good.setUnion hk ht
    have hi1 := hi.unite hk ht a2 a3 a4 a5
    obtain ⟨d2, us2, R2, b1, b2, b3, b4⟩ := ih hi1 (by rw [a3]; exact hk) (fun p hp => by rw [a3]; exact hl p (List.mem_cons_of_mem _ hp))
    refine ⟨d2, us2, R2, ?_, b2, b3.trans a3, fun p => ?_⟩
    · rw [uniteAll, a1]; exact b1
    · rw [b4, List.mem_cons, List.map_cons, List.mem_cons, Prod.ext_iff]
      simp only
      tauto

theorem uniteAllMe_spec {k : Nat} (l : List (Nat × S)) (hn : (l.map Prod.fst).Nodup) {ds : DisjointSets} {me : MatElems S} (hs : OSorted me)
    {ds' : DisjointSets} (h : uniteAll k l ds = some ds') : ∃ me', uniteAllMe k l ds me = some (ds', me') ∧ OSorted me' ∧
      ∀ t j a, omapFind (toLex (t, j)) me' = some a ↔ (j = k ∧ (t, a) ∈ l) ∨ (¬ (j = k ∧ t ∈ l.map Prod.fst) ∧ omapFind (toLex (t, j)) me = some a) := by
  induction l generalizing ds me with
  | nil =>
    cases h
    exact ⟨me, rfl, hs, fun t j a => by simp⟩
  | cons q l ih =>
    obtain ⟨t0, a0⟩ := q
    rw [uniteAll] at h
    cases hc : ds.setUnion k t0 with
    | none => rw [hc] at h; cases h
    | some r =>
      obtain ⟨x, d1⟩ := r
      rw [hc] at h
      rw [List.map_cons, List.nodup_cons] at hn
      obtain ⟨s1, _, s2⟩ := omapFind_assign hs (toLex (t0, k)) a0
      obtain ⟨me', b1, b2, b3⟩ := ih hn.2 s1 h
      refine ⟨me', ?_, b2, fun t j a => ?_⟩
      · rw [uniteAllMe, hc]; exact b1
      · rw [b3, s2, List.map_cons, List.mem_cons, List.mem_cons, Prod.mk.injEq]
        simp only
        by_cases hj : j = k
        · subst hj
          by_cases ht : t = t0
          · subst ht
            have h1 : ∀ a, (t, a) ∉ l := fun a hh => hn.1 (List.mem_map.2 ⟨(t, a), hh, rfl⟩)
            have h2 := hn.1
            have h3 := h1 a
            rw [if_pos rfl, Option.some.injEq]
            simp only at h2
            have : a0 = a ↔ a = a0 := eq_comm
            tauto
          · have hne : toLex (t, j) ≠ toLex (t0, j) := fun hh => ht (Prod.mk.inj (toLex.injective hh)).1
            rw [if_neg hne]
            tauto
        · have hne : toLex (t, j) ≠ toLex (t0, k) := fun hh => hj (Prod.mk.inj (toLex.injective hh)).2
          rw [if_neg hne]
          tauto

section
variable {op : LOperator S} {states : List Nat} {m : Nat → Nat → S} {n : Nat}

theorem makeMeLoop_spec (hop : OpActs H op states m) (hlt : ∀ k ∈ states, k < n) (l : List Nat) (hl : ∀ k ∈ l, k ∈ states) {u v : SparseSV H S}
    (hu : u.data.items = []) (hv : v.data.Nodup) {ds : DisjointSets} {us : List (Nat × Nat)} {R : Nat → Nat} (hi : DsInv ds us R) (hn : ds.size = n)
    {me : MatElems S} (hme : OSorted me) :
    ∃ ds' us' R' me', makeLoop op l u v ds = .ok ds' ∧ makeMeLoop op l u v ds me = .ok (ds', me') ∧ DsInv ds' us' R' ∧ ds'.size = n ∧
      (∀ p, p ∈ us' ↔ p ∈ us ∨ p.1 ∈ l ∧ m p.2 p.1 ≠ 0) ∧ OSorted me' ∧
      ∀ t j, omapFind (toLex (t, j)) me' = if j ∈ l ∧ m t j ≠ 0 then some (m t j) else omapFind (toLex (t, j)) me := by
  induction l generalizing u v ds us R me with
  | nil => exact ⟨ds, us, R, me, rfl, rfl, hi, hn, by simp, hme, by simp⟩
  | cons k l ih =>
    have hk := hl k List.mem_cons_self
    obtain ⟨v1, a1, a2, a3⟩ := hop.act k hk _ v (single_set hu k) hv
    have hmem : ∀ t, t ∈ v1.foreach.map Prod.fst ↔ m t k ≠ 0 := by
      intro t
      rw [List.mem_map]
      constructor
      · rintro ⟨⟨t', a⟩, h1, rfl⟩
        obtain ⟨h2, h3⟩ := (a3 t' a).1 h1
        rw [← h2]; exact h3
      · intro h
        exact ⟨(t, m t k), (a3 _ _).2 ⟨rfl, h⟩, rfl⟩
    have hlt1 : ∀ p ∈ v1.foreach, p.1 < ds.size := by
      intro p hp
      rw [hn]
      exact hlt _ (hop.mem k hk _ ((hmem p.1).1 (List.mem_map_of_mem hp)))
    obtain ⟨d1, us1, R1, b1, b2, b3, b4⟩ := uniteAll_spec (k := k) v1.foreach hi (by rw [hn]; exact hlt k hk) hlt1
    obtain ⟨me1, c1, c2, c3⟩ := uniteAllMe_spec v1.foreach a2 hme b1
    obtain ⟨d2, us2, R2, me2, e1, e2, e3, e4, e5, e6, e7⟩ := ih (fun j hj => hl j (List.mem_cons_of_mem _ hj)) (u := (u.set k 1).setZeros) (v := v1)
      rfl a2 b2 (b3.trans hn) c2
    refine ⟨d2, us2, R2, me2, ?_, ?_, e3, e4, fun p => ?_, e6, fun t j => ?_⟩
    · rw [makeLoop]; simp only [a1, b1]; exact e1
    · rw [makeMeLoop]; simp only [a1, c1]; exact e2
    · rw [e5, b4, hmem, List.mem_cons]
      constructor
      · rintro ((h | ⟨h1, h2⟩) | ⟨h1, h2⟩)
        · exact Or.inl h
        · exact Or.inr ⟨Or.inl h1, h1 ▸ h2⟩
        · exact Or.inr ⟨Or.inr h1, h2⟩
      · rintro (h | ⟨h1 | h1, h2⟩)
        · exact Or.inl (Or.inl h)
        · exact Or.inl (Or.inr ⟨h1, h1 ▸ h2⟩)
        · exact Or.inr ⟨h1, h2⟩
    · rw [e7]
      by_cases hc : j ∈ l ∧ m t j ≠ 0
      · rw [if_pos hc, if_pos ⟨List.mem_cons_of_mem _ hc.1, hc.2⟩]
      · rw [if_neg hc]
        apply Option.ext
        intro a
        rw [c3, hmem]
        by_cases hj : j = k
        · subst hj
          by_cases h0 : m t j = 0
          · rw [if_neg (fun h => h.2 h0), a3]
            have : ¬ (a = m t j ∧ a ≠ 0) := fun h => h.2 (h.1.trans h0)
            tauto
          · rw [if_pos ⟨List.mem_cons_self, h0⟩, a3, Option.some.injEq]
            constructor
            · rintro (⟨_, h1, _⟩ | ⟨h1, _⟩)
              · exact h1.symm
              · exact absurd ⟨rfl, h0⟩ h1
            · rintro rfl; exact Or.inl ⟨rfl, rfl, h0⟩
        · rw [if_neg]
          · tauto
          · rintro ⟨h1, h2⟩
            rcases List.mem_cons.1 h1 with h1 | h1
            · exact hj h1
            · exact hc ⟨h1, h2⟩

end

/-! ### Numbering of the subspaces -/

/-- Distinct values of `R` on a list in order of their first appearance. -/
def firsts (R : Nat → Nat) (l : List Nat) (acc : List Nat) : List Nat := l.foldl (fun acc n => if R n ∈ acc then acc else acc ++ [R n]) acc

theorem firsts_nodup {R : Nat → Nat} (l acc : List Nat) (h : acc.Nodup) : (firsts R l acc).Nodup := by
  induction l generalizing acc with
  | nil => exact h
  | cons n l ih =>
    show (firsts R l (if R n ∈ acc then acc else acc ++ [R n])).Nodup
    apply ih
    split
    · exact h
    · next hn => exact List.nodup_append.2 ⟨h, by simp, fun a ha b hb e => hn (by rw [List.mem_singleton] at hb; rw [← hb, ← e]; exact ha)⟩

theorem mem_firsts {R : Nat → Nat} (l acc : List Nat) (r : Nat) : r ∈ firsts R l acc ↔ r ∈ acc ∨ ∃ n ∈ l, R n = r := by
  induction l generalizing acc with
  | nil => simp [firsts]
  | cons n l ih =>
    show r ∈ firsts R l (if R n ∈ acc then acc else acc ++ [R n]) ↔ _
    rw [ih]
    simp only [List.mem_cons, exists_eq_or_imp]
    split
    · next h =>
      constructor
      · tauto
      · rintro (h1 | h1 | h1)
        · exact Or.inl h1
        · exact Or.inl (h1 ▸ h)
        · exact Or.inr h1
    · rw [List.mem_append, List.mem_singleton]
      constructor
      · rintro ((h1 | h1) | h1)
        · exact Or.inl h1
        · exact Or.inr (Or.inl h1.symm)
        · exact Or.inr (Or.inr h1)
      · rintro (h1 | h1 | h1)
        · exact Or.inl (Or.inl h1)
        · exact Or.inl (Or.inr h1.symm)
        · exact Or.inr h1

/-- The map numbers the members of a list. -/
structure Numbering (m : List (Nat × Nat)) (d : List Nat) : Prop where
  sorted : OSorted m
  length : m.length = d.length
  find : ∀ r, omapFind r m = d.idxOf? r

theorem rootLoop_spec (l : List Nat) {ds : DisjointSets} {R : Nat → Nat} (hg : Good ds R) (hl : ∀ k ∈ l, k < ds.size) {m : List (Nat × Nat)} {d : List Nat}
    (hm : Numbering m d) : ∃ ds' m', rootLoop l ds m = .ok (ds', m') ∧ Good ds' R ∧ ds'.size = ds.size ∧ Numbering m' (firsts R l d) := by
  induction l generalizing ds m d with
  | nil => exact ⟨ds, m, rfl, hg, rfl, hm⟩
  | cons k l ih =>
    obtain ⟨d1, a1, a2, a3⟩ := hg.findRoot (hl k List.mem_cons_self)
    obtain ⟨s1, _, s2, s3⟩ := omapFind_emplace hm.sorted (R k) m.length
    have hm' : Numbering (omapEmplace (R k) m.length m) (if R k ∈ d then d else d ++ [R k]) := by
      have hfind := hm.find (R k)
      by_cases hmem : R k ∈ d
      · rw [if_pos hmem]
        have hsome : ∃ i, d.idxOf? (R k) = some i := by
          rcases h : d.idxOf? (R k) with _ | i
          · exact absurd hmem (by simpa using h)
          · exact ⟨i, rfl⟩
        obtain ⟨i, hi⟩ := hsome
        rw [hi] at hfind
        refine ⟨s1, by rw [s3, hfind]; exact hm.length, fun r => ?_⟩
        rw [s2]
        split
        · next h => rw [hfind, h, hi]; rfl
        · exact hm.find r
      · rw [if_neg hmem]
        have hnone : d.idxOf? (R k) = none := by simpa using hmem
        rw [hnone] at hfind
        refine ⟨s1, by rw [s3, hfind, List.length_append, hm.length]; rfl, fun r => ?_⟩
        rw [s2]
        split
        · next h =>
          rw [hfind, h, hm.length]
          simp [List.idxOf?, List.findIdx?_append]
          rw [List.findIdx?_eq_none_iff.2]
          · simp
          · intro x hx
            simp only [beq_eq_false_iff_ne, ne_eq]
            rintro rfl; exact hmem hx
        · next h =>
          rw [hm.find]
          simp only [List.idxOf?, List.findIdx?_append]
          have : List.findIdx? (fun x => x == r) [R k] = none := by
            simp only [List.findIdx?_eq_none_iff, List.mem_singleton, beq_eq_false_iff_ne, ne_eq, forall_eq]
            exact fun hh => h hh.symm
          rw [this]; simp
    obtain ⟨d2, m2, b1, b2, b3, b4⟩ := ih a2 (fun j hj => by rw [a3.1]; exact hl j (List.mem_cons_of_mem _ hj)) hm'
    refine ⟨d2, m2, ?_, b2, b3.trans a3.1, b4⟩
    rw [rootLoop, a1]; exact b1

/-- What is true of every partition object: `R` gives the representatives. -/
structure Inv (sp : SpacePartition) (R : Nat → Nat) : Prop where
  good : Good sp.ds R
  size : sp.ds.size = sp.vecSize
  lt : ∀ k ∈ sp.states, k < sp.vecSize
  closed : ∀ k ∈ sp.states, ∀ y < sp.vecSize, R y = R k → y ∈ sp.states
  numbering : Numbering sp.rootTo (firsts R sp.states [])

theorem update_spec {states : List Nat} {n : Nat} {ds : DisjointSets} {R : Nat → Nat} (hg : Good ds R) (hsz : ds.size = n)
    (hlt : ∀ k ∈ states, k < n) (hcl : ∀ k ∈ states, ∀ y < n, R y = R k → y ∈ states) :
    ∃ sp R', update states n ds = .ok sp ∧ Inv sp R' ∧ sp.states = states ∧ sp.vecSize = n ∧
      ∀ x < n, ∀ y < n, R' x = R' y ↔ R x = R y := by
  obtain ⟨d1, a1, a2, a3, _⟩ := hg.compressSets
  obtain ⟨d2, R', b1, b2, b3, b4⟩ := a2.normalizeSets
  have s1 : d1.size = n := a3.1.trans hsz
  have s2 : d2.size = n := b3.1.trans s1
  obtain ⟨d3, m, c1, c2, c3, c4⟩ := rootLoop_spec states b2 (fun k hk => by rw [s2]; exact hlt k hk) (m := []) (d := [])
    ⟨by simp [OSorted], rfl, fun r => by simp [omapFind, List.idxOf?]⟩
  rw [s1] at b4
  refine ⟨⟨states, n, d3, m⟩, R', ?_, ⟨c2, c3.trans s2, hlt, fun k hk y hy e => hcl k hk y hy ((b4 y hy k (hlt k hk)).1 e), c4⟩, rfl, rfl, b4⟩
  rw [update, a1]
  simp only [b1, c1]

namespace Inv
variable {sp : SpacePartition} {R : Nat → Nat}

theorem withDs (hi : Inv sp R) {ds : DisjointSets} (hg : Good ds R) (hs : ds.size = sp.ds.size) : Inv { sp with ds := ds } R :=
  ⟨hg, hs.trans hi.size, hi.lt, hi.closed, hi.numbering⟩

theorem idx (hi : Inv sp R) {k : Nat} (hk : k ∈ sp.states) : omapFind (R k) sp.rootTo = some ((firsts R sp.states []).idxOf (R k)) := by
  rw [hi.numbering.find]
  have hm : R k ∈ firsts R sp.states [] := (mem_firsts _ _ _).2 (Or.inr ⟨k, hk, rfl⟩)
  rw [List.idxOf?, List.idxOf, List.findIdx?_eq_some_iff_findIdx_eq]
  exact ⟨List.findIdx_lt_length_of_exists ⟨R k, hm, by simp⟩, rfl⟩

theorem subspaceOf (hi : Inv sp R) {k : Nat} (hk : k ∈ sp.states) :
    ∃ ds, sp.subspaceOf k = .ok ((firsts R sp.states []).idxOf (R k), { sp with ds := ds }) ∧ Inv { sp with ds := ds } R := by
  obtain ⟨d, a1, a2, a3⟩ := hi.good.findRoot (x := k) (by rw [hi.size]; exact hi.lt k hk)
  refine ⟨d, ?_, hi.withDs a2 a3.1⟩
  rw [SpacePartition.subspaceOf, a1]
  simp only [hi.idx hk]

theorem subspaceOf_error (hi : Inv sp R) {k : Nat} (hk : k ∉ sp.states) (hlt : k < sp.vecSize) : sp.subspaceOf k = .error .outOfRange := by
  obtain ⟨d, a1, a2, a3⟩ := hi.good.findRoot (x := k) (by rw [hi.size]; exact hlt)
  rw [SpacePartition.subspaceOf, a1]
  simp only
  have : omapFind (R k) sp.rootTo = none := by
    rw [hi.numbering.find]
    have : R k ∉ firsts R sp.states [] := by
      intro h
      rw [mem_firsts] at h
      rcases h with h | ⟨n, hn, h⟩
      · cases h
      · exact hk (hi.closed n hn k hlt h.symm)
    simpa using this
  rw [this]

theorem idx_inj (_ : Inv sp R) {k k' : Nat} (hk : k ∈ sp.states) :
    (firsts R sp.states []).idxOf (R k) = (firsts R sp.states []).idxOf (R k') ↔ R k = R k' := by
  have hm : R k ∈ firsts R sp.states [] := (mem_firsts _ _ _).2 (Or.inr ⟨k, hk, rfl⟩)
  exact List.idxOf_inj hm

theorem foreachLoop (l : List Nat) (hi : Inv sp R) (hl : ∀ k ∈ l, k ∈ sp.states) :
    ∃ ds, SpacePartition.foreachLoop l sp = .ok (l.map fun k => (k, (firsts R sp.states []).idxOf (R k)), { sp with ds := ds }) ∧ Inv { sp with ds := ds } R := by
  induction l generalizing sp with
  | nil => exact ⟨sp.ds, rfl, hi⟩
  | cons k l ih =>
    obtain ⟨d1, a1, a2⟩ := hi.subspaceOf (hl k List.mem_cons_self)
    obtain ⟨d2, b1, b2⟩ := ih a2 (fun j hj => hl j (List.mem_cons_of_mem _ hj))
    refine ⟨d2, ?_, b2⟩
    rw [SpacePartition.foreachLoop, a1]
    simp only [b1]
    rfl

end Inv
end SpacePartition
end LC
