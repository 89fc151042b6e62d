import Verif.Proof.DsNormalize
import Mathlib.Tactic.IntervalCases
/-
C53, C54: disjoint sets.
-/
namespace LC
open DisjointSets

/-! ### C53 -/

/-- **C53** (find_root). In every object that a sequence of calls can produce, `find_root(x)` ends for every element and returns a member of
the class of `x`, and two elements have the same representative exactly if the performed unions connect them. -/
theorem C53_find_root {ds : DisjointSets} {us : List (Nat × Nat)} (h : DsHistory ds us) {x y : Nat} (hx : x < ds.size) (hy : y < ds.size) :
    ∃ r d r' d', ds.findRoot x = some (r, d) ∧ ds.findRoot y = some (r', d') ∧ r < ds.size ∧ Linked us x r ∧ (r = r' ↔ Linked us x y) := by
  obtain ⟨R, hi⟩ := h.inv
  obtain ⟨d, a, _⟩ := hi.good.findRoot hx
  obtain ⟨d', b, _⟩ := hi.good.findRoot hy
  exact ⟨_, d, _, d', a, b, hi.good.lt hx, hi.linked_R hx, hi.linked x hx y hy⟩

/-- **C53** (in_same_set). `in_same_set(x, y)` answers whether the performed unions connect `x` and `y`. -/
theorem C53_in_same_set {ds : DisjointSets} {us : List (Nat × Nat)} (h : DsHistory ds us) {x y : Nat} (hx : x < ds.size) (hy : y < ds.size) :
    ∃ b d, ds.inSameSet x y = some (b, d) ∧ (b = true ↔ Linked us x y) := by
  obtain ⟨R, hi⟩ := h.inv
  obtain ⟨d, a, _⟩ := hi.good.inSameSet hx hy
  exact ⟨_, d, a, by rw [beq_iff_eq]; exact hi.linked x hx y hy⟩

/-- **C53** (n_sets). `n_sets()` is the number of classes. -/
theorem C53_n_sets {ds : DisjointSets} {us : List (Nat × Nat)} (h : DsHistory ds us) : NumClasses us ds.size ds.numSets := by
  obtain ⟨R, hi⟩ := h.inv
  exact hi.numClasses

/-- A set with one member in each class has a definite number of elements, so `n_sets()` is determined by the unions. -/
theorem C53_n_sets_unique {us : List (Nat × Nat)} {n k k' : Nat} (h : NumClasses us n k) (h' : NumClasses us n k') : k = k' := by
  have key : ∀ {s t : Finset Nat}, (∀ r ∈ s, r < n) → (∀ x < n, ∃! r, r ∈ s ∧ Linked us x r) → (∀ x < n, ∃! r, r ∈ t ∧ Linked us x r) →
      s.card ≤ t.card := by
    intro s t h1 h2 h3
    choose f hf _ using fun x (hx : x < n) => h3 x hx
    refine Finset.card_le_card_of_injOn (fun x => if hx : x < n then f x hx else 0) (fun x hx => ?_) (fun x hx y hy e => ?_)
    · have := h1 x hx
      simp only [dif_pos this]
      exact (hf x this).1
    · have hx' := h1 x hx
      have hy' := h1 y hy
      simp only [dif_pos hx', dif_pos hy'] at e
      have hl : Linked us x y := by
        have a := (hf x hx').2
        have b := (hf y hy').2
        rw [e] at a
        exact a.trans b.symm
      obtain ⟨r, _, hr⟩ := h2 x hx'
      rw [hr x ⟨hx, Linked.refl x⟩, hr y ⟨hy, hl⟩]
  obtain ⟨s, rfl, h1, h2⟩ := h
  obtain ⟨t, rfl, h3, h4⟩ := h'
  exact le_antisymm (key h1 h2 h4) (key h3 h4 h2)

/-- **C53** (totality). With valid arguments no operation fails: `set_union` returns the new representative of both elements, `root_union` of two
different representatives returns one of them, `compress_sets` and `normalize_sets` end, and `make_set` returns the number of the new element. The united pairs are the
documented ones by definition of `DsHistory`; the sizes only change by `make_set` and `make_sets`. -/
theorem C53_total {ds : DisjointSets} {us : List (Nat × Nat)} (h : DsHistory ds us) :
    (∀ x < ds.size, ∀ y < ds.size, ∃ r d d', ds.setUnion x y = some (r, d) ∧ d.size = ds.size ∧ d.findRoot x = some (r, d')) ∧
    (∀ x < ds.size, ∀ y < ds.size, ds.IsRepresentative x → ds.IsRepresentative y → x ≠ y →
      ∃ r d d', ds.rootUnion x y = some (r, d) ∧ (r = x ∨ r = y) ∧ d.size = ds.size ∧ d.findRoot x = some (r, d') ∧ d.numSets + 1 = ds.numSets) ∧
    (∃ d, ds.compressSets = some d ∧ d.size = ds.size) ∧
    (∃ d, ds.normalizeSets = some d ∧ d.size = ds.size) ∧
    (ds.makeSet.2 = ds.size ∧ ds.makeSet.1.size = ds.size + 1) ∧
    ∀ n, (ds.makeSets n).size = ds.size + n := by
  obtain ⟨R, hi⟩ := h.inv
  refine ⟨?_, ?_, ?_, ?_, ?_, ?_⟩
  · intro x hx y hy
    obtain ⟨r, d, R', a, b, c, e, f⟩ := hi.good.setUnion hx hy
    obtain ⟨d', g, _⟩ := b.findRoot (x := x) (by rw [c]; exact hx)
    rw [f x, if_pos (Or.inl rfl)] at g
    exact ⟨r, d, d', a, c, g⟩
  · intro x hx y hy rx ry hne
    rw [hi.representative hx] at rx
    rw [hi.representative hy] at ry
    obtain ⟨r, d, R', a, b, c, e, f⟩ := hi.good.rootUnion hx hy rx ry hne
    obtain ⟨d', g, _⟩ := b.findRoot (x := x) (by rw [c]; exact hx)
    rw [f x, if_pos (Or.inl rx)] at g
    refine ⟨r, d, d', a, e, c, g, ?_⟩
    have hpos : 0 < ds.nSets := by
      rw [hi.good.count]
      exact Finset.card_pos.2 ⟨x, Finset.mem_filter.2 ⟨Finset.mem_range.2 hx, rx⟩⟩
    unfold DisjointSets.rootUnion at a
    split at a
    · split at a
      · split at a
        · simp only [Option.some.injEq, Prod.mk.injEq] at a
          rw [← a.2]; simp only [numSets]; omega
        · split at a
          · simp only [Option.some.injEq, Prod.mk.injEq] at a
            rw [← a.2]; simp only [numSets]; omega
          · simp only [Option.some.injEq, Prod.mk.injEq] at a
            rw [← a.2]; simp only [numSets]; omega
      · simp at a
    · simp at a
  · obtain ⟨d, a, _, c, _⟩ := hi.good.compressSets
    exact ⟨d, a, c.1⟩
  · obtain ⟨d, R', a, _, c, _⟩ := hi.good.normalizeSets
    exact ⟨d, a, c.1⟩
  · exact ⟨rfl, by simp [DisjointSets.makeSet, DisjointSets.size]⟩
  · intro n
    obtain ⟨R', _, b, _⟩ := hi.good.makeSets n
    exact b

/-- Unions 0-2, 1-3, then 2-3 of five elements, a new element, compression and normalisation. -/
theorem C53_example : ∃ ds, DsHistory ds [(2, 3), (1, 3), (0, 2)] ∧ ds.size = 6 ∧ ds.numSets = 3 ∧ (ds.inSameSet 0 1).map Prod.fst = some true ∧
    (ds.inSameSet 0 4).map Prod.fst = some false := by
  have h0 := DsHistory.make 5
  have h1 : DsHistory _ _ := h0.setUnion (x := 0) (y := 2) (by decide) (by decide) rfl
  have h2 : DsHistory _ _ := h1.setUnion (x := 1) (y := 3) (by decide) (by decide) rfl
  have h3 : DsHistory _ _ := h2.setUnion (x := 2) (y := 3) (by decide) (by decide) rfl
  have h4 : DsHistory _ _ := h3.makeSet
  have h5 : DsHistory _ _ := h4.compressSets rfl
  have h6 : DsHistory _ _ := h5.normalizeSets rfl
  exact ⟨_, h6, by decide, by decide, by decide, by decide⟩

/-! ### C54 -/

/-- **C54** (compress_sets, partial: the announced property, "every element's parent is its representative", is false, see
`C54_F3`). After `compress_sets()` the parent of the parent of an element is its representative, and no representative has changed. -/
theorem C54_compress_partial {ds : DisjointSets} {us : List (Nat × Nat)} (h : DsHistory ds us) :
    ∃ ds', ds.compressSets = some ds' ∧ ds'.size = ds.size ∧ ∀ x < ds.size, ∃ r d d', ds.findRoot x = some (r, d) ∧ ds'.findRoot x = some (r, d') ∧
      ds'.parent (ds'.parent x) = r := by
  obtain ⟨R, hi⟩ := h.inv
  obtain ⟨d, a, b, c, e⟩ := hi.good.compressSets
  refine ⟨d, a, c.1, fun x hx => ?_⟩
  obtain ⟨d1, f, _⟩ := hi.good.findRoot hx
  obtain ⟨d2, g, _⟩ := b.findRoot (x := x) (by rw [c.1]; exact hx)
  exact ⟨_, d1, d2, f, g, e x hx⟩

/-- **C54** (normalize_sets, partial: the announced property holds for objects in which every parent is a representative; `compress_sets()` does not
establish this, see `C54_F3`). Then `normalize_sets()` makes the smallest member of each set its representative. -/
theorem C54_normalize_partial {ds : DisjointSets} {us : List (Nat × Nat)} (h : DsHistory ds us)
    (hf : ∀ x < ds.size, ∃ d, ds.findRoot x = some (ds.parent x, d)) :
    ∃ ds', ds.normalizeSets = some ds' ∧ ∀ x < ds.size, ∃ r d, ds'.findRoot x = some (r, d) ∧ r < ds.size ∧ Linked us x r ∧
      ∀ y < ds.size, Linked us x y → r ≤ y := by
  obtain ⟨R, hi⟩ := h.inv
  obtain ⟨ds', R', a, b, c, e⟩ := hi.good.normalizeSets
  have hf' : ∀ x < ds.size, par ds.parents x = R x := by
    intro x hx
    obtain ⟨d, h1⟩ := hf x hx
    obtain ⟨d2, h2, _⟩ := hi.good.findRoot hx
    rw [h1, Option.some.injEq, Prod.mk.injEq] at h2
    exact h2.1
  refine ⟨ds', a, fun x hx => ?_⟩
  obtain ⟨r, d, h1, h2, h3, h4⟩ := hi.good.normalizeSets_flat hf' a x hx
  exact ⟨r, d, h1, h2, (hi.linked x hx r h2).1 h3.symm, fun y hy hl => h4 y hy ((hi.linked x hx y hy).2 hl).symm⟩

/-- **C54** (a sufficient condition in terms of calls): if `find_root` is called for every element and then `normalize_sets()`, the
smallest member of each set is its representative. -/
theorem C54_find_all_normalize_partial {ds : DisjointSets} {us : List (Nat × Nat)} (h : DsHistory ds us) :
    ∃ ds1 ds2, findAll (List.range ds.size) ds = some ds1 ∧ ds1.normalizeSets = some ds2 ∧
      ∀ x < ds.size, ∃ r d, ds2.findRoot x = some (r, d) ∧ r < ds.size ∧ Linked us x r ∧ ∀ y < ds.size, Linked us x y → r ≤ y := by
  obtain ⟨R, hi⟩ := h.inv
  obtain ⟨d1, a, b, c, e, _⟩ := hi.good.findAll (List.range ds.size) fun x hx => List.mem_range.1 hx
  obtain ⟨d2, R', a2, _⟩ := b.normalizeSets
  refine ⟨d1, d2, a, a2, fun x hx => ?_⟩
  obtain ⟨r, d, h1, h2, h3, h4⟩ := b.normalizeSets_flat (fun y hy => e y (List.mem_range.2 (by rw [c.1] at hy; exact hy))) a2 x (by rw [c.1]; exact hx)
  rw [c.1] at h2 h4
  exact ⟨r, d, h1, h2, (hi.linked x hx r h2).1 h3.symm, fun y hy hl => h4 y hy ((hi.linked x hx y hy).2 hl).symm⟩

/-- **F3**: after the unions 1-0, 2-3, 2-1 of four elements, `compress_sets()` leaves 0 with parent 1 although its representative is 2, and
`normalize_sets()` then makes 1 the representative of the set {0, 1, 2, 3}. A second call of `compress_sets()` changes nothing. -/
theorem C54_F3 : ∃ ds ds1 ds2 ds3, DsHistory ds [(2, 1), (2, 3), (1, 0)] ∧ ds.compressSets = some ds1 ∧ ds1.parent 0 = 1 ∧
    (ds1.findRoot 0).map Prod.fst = some 2 ∧ ds1.compressSets = some ds2 ∧ ds2 = ds1 ∧ ds1.normalizeSets = some ds3 ∧
    (ds3.findRoot 0).map Prod.fst = some 1 := by
  have h0 := DsHistory.make 4
  have h1 : DsHistory _ _ := h0.setUnion (x := 1) (y := 0) (by decide) (by decide) rfl
  have h2 : DsHistory _ _ := h1.setUnion (x := 2) (y := 3) (by decide) (by decide) rfl
  have h3 : DsHistory _ _ := h2.setUnion (x := 2) (y := 1) (by decide) (by decide) rfl
  exact ⟨_, _, _, _, h3, rfl, by decide, by decide, rfl, by decide, rfl, by decide⟩

/-- The hypothesis of `C54_normalize_partial` is met after the unions 2-0, 3-1 of four elements. -/
example : ∃ ds, DsHistory ds [(3, 1), (2, 0)] ∧ ds.parent 0 = 2 ∧ ∀ x < ds.size, ∃ d, ds.findRoot x = some (ds.parent x, d) := by
  have h0 := DsHistory.make 4
  have h1 : DsHistory _ _ := h0.setUnion (x := 2) (y := 0) (by decide) (by decide) rfl
  have h2 : DsHistory _ _ := h1.setUnion (x := 3) (y := 1) (by decide) (by decide) rfl
  refine ⟨_, h2, by decide, fun x hx => ?_⟩
  have : x < 4 := hx
  interval_cases x <;> exact ⟨_, rfl⟩

end LC
