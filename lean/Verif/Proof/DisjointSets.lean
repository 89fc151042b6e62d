import Verif.Model.DisjointSets
import Mathlib.Data.Finset.Card
import Mathlib.Data.Finset.Range
import Mathlib.Logic.Relation
/-
The forest of a `disjoint_sets` object and its representatives.
-/
set_option linter.unusedSimpArgs false
set_option linter.unusedVariables false
namespace LC
namespace DisjointSets

/-- The parent of an element. -/
def par (ps : List Nat) (x : Nat) : Nat := ps.getD x x

theorem par_get {ps : List Nat} {x : Nat} (h : x < ps.length) : ps[x]? = some (par ps x) := by
  rw [par, List.getD_eq_getElem?_getD, List.getElem?_eq_getElem h]; rfl

theorem par_set {ps : List Nat} {x : Nat} (h : x < ps.length) (v y : Nat) : par (ps.set x v) y = if y = x then v else par ps y := by
  unfold par
  rw [List.getD_eq_getElem?_getD, List.getD_eq_getElem?_getD, List.getElem?_set]
  by_cases hy : y = x
  · subst hy; simp [h]
  · rw [if_neg (Ne.symm hy), if_neg hy]

/-- `ps` is a forest, `R` maps every element to the root of its tree, `h` increases away from the roots. -/
structure Rep (ps : List Nat) (R h : Nat → Nat) : Prop where
  lt : ∀ x < ps.length, R x < ps.length
  parLt : ∀ x < ps.length, par ps x < ps.length
  par_R : ∀ x < ps.length, R (par ps x) = R x
  root : ∀ x < ps.length, par ps (R x) = R x
  fix : ∀ x < ps.length, par ps x = x → R x = x
  up : ∀ x < ps.length, par ps x ≠ x → h (par ps x) < h x

namespace Rep
variable {ps : List Nat} {R h : Nat → Nat}

theorem RR (hr : Rep ps R h) {x : Nat} (hx : x < ps.length) : R (R x) = R x := hr.fix _ (hr.lt x hx) (hr.root x hx)

theorem root_iff (hr : Rep ps R h) {x : Nat} (hx : x < ps.length) : par ps x = x ↔ R x = x :=
  ⟨hr.fix x hx, fun e => by have := hr.root x hx; rwa [e] at this⟩

/-- The root of an element is lower, unless it is the element itself. -/
theorem h_R (hr : Rep ps R h) {x : Nat} (hx : x < ps.length) : R x = x ∨ h (R x) < h x := by
  induction hn : h x using Nat.strongRecOn generalizing x with
  | _ n ih =>
    by_cases hp : par ps x = x
    · exact Or.inl (hr.fix x hx hp)
    · right
      have hlt := hr.up x hx hp
      rcases ih (h (par ps x)) (by omega) (hr.parLt x hx) rfl with h1 | h1
      · rw [hr.par_R x hx] at h1; rw [h1]; omega
      · rw [hr.par_R x hx] at h1; omega

/-- Heights can be chosen below the number of elements. -/
theorem bounded (hr : Rep ps R h) : ∃ h', Rep ps R h' ∧ ∀ x < ps.length, h' x < ps.length := by
  refine ⟨fun x => ((Finset.range ps.length).filter fun y => h y < h x).card,
    ⟨hr.lt, hr.parLt, hr.par_R, hr.root, hr.fix, fun x hx hp => ?_⟩, fun x hx => ?_⟩
  · apply Finset.card_lt_card
    have h1 := hr.up x hx hp
    refine ⟨fun y hy => ?_, fun hc => ?_⟩
    · simp only [Finset.mem_filter, Finset.mem_range] at hy ⊢
      exact ⟨hy.1, by omega⟩
    · have := hc (x := par ps x) (by simp only [Finset.mem_filter, Finset.mem_range]; exact ⟨hr.parLt x hx, h1⟩)
      simp at this
  · calc _ < (Finset.range ps.length).card := by
          apply Finset.card_lt_card
          refine ⟨Finset.filter_subset _ _, fun hc => ?_⟩
          have := hc (x := x) (by simpa using hx)
          simp at this
      _ = ps.length := Finset.card_range _

/-- Attaching an element to the root of its tree. -/
theorem attach (hr : Rep ps R h) {x : Nat} (hx : x < ps.length) : Rep (ps.set x (R x)) R h := by
  have hl : (ps.set x (R x)).length = ps.length := List.length_set
  refine ⟨?_, ?_, ?_, ?_, ?_, ?_⟩ <;> intro y hy <;> rw [hl] at * <;> (try rw [par_set hx])
  · exact hr.lt y hy
  · split
    · exact hr.lt x hx
    · exact hr.parLt y hy
  · split
    · next e => rw [e]; exact hr.RR hx
    · exact hr.par_R y hy
  · split
    · next e => rw [e, ← e, hr.RR hy]
    · exact hr.root y hy
  · split
    · next e => intro hh; rw [e] at hh ⊢; exact hh
    · exact hr.fix y hy
  · split
    · next e =>
      subst e
      intro hne
      exact (hr.h_R hx).resolve_left hne
    · exact hr.up y hy

/-- `find_root` returns the root and keeps the forest. -/
theorem findRootRec (hr : Rep ps R h) (fuel x : Nat) (hx : x < ps.length) (hf : h x < fuel) :
    ∃ ps', DisjointSets.findRootRec fuel ps x = some (R x, ps') ∧ ps'.length = ps.length ∧ Rep ps' R h ∧
      (par ps x = R x → ps' = ps) ∧ par ps' x = R x ∧ ∀ y < ps.length, par ps' y = par ps y ∨ par ps' y = R y := by
  induction fuel generalizing x with
  | zero => omega
  | succ f ih =>
    have hp := hr.parLt x hx
    rw [DisjointSets.findRootRec, par_get hx]
    simp only
    rw [par_get hp]
    simp only
    by_cases hpp : par ps (par ps x) = par ps x
    · rw [if_neg (by simpa using hpp)]
      have e : R x = par ps x := by rw [← hr.par_R x hx]; exact hr.fix _ hp hpp
      refine ⟨ps, by rw [e], rfl, hr, fun _ => rfl, e.symm, fun y hy => Or.inl rfl⟩
    · rw [if_pos hpp]
      have hne : par ps x ≠ x := fun e => by rw [e] at hpp; exact hpp e
      have hlt := hr.up x hx hne
      obtain ⟨ps', e1, e2, e3, e4, e5, e6⟩ := ih (par ps x) hp (by omega)
      rw [e1, hr.par_R x hx]
      have := e3.attach (x := x) (by omega)
      refine ⟨ps'.set x (R x), rfl, by simp [e2], this, fun hc => ?_, ?_, fun y hy => ?_⟩
      · exact absurd (by rw [hc]; exact hr.root x hx) hpp
      · rw [par_set (by omega), if_pos rfl]
      · rw [par_set (by omega)]
        split
        · next hyx => right; rw [hyx]
        · exact e6 y hy

/-- Joining two trees: the root `y` gets the parent `x`. -/
theorem join (hr : Rep ps R h) {x y : Nat} (hx : x < ps.length) (hy : y < ps.length) (rx : R x = x) (ry : R y = y) (hne : x ≠ y) :
    ∃ h', Rep (ps.set y x) (fun z => if R z = y then x else R z) h' := by
  have hl : (ps.set y x).length = ps.length := List.length_set
  refine ⟨fun z => if R z = y then h z + h x + 1 else h z, ?_⟩
  refine ⟨?_, ?_, ?_, ?_, ?_, ?_⟩ <;> intro z hz <;> rw [hl] at *
  · split
    · exact hx
    · exact hr.lt z hz
  · rw [par_set hy]; split
    · exact hx
    · exact hr.parLt z hz
  · rw [par_set hy]
    by_cases hzy : z = y
    · subst hzy; rw [if_pos rfl, rx, ry, if_neg hne, if_pos rfl]
    · rw [if_neg hzy, hr.par_R z hz]
  · rw [par_set hy]
    by_cases hzy : R z = y
    · rw [if_pos hzy, if_neg hne]; exact (hr.root_iff hx).2 rx
    · rw [if_neg hzy, if_neg hzy]; exact hr.root z hz
  · rw [par_set hy]
    by_cases hzy : z = y
    · rw [if_pos hzy]; intro e; exact absurd (e.trans hzy) hne
    · rw [if_neg hzy]
      intro e
      have := hr.fix z hz e
      rw [this, if_neg hzy]
  · rw [par_set hy]
    by_cases hzy : z = y
    · subst hzy
      rw [if_pos rfl, if_pos ry, rx, if_neg hne]
      intro _; omega
    · rw [if_neg hzy]
      intro e
      have := hr.up z hz e
      rw [hr.par_R z hz]
      split <;> omega

/-- Replacing the parent by the grandparent. -/
theorem shortcut (hr : Rep ps R h) {x : Nat} (hx : x < ps.length) (hne : par ps x ≠ x) : Rep (ps.set x (par ps (par ps x))) R h := by
  have hl : (ps.set x (par ps (par ps x))).length = ps.length := List.length_set
  have hp := hr.parLt x hx
  have hRx : R x ≠ x := fun e => hne ((hr.root_iff hx).2 e)
  refine ⟨?_, ?_, ?_, ?_, ?_, ?_⟩ <;> intro y hy <;> rw [hl] at * <;> (try rw [par_set hx])
  · exact hr.lt y hy
  · split
    · exact hr.parLt _ hp
    · exact hr.parLt y hy
  · split
    · next e => rw [hr.par_R _ hp, hr.par_R x hx, e]
    · exact hr.par_R y hy
  · split
    · next e => exact absurd (by rw [← e]; exact hr.RR hy) hRx
    · exact hr.root y hy
  · split
    · next e =>
      subst e
      intro hc
      have h1 := hr.up y hx hne
      by_cases h2 : par ps (par ps y) = par ps y
      · exact absurd (h2.symm.trans hc) hne
      · have h3 := hr.up _ hp h2
        rw [hc] at h3
        omega
    · exact hr.fix y hy
  · split
    · next e =>
      subst e
      intro _
      have h1 := hr.up y hx hne
      by_cases h2 : par ps (par ps y) = par ps y
      · rw [h2]; exact h1
      · have h3 := hr.up _ hp h2; omega
    · exact hr.up y hy

/-- Making a child `x` of a root `p` the root of the tree. -/
theorem reroot (hr : Rep ps R h) {x : Nat} (hx : x < ps.length) (hne : par ps x ≠ x) (hpr : par ps (par ps x) = par ps x) :
    ∃ h', Rep ((ps.set (par ps x) x).set x x) (fun z => if R z = par ps x then x else R z) h' := by
  have hp := hr.parLt x hx
  have hl : ((ps.set (par ps x) x).set x x).length = ps.length := by simp
  have hpar : ∀ z, par ((ps.set (par ps x) x).set x x) z = if z = x then x else if z = par ps x then x else par ps z := by
    intro z; rw [par_set (by simpa using hx), par_set hp]
  have hRp : R (par ps x) = par ps x := hr.fix _ hp hpr
  have hRx : R x = par ps x := by rw [← hr.par_R x hx, hRp]
  refine ⟨fun z => if z = x then 0 else h z + 1, ?_⟩
  refine ⟨?_, ?_, ?_, ?_, ?_, ?_⟩ <;> intro z hz <;> rw [hl] at *
  · split
    · exact hx
    · exact hr.lt z hz
  · rw [hpar]; split
    · exact hx
    · split
      · exact hx
      · exact hr.parLt z hz
  · rw [hpar]
    by_cases h1 : z = x
    · rw [if_pos h1, hRx, if_pos rfl, h1, hRx, if_pos rfl]
    · rw [if_neg h1]
      by_cases h2 : z = par ps x
      · rw [if_pos h2, hRx, if_pos rfl, h2, hRp, if_pos rfl]
      · rw [if_neg h2, hr.par_R z hz]
  · rw [hpar]
    by_cases h1 : R z = par ps x
    · rw [if_pos h1, if_pos rfl]
    · rw [if_neg h1, if_neg (fun e => h1 (by rw [← hr.RR hz, e, hRx])), if_neg h1]; exact hr.root z hz
  · rw [hpar]
    by_cases h1 : z = x
    · rw [if_pos h1, h1, hRx, if_pos rfl]; exact fun _ => rfl
    · rw [if_neg h1]
      by_cases h2 : z = par ps x
      · rw [if_pos h2]; intro e; exact absurd e.symm h1
      · rw [if_neg h2]
        intro e
        have := hr.fix z hz e
        rw [this, if_neg h2]
  · rw [hpar]
    by_cases h1 : z = x
    · rw [if_pos h1]; intro e; exact absurd h1.symm e
    · rw [if_neg h1, if_neg h1]
      by_cases h2 : z = par ps x
      · rw [if_pos h2, if_pos rfl]; omega
      · rw [if_neg h2]
        intro e
        have := hr.up z hz e
        split <;> omega

end Rep

theorem rep_range (n : Nat) : Rep (List.range n) (fun x => x) (fun _ => 0) := by
  have hpar : ∀ x, par (List.range n) x = x := by
    intro x
    unfold par
    rw [List.getD_eq_getElem?_getD]
    by_cases h : x < n
    · rw [List.getElem?_range h]; rfl
    · rw [List.getElem?_eq_none (by simp; omega)]; rfl
  refine ⟨fun x hx => hx, fun x hx => by rw [hpar]; exact hx, fun x _ => hpar x, fun x _ => hpar x, fun _ _ _ => rfl,
    fun x _ hc => absurd (hpar x) hc⟩

end DisjointSets
end LC

namespace LC
namespace DisjointSets

/-- The object represents the classes of `R`. -/
structure Good (ds : DisjointSets) (R : Nat → Nat) : Prop where
  rep : ∃ h, Rep ds.parents R h
  ranks : ds.ranks.length = ds.parents.length
  count : ds.nSets = ((Finset.range ds.size).filter fun x => R x = x).card

/-- Same size. -/
def Same (ds ds' : DisjointSets) : Prop := ds'.size = ds.size ∧ ds'.ranks = ds.ranks ∧ ds'.nSets = ds.nSets

namespace Good
variable {ds : DisjointSets} {R : Nat → Nat}

theorem lt (hg : Good ds R) {x : Nat} (hx : x < ds.size) : R x < ds.size := by
  obtain ⟨h, hr⟩ := hg.rep
  exact hr.lt x hx

theorem RR (hg : Good ds R) {x : Nat} (hx : x < ds.size) : R (R x) = R x := by
  obtain ⟨h, hr⟩ := hg.rep
  exact hr.RR hx

theorem findRoot_full (hg : Good ds R) {x : Nat} (hx : x < ds.size) : ∃ ds', ds.findRoot x = some (R x, ds') ∧ Good ds' R ∧ Same ds ds' ∧
    par ds'.parents x = R x ∧ (par ds.parents x = R x → ds' = ds) ∧
    ∀ y < ds.size, par ds'.parents y = par ds.parents y ∨ par ds'.parents y = R y := by
  obtain ⟨h, hr⟩ := hg.rep
  obtain ⟨h', hr', hb⟩ := hr.bounded
  obtain ⟨ps', e1, e2, e3, e4, e5, e6⟩ := hr'.findRootRec (ds.size + 1) x hx (Nat.lt_succ_of_lt (hb x hx))
  refine ⟨{ ds with parents := ps' }, ?_, ⟨⟨h', e3⟩, ?_, ?_⟩, ⟨e2, rfl, rfl⟩, e5, fun hc => ?_, e6⟩
  · unfold findRoot; rw [e1]; rfl
  · rw [e2]; exact hg.ranks
  · have : (DisjointSets.mk ps' ds.ranks ds.nSets).size = ds.size := e2
    rw [this]; exact hg.count
  · rw [e4 hc]

theorem findRoot (hg : Good ds R) {x : Nat} (hx : x < ds.size) : ∃ ds', ds.findRoot x = some (R x, ds') ∧ Good ds' R ∧ Same ds ds' := by
  obtain ⟨ds', h1, h2, h3, _⟩ := hg.findRoot_full hx
  exact ⟨ds', h1, h2, h3⟩

theorem inSameSet (hg : Good ds R) {x y : Nat} (hx : x < ds.size) (hy : y < ds.size) :
    ∃ ds', ds.inSameSet x y = some (R x == R y, ds') ∧ Good ds' R ∧ Same ds ds' := by
  obtain ⟨d1, a1, a2, a3⟩ := hg.findRoot hx
  obtain ⟨d2, b1, b2, b3⟩ := a2.findRoot (x := y) (by rw [a3.1]; exact hy)
  refine ⟨d2, ?_, b2, b3.1.trans a3.1, b3.2.1.trans a3.2.1, b3.2.2.trans a3.2.2⟩
  unfold DisjointSets.inSameSet
  simp only [a1, b1]

theorem count_join (hg : Good ds R) {x y : Nat} (hx : x < ds.size) (hy : y < ds.size) (rx : R x = x) (ry : R y = y) (hne : x ≠ y) :
    ds.nSets - 1 = ((Finset.range ds.size).filter fun z => (if R z = y then x else R z) = z).card := by
  have : ((Finset.range ds.size).filter fun z => (if R z = y then x else R z) = z) = ((Finset.range ds.size).filter fun z => R z = z).erase y := by
    ext z
    simp only [Finset.mem_filter, Finset.mem_range, Finset.mem_erase]
    constructor
    · rintro ⟨hz, e⟩
      split at e
      · next e' => subst e; exact absurd (rx.symm.trans e') hne
      · next e' => exact ⟨fun hc => e' (by rw [hc, ry]), hz, e⟩
    · rintro ⟨h1, hz, e⟩
      refine ⟨hz, ?_⟩
      rw [e, if_neg h1]
  rw [this, Finset.card_erase_of_mem (by simp [hy, ry]), hg.count]

/-- `root_union` of two different roots. -/
theorem rootUnion (hg : Good ds R) {x y : Nat} (hx : x < ds.size) (hy : y < ds.size) (rx : R x = x) (ry : R y = y) (hne : x ≠ y) :
    ∃ r ds' R', ds.rootUnion x y = some (r, ds') ∧ Good ds' R' ∧ ds'.size = ds.size ∧ (r = x ∨ r = y) ∧
      ∀ z, R' z = if R z = x ∨ R z = y then r else R z := by
  obtain ⟨h, hr⟩ := hg.rep
  have hrx : x < ds.ranks.length := by rw [hg.ranks]; exact hx
  have hry : y < ds.ranks.length := by rw [hg.ranks]; exact hy
  have hf : ∀ z, (if R z = y then x else R z) = if R z = x ∨ R z = y then x else R z := by
    intro z
    by_cases h1 : R z = y
    · rw [if_pos h1, if_pos (Or.inr h1)]
    · rw [if_neg h1]
      by_cases h2 : R z = x
      · rw [if_pos (Or.inl h2), h2]
      · rw [if_neg (by tauto)]
  have hf' : ∀ z, (if R z = x then y else R z) = if R z = x ∨ R z = y then y else R z := by
    intro z
    by_cases h1 : R z = x
    · rw [if_pos h1, if_pos (Or.inl h1)]
    · rw [if_neg h1]
      by_cases h2 : R z = y
      · rw [if_pos (Or.inr h2), h2]
      · rw [if_neg (by tauto)]
  unfold DisjointSets.rootUnion
  rw [List.getElem?_eq_getElem hrx, List.getElem?_eq_getElem hry]
  simp only
  rw [if_pos ⟨hx, hy⟩]
  split
  · obtain ⟨h', hj⟩ := hr.join hy hx ry rx hne.symm
    refine ⟨y, _, _, rfl, ⟨⟨h', hj⟩, by simp [hg.ranks], ?_⟩, by simp [DisjointSets.size], Or.inr rfl, hf'⟩
    simp only [DisjointSets.size, List.length_set]
    exact hg.count_join hy hx ry rx hne.symm
  · obtain ⟨h', hj⟩ := hr.join hx hy rx ry hne
    split
    · refine ⟨x, _, _, rfl, ⟨⟨h', hj⟩, by simp [hg.ranks], ?_⟩, by simp [DisjointSets.size], Or.inl rfl, hf⟩
      simp only [DisjointSets.size, List.length_set]
      exact hg.count_join hx hy rx ry hne
    · refine ⟨x, _, _, rfl, ⟨⟨h', hj⟩, by simp [hg.ranks], ?_⟩, by simp [DisjointSets.size], Or.inl rfl, hf⟩
      simp only [DisjointSets.size, List.length_set]
      exact hg.count_join hx hy rx ry hne

theorem setUnion (hg : Good ds R) {x y : Nat} (hx : x < ds.size) (hy : y < ds.size) :
    ∃ r ds' R', ds.setUnion x y = some (r, ds') ∧ Good ds' R' ∧ ds'.size = ds.size ∧ (r = R x ∨ r = R y) ∧
      ∀ z, R' z = if R z = R x ∨ R z = R y then r else R z := by
  obtain ⟨d1, a1, a2, a3⟩ := hg.findRoot hx
  obtain ⟨d2, b1, b2, b3⟩ := a2.findRoot (x := y) (by rw [a3.1]; exact hy)
  have hs : d2.size = ds.size := b3.1.trans a3.1
  unfold DisjointSets.setUnion
  simp only [a1, b1]
  by_cases hxy : R x = R y
  · rw [if_neg (by simpa using hxy)]
    refine ⟨R x, d2, R, rfl, b2, hs, Or.inl rfl, fun z => ?_⟩
    rw [← hxy]; split
    · next h => rcases h with h | h <;> exact h
    · rfl
  · rw [if_pos hxy]
    obtain ⟨r, ds', R', c1, c2, c3, c4, c5⟩ := b2.rootUnion (x := R x) (y := R y) (by rw [hs]; exact hg.lt hx) (by rw [hs]; exact hg.lt hy)
      (hg.RR hx) (hg.RR hy) hxy
    exact ⟨r, ds', R', c1, c2, c3.trans hs, c4, c5⟩

/-- Classes after a union. -/
theorem union_iff {R R' : Nat → Nat} {a b r : Nat} (hr : r = a ∨ r = b) (h : ∀ z, R' z = if R z = a ∨ R z = b then r else R z) (z w : Nat) :
    R' z = R' w ↔ R z = R w ∨ (R z = a ∨ R z = b) ∧ (R w = a ∨ R w = b) := by
  rw [h, h]
  by_cases h1 : R z = a ∨ R z = b <;> by_cases h2 : R w = a ∨ R w = b
  · simp [h1, h2]
  · rw [if_pos h1, if_neg h2]
    constructor
    · intro e; exact absurd (by rw [← e]; exact hr) h2
    · rintro (e | e)
      · exact absurd (e ▸ h1) h2
      · exact absurd e.2 h2
  · rw [if_neg h1, if_pos h2]
    constructor
    · intro e; exact absurd (by rw [e]; exact hr) h1
    · rintro (e | e)
      · exact absurd (e ▸ h2) h1
      · exact absurd e.1 h1
  · rw [if_neg h1, if_neg h2]; tauto

theorem compressLoop (hg : Good ds R) (l : List Nat) (hl : ∀ i ∈ l, i < ds.size) :
    ∃ ds', DisjointSets.compressLoop l ds = some ds' ∧ Good ds' R ∧ Same ds ds' ∧
      (∀ i ∈ l, par ds'.parents (par ds'.parents i) = R i) ∧
      (∀ y < ds.size, par ds'.parents y = par ds.parents y ∨ par ds'.parents y = R y) := by
  induction l generalizing ds with
  | nil => exact ⟨ds, rfl, hg, ⟨rfl, rfl, rfl⟩, by simp, fun _ _ => Or.inl rfl⟩
  | cons i l ih =>
    have hi := hl i List.mem_cons_self
    obtain ⟨h, hr⟩ := hg.rep
    have hp := hr.parLt i hi
    obtain ⟨d1, a1, a2, a3, a4, a5, a6⟩ := hg.findRoot_full (x := par ds.parents i) hp
    obtain ⟨d2, b1, b2, b3, b4, b5⟩ := ih a2 (fun j hj => by rw [a3.1]; exact hl j (List.mem_cons_of_mem _ hj))
    rw [DisjointSets.compressLoop, par_get hi]
    simp only [a1]
    obtain ⟨h2, hr2⟩ := b2.rep
    have hch : ∀ y < ds.size, par d2.parents y = par ds.parents y ∨ par d2.parents y = R y := by
      intro y hy
      rcases b5 y (by rw [a3.1]; exact hy) with h1 | h1
      · rw [h1]; exact a6 y hy
      · exact Or.inr h1
    have hRi : ∀ y < ds.size, par d2.parents y = R y → par d2.parents (par d2.parents y) = R y := by
      intro y hy e
      rw [e]
      exact hr2.root y (by rw [show d2.parents.length = ds.size from b3.1.trans a3.1]; exact hy)
    refine ⟨d2, b1, b2, ⟨b3.1.trans a3.1, b3.2.1.trans a3.2.1, b3.2.2.trans a3.2.2⟩, ?_, hch⟩
    intro j hj
    rcases List.mem_cons.1 hj with rfl | hj
    · rcases hch j hi with e | e
      · rw [e]
        rcases b5 (par ds.parents j) (by rw [a3.1]; exact hp) with e1 | e1
        · rw [e1, a4]; exact hr.par_R j hi
        · rw [e1]; exact hr.par_R j hi
      · exact hRi j hi e
    · exact b4 j hj

theorem compressSets (hg : Good ds R) : ∃ ds', ds.compressSets = some ds' ∧ Good ds' R ∧ Same ds ds' ∧
    ∀ x < ds.size, par ds'.parents (par ds'.parents x) = R x := by
  obtain ⟨d, h1, h2, h3, h4, _⟩ := hg.compressLoop (List.range ds.size) fun i hi => List.mem_range.1 hi
  exact ⟨d, h1, h2, h3, fun x hx => h4 x (List.mem_range.2 hx)⟩

/-- Classes do not change if one representative is exchanged for a member of its class. -/
theorem _root_.LC.DisjointSets.swap_iff {R : Nat → Nat} {n p x : Nat} (hR : ∀ y < n, R (R y) = R y) (hx : R x = p) (y z : Nat) (hy : y < n) (hz : z < n) :
    ((if R y = p then x else R y) = if R z = p then x else R z) ↔ R y = R z := by
  by_cases h1 : R y = p <;> by_cases h2 : R z = p
  · simp [h1, h2]
  · rw [if_pos h1, if_neg h2]
    constructor
    · intro e; exact absurd (by rw [← hR z hz, ← e, hx]) h2
    · intro e; exact absurd (e ▸ h1) h2
  · rw [if_neg h1, if_pos h2]
    constructor
    · intro e; exact absurd (by rw [← hR y hy, e, hx]) h1
    · intro e; exact absurd (e ▸ h2) h1
  · rw [if_neg h1, if_neg h2]

theorem card_roots {n : Nat} {R R' : Nat → Nat} (hR : ∀ y < n, R y < n ∧ R (R y) = R y) (hR' : ∀ y < n, R' y < n ∧ R' (R' y) = R' y)
    (h : ∀ y < n, ∀ z < n, R' y = R' z ↔ R y = R z) :
    ((Finset.range n).filter fun x => R x = x).card = ((Finset.range n).filter fun x => R' x = x).card := by
  refine Finset.card_bij' (fun x _ => R' x) (fun x _ => R x) ?_ ?_ ?_ ?_
  · intro x hx
    simp only [Finset.mem_filter, Finset.mem_range] at hx ⊢
    exact hR' x hx.1
  · intro x hx
    simp only [Finset.mem_filter, Finset.mem_range] at hx ⊢
    exact hR x hx.1
  · intro x hx
    simp only [Finset.mem_filter, Finset.mem_range] at hx
    have h1 := hR' x hx.1
    have := (h _ h1.1 x hx.1).1 h1.2
    rw [this, hx.2]
  · intro x hx
    simp only [Finset.mem_filter, Finset.mem_range] at hx
    have h1 := hR x hx.1
    have := (h _ h1.1 x hx.1).2 h1.2
    rw [this, hx.2]

theorem _root_.LC.DisjointSets.normalizeStep_ok {ps : List Nat} {R h : Nat → Nat} (hr : Rep ps R h) {x : Nat} (hx : x < ps.length) :
    ∃ ps' R' h', normalizeStep ps x = some ps' ∧ ps'.length = ps.length ∧ Rep ps' R' h' ∧
      ∀ y < ps.length, ∀ z < ps.length, R' y = R' z ↔ R y = R z := by
  have hp := hr.parLt x hx
  unfold normalizeStep
  rw [par_get hx]
  simp only
  rw [par_get hp]
  simp only
  by_cases hc : x > par ps x ∨ par ps (par ps x) ≠ par ps x
  · rw [if_pos hc]
    have hne : par ps x ≠ x := by
      intro e
      rcases hc with hc | hc
      · omega
      · rw [e] at hc; exact hc e
    exact ⟨_, R, h, rfl, by simp, hr.shortcut hx hne, fun _ _ _ _ => Iff.rfl⟩
  · rw [if_neg hc]
    push Not at hc
    by_cases hne : par ps x = x
    · refine ⟨_, R, h, rfl, by simp, ?_, fun _ _ _ _ => Iff.rfl⟩
      have : (ps.set (par ps x) x).set x x = ps := by
        rw [hne, List.set_set]
        apply List.ext_getElem?
        intro j
        rw [List.getElem?_set]
        by_cases hj : x = j
        · subst hj; rw [if_pos rfl, if_pos hx, par_get hx, hne]
        · rw [if_neg hj]
      rw [this]; exact hr
    · obtain ⟨h', hr'⟩ := hr.reroot hx hne hc.2
      refine ⟨_, _, h', rfl, by simp, hr', fun y hy z hz => ?_⟩
      exact swap_iff (n := ps.length) (fun w hw => hr.RR hw) (by rw [← hr.par_R x hx]; exact hr.fix _ hp hc.2) y z hy hz

theorem _root_.LC.DisjointSets.normalizeLoop_ok (l : List Nat) {ps : List Nat} {R h : Nat → Nat} (hr : Rep ps R h) (hl : ∀ x ∈ l, x < ps.length) :
    ∃ ps' R' h', normalizeLoop l ps = some ps' ∧ ps'.length = ps.length ∧ Rep ps' R' h' ∧
      ∀ y < ps.length, ∀ z < ps.length, R' y = R' z ↔ R y = R z := by
  induction l generalizing ps R h with
  | nil => exact ⟨ps, R, h, rfl, rfl, hr, fun _ _ _ _ => Iff.rfl⟩
  | cons x l ih =>
    obtain ⟨p1, R1, h1, a1, a2, a3, a4⟩ := normalizeStep_ok hr (hl x List.mem_cons_self)
    obtain ⟨p2, R2, h2, b1, b2, b3, b4⟩ := ih a3 (fun y hy => by rw [a2]; exact hl y (List.mem_cons_of_mem _ hy))
    rw [normalizeLoop, a1]
    exact ⟨p2, R2, h2, b1, b2.trans a2, b3, fun y hy z hz => (b4 y (by omega) z (by omega)).trans (a4 y hy z hz)⟩

theorem normalizeSets (hg : Good ds R) : ∃ ds' R', ds.normalizeSets = some ds' ∧ Good ds' R' ∧ Same ds ds' ∧
    ∀ y < ds.size, ∀ z < ds.size, R' y = R' z ↔ R y = R z := by
  obtain ⟨h, hr⟩ := hg.rep
  obtain ⟨ps', R', h', e1, e2, e3, e4⟩ := normalizeLoop_ok (List.range ds.size) hr fun i hi => List.mem_range.1 hi
  refine ⟨{ ds with parents := ps' }, R', ?_, ⟨⟨h', e3⟩, ?_, ?_⟩, ⟨e2, rfl, rfl⟩, e4⟩
  · unfold DisjointSets.normalizeSets; rw [e1]; rfl
  · rw [e2]; exact hg.ranks
  · have : (DisjointSets.mk ps' ds.ranks ds.nSets).size = ds.size := e2
    rw [this]
    refine hg.count.trans (card_roots (fun y hy => ⟨hr.lt y hy, hr.RR hy⟩) (fun y hy => ?_) e4)
    have hy' : y < ps'.length := by rw [e2]; exact hy
    exact ⟨by have := e3.lt y hy'; rwa [e2] at this, e3.RR hy'⟩

theorem _root_.LC.DisjointSets.rep_append {ps : List Nat} {R h : Nat → Nat} (hr : Rep ps R h) :
    Rep (ps ++ [ps.length]) (fun x => if x < ps.length then R x else x) h := by
  have hpar : ∀ x, par (ps ++ [ps.length]) x = if x < ps.length then par ps x else x := by
    intro x
    unfold par
    rw [List.getD_eq_getElem?_getD, List.getD_eq_getElem?_getD]
    by_cases hx : x < ps.length
    · rw [if_pos hx, List.getElem?_append_left hx]
    · rw [if_neg hx, List.getElem?_append_right (by omega)]
      by_cases hx' : x = ps.length
      · subst hx'; simp
      · rw [List.getElem?_eq_none (by simp; omega)]; rfl
  have hl : (ps ++ [ps.length]).length = ps.length + 1 := by simp
  refine ⟨?_, ?_, ?_, ?_, ?_, ?_⟩ <;> intro x hx <;> rw [hl] at * <;> (try rw [hpar])
  · by_cases h1 : x < ps.length
    · rw [if_pos h1]; have := hr.lt x h1; omega
    · rw [if_neg h1]; exact hx
  · by_cases h1 : x < ps.length
    · rw [if_pos h1]; have := hr.parLt x h1; omega
    · rw [if_neg h1]; exact hx
  · by_cases h1 : x < ps.length
    · simp only [if_pos h1, if_pos (hr.parLt x h1)]; exact hr.par_R x h1
    · simp only [if_neg h1]
  · by_cases h1 : x < ps.length
    · simp only [if_pos h1, if_pos (hr.lt x h1)]; exact hr.root x h1
    · simp only [if_neg h1]
  · by_cases h1 : x < ps.length
    · simp only [if_pos h1]; exact hr.fix x h1
    · simp [if_neg h1]
  · by_cases h1 : x < ps.length
    · simp only [if_pos h1]; exact hr.up x h1
    · simp only [if_neg h1]; exact fun hc => absurd rfl hc

theorem append (hg : Good ds R) : Good ⟨ds.parents ++ [ds.size], ds.ranks ++ [0], ds.nSets + 1⟩ (fun x => if x < ds.size then R x else x) := by
  obtain ⟨h, hr⟩ := hg.rep
  refine ⟨⟨h, rep_append hr⟩, by simp [hg.ranks], ?_⟩
  have hsz : (DisjointSets.mk (ds.parents ++ [ds.size]) (ds.ranks ++ [0]) (ds.nSets + 1)).size = ds.size + 1 := by simp [DisjointSets.size]
  rw [hsz, Finset.range_add_one, Finset.filter_insert, if_pos (by simp), Finset.card_insert_of_notMem (by simp)]
  show ds.nSets + 1 = _
  rw [hg.count]
  congr 2
  apply Finset.filter_congr
  intro x hx
  rw [if_pos (Finset.mem_range.1 hx)]

theorem makeSets (n : Nat) (hg : Good ds R) : ∃ R', Good (ds.makeSets n) R' ∧ (ds.makeSets n).size = ds.size + n ∧
    (∀ x < ds.size, R' x = R x) ∧ ∀ x, ds.size ≤ x → x < ds.size + n → R' x = x := by
  have : ∀ (n : Nat) (ps rs : List Nat) (k : Nat) (R : Nat → Nat), Good ⟨ps, rs, k⟩ R →
      ∃ R', Good ⟨(makeSetsLoop n ps rs).1, (makeSetsLoop n ps rs).2, k + n⟩ R' ∧ (makeSetsLoop n ps rs).1.length = ps.length + n ∧
        (∀ x < ps.length, R' x = R x) ∧ ∀ x, ps.length ≤ x → x < ps.length + n → R' x = x := by
    intro n
    induction n with
    | zero =>
      intro ps rs k R hg
      exact ⟨R, hg, rfl, fun _ _ => rfl, fun x h1 h2 => by omega⟩
    | succ n ih =>
      intro ps rs k R hg
      obtain ⟨R', a, b, c, d⟩ := ih _ _ _ _ hg.append
      simp only [DisjointSets.size, List.length_append, List.length_singleton] at a b c d
      refine ⟨R', ?_, ?_, fun x hx => ?_, fun x h1 h2 => ?_⟩
      · rw [show k + (n + 1) = k + 1 + n by omega]; exact a
      · rw [makeSetsLoop, b]; omega
      · exact (c x (by omega)).trans (if_pos hx)
      · by_cases hx : x < ps.length + 1
        · exact (c x hx).trans (if_neg (by omega))
        · exact d x (by omega) (by omega)
  exact this n ds.parents ds.ranks ds.nSets R hg

theorem make (n : Nat) : Good (DisjointSets.make n) (fun x => x) := by
  refine ⟨⟨_, rep_range n⟩, by simp [DisjointSets.make], ?_⟩
  simp [DisjointSets.make, DisjointSets.size]

end Good
end DisjointSets
end LC
