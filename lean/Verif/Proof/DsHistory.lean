import Verif.Spec.DisjointSets
import Verif.Proof.DisjointSets
import Mathlib.Tactic.Tauto
/- The invariant of all reachable objects of `disjoint_sets`. -/
namespace LC
open DisjointSets

namespace Linked
variable {us : List (Nat × Nat)}

theorem refl (x : Nat) : Linked us x x := Relation.EqvGen.refl x
theorem symm {x y : Nat} (h : Linked us x y) : Linked us y x := Relation.EqvGen.symm _ _ h
theorem trans {x y z : Nat} (h : Linked us x y) (h' : Linked us y z) : Linked us x z := Relation.EqvGen.trans _ _ _ h h'
theorem base {x y : Nat} (h : (x, y) ∈ us) : Linked us x y := Relation.EqvGen.rel _ _ h

theorem mono {vs : List (Nat × Nat)} (h : ∀ p ∈ us, p ∈ vs) {x y : Nat} (hl : Linked us x y) : Linked vs x y :=
  Relation.EqvGen.mono (r := fun a b => (a, b) ∈ us) (p := fun a b => (a, b) ∈ vs) (fun _ _ hab => h _ hab) _ _ hl

theorem lt_iff {n : Nat} (h : ∀ p ∈ us, p.1 < n ∧ p.2 < n) {x y : Nat} (hl : Linked us x y) : x = y ∨ x < n ∧ y < n := by
  induction hl with
  | rel a b hab => exact Or.inr (h _ hab)
  | refl => exact Or.inl rfl
  | symm a b _ ih => tauto
  | trans a b c _ _ ih1 ih2 =>
    rcases ih1 with rfl | h1
    · exact ih2
    · rcases ih2 with rfl | h2
      · exact Or.inr h1
      · exact Or.inr ⟨h1.1, h2.2⟩

theorem nil {x y : Nat} : Linked [] x y ↔ x = y := by
  constructor
  · intro h
    rcases lt_iff (n := 0) (by simp) h with h | h
    · exact h
    · omega
  · rintro rfl; exact refl x

theorem cons_iff {x y a b : Nat} :
    Linked ((x, y) :: us) a b ↔ Linked us a b ∨ (Linked us a x ∨ Linked us a y) ∧ (Linked us b x ∨ Linked us b y) := by
  constructor
  · intro h
    induction h with
    | rel a b hab =>
      rcases List.mem_cons.1 hab with e | e
      · obtain ⟨rfl, rfl⟩ := Prod.mk.inj e
        exact Or.inr ⟨Or.inl (refl _), Or.inr (refl _)⟩
      · exact Or.inl (base e)
    | refl a => exact Or.inl (refl a)
    | symm a b _ ih =>
      rcases ih with h | h
      · exact Or.inl h.symm
      · exact Or.inr ⟨h.2, h.1⟩
    | trans a b c _ _ ih1 ih2 =>
      rcases ih1 with h | h
      · rcases ih2 with h' | h'
        · exact Or.inl (h.trans h')
        · exact Or.inr ⟨h'.1.imp (fun e => h.trans e) (fun e => h.trans e), h'.2⟩
      · rcases ih2 with h' | h'
        · exact Or.inr ⟨h.1, h.2.imp (fun e => h'.symm.trans e) (fun e => h'.symm.trans e)⟩
        · exact Or.inr ⟨h.1, h'.2⟩
  · intro h
    have hm : ∀ p ∈ us, p ∈ (x, y) :: us := fun p hp => List.mem_cons_of_mem _ hp
    have hxy : Linked ((x, y) :: us) x y := base List.mem_cons_self
    rcases h with h | ⟨h1, h2⟩
    · exact h.mono hm
    · have h1' : Linked ((x, y) :: us) a x := by
        rcases h1 with h | h
        · exact h.mono hm
        · exact (h.mono hm).trans hxy.symm
      have h2' : Linked ((x, y) :: us) b x := by
        rcases h2 with h | h
        · exact h.mono hm
        · exact (h.mono hm).trans hxy.symm
      exact h1'.trans h2'.symm

end Linked

/-- What is true of every reachable object. -/
structure DsInv (ds : DisjointSets) (us : List (Nat × Nat)) (R : Nat → Nat) : Prop where
  good : Good ds R
  linked : ∀ x < ds.size, ∀ y < ds.size, R x = R y ↔ Linked us x y
  lt : ∀ p ∈ us, p.1 < ds.size ∧ p.2 < ds.size

namespace DsInv
variable {ds ds' : DisjointSets} {us : List (Nat × Nat)} {R : Nat → Nat}

theorem congr (hi : DsInv ds us R) (hg : Good ds' R) (hs : ds'.size = ds.size) : DsInv ds' us R :=
  ⟨hg, by rw [hs]; exact hi.linked, by rw [hs]; exact hi.lt⟩

theorem linked_R (hi : DsInv ds us R) {x : Nat} (hx : x < ds.size) : Linked us x (R x) :=
  (hi.linked x hx _ (hi.good.lt hx)).1 (hi.good.RR hx).symm

theorem grow (hi : DsInv ds us R) {R' : Nat → Nat} {n : Nat} (hg : Good ds' R') (hs : ds'.size = ds.size + n)
    (h1 : ∀ x < ds.size, R' x = R x) (h2 : ∀ x, ds.size ≤ x → x < ds.size + n → R' x = x) : DsInv ds' us R' := by
  refine ⟨hg, ?_, fun p hp => ⟨by have := (hi.lt p hp).1; omega, by have := (hi.lt p hp).2; omega⟩⟩
  intro x hx y hy
  rw [hs] at hx hy
  by_cases hx' : x < ds.size <;> by_cases hy' : y < ds.size
  · rw [h1 x hx', h1 y hy']; exact hi.linked x hx' y hy'
  · rw [h1 x hx', h2 y (by omega) hy]
    have := hi.good.lt hx'
    constructor
    · intro e; omega
    · intro e
      rcases e.lt_iff hi.lt with e | e <;> omega
  · rw [h1 y hy', h2 x (by omega) hx]
    have := hi.good.lt hy'
    constructor
    · intro e; omega
    · intro e
      rcases e.lt_iff hi.lt with e | e <;> omega
  · rw [h2 x (by omega) hx, h2 y (by omega) hy]
    constructor
    · rintro rfl; exact Linked.refl _
    · intro e
      rcases e.lt_iff hi.lt with e | e <;> omega

theorem unite (hi : DsInv ds us R) {x y r : Nat} (hx : x < ds.size) (hy : y < ds.size) {R' : Nat → Nat} (hg : Good ds' R') (hs : ds'.size = ds.size)
    (hr : r = R x ∨ r = R y) (hR : ∀ z, R' z = if R z = R x ∨ R z = R y then r else R z) : DsInv ds' ((x, y) :: us) R' := by
  refine ⟨hg, ?_, ?_⟩
  · intro a ha b hb
    rw [hs] at ha hb
    rw [Good.union_iff hr hR, Linked.cons_iff, hi.linked a ha b hb, hi.linked a ha x hx, hi.linked a ha y hy, hi.linked b hb x hx, hi.linked b hb y hy]
  · intro p hp
    rw [hs]
    rcases List.mem_cons.1 hp with rfl | hp
    · exact ⟨hx, hy⟩
    · exact hi.lt p hp

theorem numClasses (hi : DsInv ds us R) : NumClasses us ds.size ds.nSets := by
  refine ⟨_, hi.good.count.symm, fun r hr => Finset.mem_range.1 (Finset.mem_filter.1 hr).1, fun x hx => ⟨R x, ⟨?_, hi.linked_R hx⟩, ?_⟩⟩
  · exact Finset.mem_filter.2 ⟨Finset.mem_range.2 (hi.good.lt hx), hi.good.RR hx⟩
  · rintro r ⟨hr, hl⟩
    obtain ⟨h1, h2⟩ := Finset.mem_filter.1 hr
    rw [Finset.mem_range] at h1
    rw [(hi.linked x hx r h1).2 hl, h2]

theorem representative (hi : DsInv ds us R) {x : Nat} (hx : x < ds.size) : ds.IsRepresentative x ↔ R x = x := by
  obtain ⟨d, h1, _⟩ := hi.good.findRoot hx
  constructor
  · rintro ⟨d', h⟩
    rw [h1, Option.some.injEq, Prod.mk.injEq] at h
    exact h.1
  · intro h
    exact ⟨d, by rw [h1, h]⟩

end DsInv

theorem DsHistory.inv {ds : DisjointSets} {us : List (Nat × Nat)} (h : DsHistory ds us) : ∃ R, DsInv ds us R := by
  induction h with
  | make n =>
    exact ⟨_, Good.make n, fun x _ y _ => Linked.nil.symm, by simp⟩
  | @makeSet ds us _ ih =>
    obtain ⟨R, hi⟩ := ih
    refine ⟨_, hi.grow (n := 1) hi.good.append (by simp [DisjointSets.makeSet, DisjointSets.size]) ?_ ?_⟩
    · intro x hx; exact if_pos hx
    · intro x hx _; exact if_neg (by omega)
  | makeSets n _ ih =>
    obtain ⟨R, hi⟩ := ih
    obtain ⟨R', a, b, c, d⟩ := hi.good.makeSets n
    exact ⟨R', hi.grow a b c d⟩
  | findRoot _ hx he ih =>
    obtain ⟨R, hi⟩ := ih
    obtain ⟨d, a, b, c⟩ := hi.good.findRoot hx
    rw [he, Option.some.injEq, Prod.mk.injEq] at a
    rw [← a.2] at b c
    exact ⟨R, hi.congr b c.1⟩
  | inSameSet _ hx hy he ih =>
    obtain ⟨R, hi⟩ := ih
    obtain ⟨d, a, b, c⟩ := hi.good.inSameSet hx hy
    rw [he, Option.some.injEq, Prod.mk.injEq] at a
    rw [← a.2] at b c
    exact ⟨R, hi.congr b c.1⟩
  | setUnion _ hx hy he ih =>
    obtain ⟨R, hi⟩ := ih
    obtain ⟨r, d, R', a, b, c, e, f⟩ := hi.good.setUnion hx hy
    rw [he, Option.some.injEq, Prod.mk.injEq] at a
    rw [← a.2] at b c
    exact ⟨R', hi.unite hx hy b c e f⟩
  | rootUnion _ hx hy rx ry hne he ih =>
    obtain ⟨R, hi⟩ := ih
    rw [hi.representative hx] at rx
    rw [hi.representative hy] at ry
    obtain ⟨r, d, R', a, b, c, e, f⟩ := hi.good.rootUnion hx hy rx ry hne
    rw [he, Option.some.injEq, Prod.mk.injEq] at a
    rw [← a.2] at b c
    exact ⟨R', hi.unite hx hy b c (by rw [rx, ry]; exact e) (by rw [rx, ry]; exact f)⟩
  | compressSets _ he ih =>
    obtain ⟨R, hi⟩ := ih
    obtain ⟨d, a, b, c, _⟩ := hi.good.compressSets
    rw [he, Option.some.injEq] at a
    rw [← a] at b c
    exact ⟨R, hi.congr b c.1⟩
  | normalizeSets _ he ih =>
    obtain ⟨R, hi⟩ := ih
    obtain ⟨d, R', a, b, c, e⟩ := hi.good.normalizeSets
    rw [he, Option.some.injEq] at a
    rw [← a] at b c
    refine ⟨R', b, ?_, ?_⟩
    · rw [c.1]
      intro x hx y hy
      rw [e x hx y hy]; exact hi.linked x hx y hy
    · rw [c.1]; exact hi.lt

end LC
