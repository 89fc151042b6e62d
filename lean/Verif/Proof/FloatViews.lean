import Verif.Model.FloatViews
import Verif.Proof.FloatBound
/-
Views of vectors of floating-point numbers are vectors of floating-point numbers.
-/
set_option linter.unusedSectionVars false
namespace LC
variable {ι H R V T X : Type _}

/-- The parts of a view are independent of each other. -/
class LawfulPositions (X : Type _) (V : outParam (Type _)) [Positions X V] : Prop where
  base_put : ∀ (x : X) v, Positions.base (Positions.put x v) = v
  put_put : ∀ (x : X) v w, Positions.put (Positions.put x v) w = Positions.put x w
  idx_put : ∀ (x : X) v, Positions.idx (Positions.put x v) = Positions.idx x
  order_put : ∀ (x : X) v, Positions.order (Positions.put x v) = Positions.order x

instance : LawfulPositions (CompView V) V := ⟨fun _ _ => rfl, fun _ _ _ => rfl, fun _ _ => rfl, fun _ _ => rfl⟩
instance [HashImpl H Nat Nat] : LawfulPositions (MappedView H V) V := ⟨fun _ _ => rfl, fun _ _ _ => rfl, fun _ _ => rfl, fun _ _ => rfl⟩
instance [RankingAlg R] : LawfulPositions (SectorView V R) V := ⟨fun _ _ => rfl, fun _ _ _ => rfl, fun _ _ => rfl, fun _ _ => rfl⟩
instance [RankingAlg R] : LawfulPositions (MultiView V R) V := ⟨fun _ _ => rfl, fun _ _ _ => rfl, fun _ _ => rfl, fun _ _ => rfl⟩

variable [AmpOps T] [StateVec V T] [FloatSV V T]

/-- `get_element` returns the stored amplitude. -/
class FloatGet (V : Type _) {T : outParam (Type _)} [AmpOps T] [StateVec V T] [FloatSV V T] : Prop where
  get : ∀ (v : V) n, FloatSV.inv v → n ∈ FloatSV.dom v → StateVec.getElement v n = .ok (FloatSV.amp v n)

instance : FloatGet (FloVec T) where
  get v n _ hn := by
    have hn' : n < v.data.length := hn
    simp only [StateVec.getElement, FloatSV.amp, List.getD_eq_getElem?_getD, List.getElem?_eq_getElem hn', Option.getD_some]

instance [HashImpl H Nat T] : FloatGet (FloSparse H T) := ⟨fun _ _ _ _ => rfl⟩

variable [FloatGet V] [Positions X V] [LawfulPositions X V]
open Positions

theorem Flo.viewForeach_spec (sv : V) (hsv : FloatSV.inv sv) (l : List (Nat × Nat)) (h : ∀ p ∈ l, p.2 ∈ FloatSV.dom sv) :
    Flo.viewForeach sv l = .ok ((l.map fun p => (p.1, FloatSV.amp sv p.2)).filter fun q => !AmpOps.isZero q.2) := by
  induction l with
  | nil => rfl
  | cons p l ih =>
    obtain ⟨st, pos⟩ := p
    rw [Flo.viewForeach, FloatGet.get sv pos hsv (h _ List.mem_cons_self), ih fun q hq => h q (List.mem_cons_of_mem _ hq)]
    simp only [List.map_cons, List.filter_cons]
    by_cases ha : AmpOps.isZero (FloatSV.amp sv pos) = true
    · simp [ha]
    · simp [ha]

namespace FloView

/-- The pairs visited by a view. -/
def states (x : FloView X) : List (Nat × Nat) := match order x.view with | .error _ => [] | .ok l => l

/-- The amplitude of a basis state seen through the view. -/
def vamp (x : FloView X) (n : Nat) : T :=
  match x.states.find? fun p => p.1 = n with
  | none => AmpOps.zero
  | some p => FloatSV.amp (base x.view) p.2

/-- Consistency of translation and iteration. -/
structure Good (x : FloView X) : Prop where
  inv : FloatSV.inv (base x.view)
  order_ok : order x.view = .ok x.states
  nodup : (x.states.map Prod.fst).Nodup
  idx_eq : ∀ p ∈ x.states, idx x.view p.1 = .ok p.2
  inj : ∀ p ∈ x.states, ∀ q ∈ x.states, p.2 = q.2 → p = q
  dom : ∀ p ∈ x.states, p.2 ∈ FloatSV.dom (base x.view)

theorem find_of_mem {x : FloView X} (h : Good x) {p : Nat × Nat} (hp : p ∈ x.states) : x.states.find? (fun q => q.1 = p.1) = some p := by
  have hn := h.nodup
  generalize x.states = l at hp hn
  induction l with
  | nil => cases hp
  | cons q l ih =>
    rw [List.map_cons, List.nodup_cons] at hn
    rcases List.mem_cons.1 hp with rfl | hp'
    · simp
    · rw [List.find?_cons_of_neg, ih hp' hn.2]
      simp only [decide_eq_true_eq]
      intro e
      exact hn.1 (e ▸ List.mem_map_of_mem hp')

theorem vamp_of_mem {x : FloView X} (h : Good x) {p : Nat × Nat} (hp : p ∈ x.states) : x.vamp p.1 = FloatSV.amp (base x.view) p.2 := by
  rw [vamp, find_of_mem h hp]

theorem vamp_of_not {x : FloView X} {n : Nat} (hn : n ∉ x.states.map Prod.fst) : x.vamp n = AmpOps.zero := by
  rw [vamp, List.find?_eq_none.2]
  intro p hp
  simp only [decide_eq_true_eq]
  rintro rfl
  exact hn (List.mem_map_of_mem hp)

theorem states_put (x : FloView X) (v : V) : (⟨put x.view v⟩ : FloView X).states = x.states := by
  simp only [states, LawfulPositions.order_put]

theorem good_put {x : FloView X} (hx : Good x) {v : V} (h1 : FloatSV.inv v) (h2 : FloatSV.dom v = FloatSV.dom (base x.view)) :
    Good (⟨put x.view v⟩ : FloView X) := by
  refine ⟨by simp only [LawfulPositions.base_put]; exact h1, ?_, by rw [states_put]; exact hx.nodup, ?_, ?_, ?_⟩
  · rw [states_put]; simp only [LawfulPositions.order_put]; exact hx.order_ok
  · intro q hq; rw [states_put] at hq; simp only [LawfulPositions.idx_put]; exact hx.idx_eq q hq
  · intro q hq r hr; rw [states_put] at hq hr; exact hx.inj q hq r hr
  · intro q hq; rw [states_put] at hq; simp only [LawfulPositions.base_put, h2]; exact hx.dom q hq

instance : FloatSV (FloView X) T where
  drop := FloatSV.drop V
  inv := Good
  dom x := {n | n ∈ x.states.map Prod.fst}
  amp := vamp
  visited x := {n | n ∈ x.states.map Prod.fst ∧ AmpOps.isZero (x.vamp n) = false}
  each x hx := by
    refine ⟨(x.states.map fun p => (p.1, FloatSV.amp (base x.view) p.2)).filter fun q => !AmpOps.isZero q.2, ?_, ?_, ?_, ?_⟩
    · simp only [StateVec.foreach]
      rw [hx.order_ok]
      exact Flo.viewForeach_spec _ hx.inv _ hx.dom
    · have : ((x.states.map fun p => (p.1, FloatSV.amp (base x.view) p.2)).filter fun q => !AmpOps.isZero q.2).Sublist
          (x.states.map fun p => (p.1, FloatSV.amp (base x.view) p.2)) := List.filter_sublist
      refine (this.map Prod.fst).nodup ?_
      rw [List.map_map]
      exact hx.nodup
    · intro n
      simp only [List.mem_map, List.mem_filter, Bool.not_eq_true', Set.mem_ofPred_eq]
      constructor
      · rintro ⟨q, ⟨⟨p, hp, rfl⟩, hq⟩, rfl⟩
        exact ⟨⟨p, hp, rfl⟩, by rw [vamp_of_mem hx hp]; exact hq⟩
      · rintro ⟨⟨p, hp, rfl⟩, hn⟩
        rw [vamp_of_mem hx hp] at hn
        exact ⟨_, ⟨⟨p, hp, rfl⟩, hn⟩, rfl⟩
    · intro q hq
      obtain ⟨⟨p, hp, rfl⟩, _⟩ := (List.mem_filter.1 hq).imp_left List.mem_map.1
      exact (vamp_of_mem hx hp).symm
  skipped x n _ h := by
    by_cases hm : n ∈ x.states.map Prod.fst
    · right
      by_contra hc
      exact h ⟨hm, by simpa using hc⟩
    · exact .inl (vamp_of_not hm)
  update x n a hx hn := by
    obtain ⟨p, hp, rfl⟩ := List.mem_map.1 hn
    obtain ⟨v, e1, e2, e3, e4, e5⟩ := FloatSV.update (base x.view) p.2 a hx.inv (hx.dom p hp)
    have hg := good_put hx e2 e3
    have hpp : p ∈ (⟨put x.view v⟩ : FloView X).states := by rw [states_put]; exact hp
    refine ⟨⟨put x.view v⟩, ?_, hg, by rw [states_put], fun k hk => ?_, ?_⟩
    · simp only [StateVec.updateAdd]
      rw [hx.idx_eq p hp]
      simp only
      rw [e1]
    · by_cases hkm : k ∈ x.states.map Prod.fst
      · obtain ⟨q, hq, rfl⟩ := List.mem_map.1 hkm
        rw [vamp_of_mem hg (by rw [states_put]; exact hq), vamp_of_mem hx hq]
        simp only [LawfulPositions.base_put]
        refine e4 _ fun he => hk ?_
        rw [hx.inj q hq p hp he]
      · rw [vamp_of_not hkm, vamp_of_not (by rw [states_put]; exact hkm)]
    · rw [vamp_of_mem hg hpp, vamp_of_mem hx hp]
      simp only [LawfulPositions.base_put]
      exact e5
  zero x hx := by
    obtain ⟨z1, z2, z3⟩ := FloatSV.zero (base x.view) hx.inv
    have hg := good_put hx z1 z2
    refine ⟨hg, by simp only [StateVec.setZeros, states_put], fun k => ?_⟩
    by_cases hk : k ∈ x.states.map Prod.fst
    · obtain ⟨q, hq, rfl⟩ := List.mem_map.1 hk
      refine (vamp_of_mem hg (by rw [states_put]; exact hq)).trans ?_
      simp only [LawfulPositions.base_put]
      exact z3 _
    · refine vamp_of_not ?_
      simp only [StateVec.setZeros, states_put]
      exact hk

/-- A view that stores the amplitude of the `i`-th element of a list at position `i`. -/
theorem good_of_list (x : FloView X) (L : List Nat) (hst : ∃ l, order x.view = .ok l ∧ ∀ p, p ∈ l ↔ L[p.2]? = some p.1)
    (hlk : (x.states.map Prod.fst).Nodup)
    (hidx : ∀ i s, L[i]? = some s → idx x.view s = .ok i)
    (hinv : FloatSV.inv (base x.view)) (hdom : ∀ i < L.length, i ∈ FloatSV.dom (base x.view)) :
    FloatSV.inv x ∧ (∀ n, n ∈ FloatSV.dom x ↔ n ∈ L) ∧
      (∀ i n, L[i]? = some n → FloatSV.amp x n = FloatSV.amp (base x.view) i) ∧ ∀ n, n ∉ L → FloatSV.amp x n = AmpOps.zero := by
  obtain ⟨l, h1, h2⟩ := hst
  have hs : x.states = l := by rw [states, h1]
  have hg : Good x := by
    refine ⟨hinv, by rw [hs]; exact h1, hlk, ?_, ?_, ?_⟩
    · intro p hp; rw [hs] at hp; exact hidx _ _ ((h2 p).1 hp)
    · intro p hp q hq hpq
      rw [hs] at hp hq
      have a := (h2 p).1 hp
      have b := (h2 q).1 hq
      rw [hpq, b] at a
      exact Prod.ext (Option.some.inj a).symm hpq
    · intro p hp; rw [hs] at hp
      exact hdom _ (List.getElem?_eq_some_iff.1 ((h2 p).1 hp)).1
  have hmem : ∀ n, n ∈ x.states.map Prod.fst ↔ n ∈ L := by
    intro n
    rw [hs, List.mem_map]
    constructor
    · rintro ⟨p, hp, rfl⟩; exact List.mem_of_getElem? ((h2 p).1 hp)
    · intro hn
      obtain ⟨i, hi⟩ := List.mem_iff_getElem?.1 hn
      exact ⟨(n, i), (h2 (n, i)).2 hi, rfl⟩
  refine ⟨hg, hmem, fun i n hi => ?_, fun n hn => vamp_of_not fun h => hn ((hmem n).1 h)⟩
  exact vamp_of_mem (p := (n, i)) hg (by rw [hs]; exact (h2 (n, i)).2 hi)

end FloView

/-- What every update preserves is preserved by the application of an operator. -/
theorem Flo.applyAll_rel {D S W T : Type _} [AmpOps T] [CoefOps D S T] [StateVec W T] (R : W → W → Prop)
    (refl : ∀ v, R v v) (trans : ∀ u v w, R u v → R v w → R u w)
    (upd : ∀ (v : W) n a v', StateVec.updateAdd v n a = .ok v' → R v v') (acts : List (MonomialAction × S)) (l : List (Nat × T))
    (v v' : W) (h : Flo.applyAll acts l v = .ok v') : R v v' := by
  have terms : ∀ (acts : List (MonomialAction × S)) k (a : T) (v v' : W), Flo.applyTerms k a acts v = .ok v' → R v v' := by
    intro acts k a
    induction acts with
    | nil => intro v v' h; cases h; exact refl _
    | cons p acts ih =>
      intro v v' h
      obtain ⟨ma, c⟩ := p
      rw [Flo.applyTerms] at h
      cases ht : Flo.applyTerm k a ma c v with
      | error e => rw [ht] at h; cases h
      | ok v1 =>
        rw [ht] at h
        refine trans _ _ _ ?_ (ih _ _ h)
        unfold Flo.applyTerm at ht
        split at ht
        · cases ht
        · cases ht; exact refl _
        · exact upd _ _ _ _ ht
  induction l generalizing v with
  | nil => cases h; exact refl _
  | cons q l ih =>
    obtain ⟨k, a⟩ := q
    rw [Flo.applyAll] at h
    cases ht : Flo.applyTerms k a acts v with
    | error e => rw [ht] at h; cases h
    | ok v1 => rw [ht] at h; exact trans _ _ _ (terms _ _ _ _ _ ht) (ih _ h)

/-- Applying an operator changes the adapted vector only. -/
theorem Flo.applyTo_put {D S Z : Type _} [CoefOps D S T] [StateVec Z T] (op : LOperator S) (src : Z) (dst dst' : FloView X)
    (h : Flo.applyTo op src dst = .ok dst') : dst'.view = put dst.view (base dst'.view) := by
  have := Flo.applyAll_rel (W := FloView X) (T := T) (S := S) (fun a b => b.view = put a.view (base b.view) ∨ b = a) (fun _ => .inr rfl)
    (by
      rintro a b c (h1 | rfl) (h2 | rfl)
      · left; rw [h2, h1, LawfulPositions.put_put, LawfulPositions.base_put]
      · exact .inl h1
      · exact .inl h2
      · exact .inr rfl)
    (by
      intro v n a v' h
      simp only [StateVec.updateAdd] at h
      split at h
      · cases h
      · split at h
        · cases h
        · cases h; left; simp only [LawfulPositions.base_put])
  unfold Flo.applyTo Flo.actImpl at h
  split at h
  · cases h
  · rcases this _ _ _ _ h with h1 | h1
    · rw [h1]; simp only [StateVec.setZeros, LawfulPositions.put_put, LawfulPositions.base_put]
    · rw [h1]; simp only [StateVec.setZeros, LawfulPositions.base_put]

end LC
