import Verif.Model.Views
import Verif.Proof.StateVec
import Verif.Proof.LOpBasic
/-
Views of state vectors: if a view reads and writes the adapted vector at translated positions, then it behaves as a state vector.
-/
set_option linter.unusedSectionVars false
namespace LC
variable {X V T : Type _} [AddCommMonoid T] [DecidableEq T] [StateVec V T] [LawfulSV V T] [StateVec X T]

theorem viewForeach_spec (sv : V) (hsv : LawfulSV.inv sv) (l : List (Nat × Nat)) (h : ∀ p ∈ l, p.2 ∈ LawfulSV.dom sv) :
    viewForeach (T := T) sv l = .ok ((l.map fun p => (p.1, LawfulSV.amp sv p.2)).filter fun q => decide (q.2 ≠ 0)) := by
  induction l with
  | nil => rfl
  | cons p l ih =>
    obtain ⟨st, pos⟩ := p
    rw [viewForeach, LawfulSV.get sv pos hsv (h _ List.mem_cons_self), ih fun q hq => h q (List.mem_cons_of_mem _ hq)]
    simp only [List.map_cons, List.filter_cons]
    by_cases ha : LawfulSV.amp sv pos = 0
    · simp [ha]
    · simp [ha]

/-- How a view accesses the adapted vector. -/
class ViewOf (X : Type _) (V : outParam (Type _)) (T : outParam (Type _)) [AddCommMonoid T] [DecidableEq T] [StateVec V T]
    [StateVec X T] where
  base : X → V
  put : X → V → X
  idx : X → Nat → Except SVError Nat
  /-- basis states and positions, in the order of iteration -/
  states : X → List (Nat × Nat)
  base_put : ∀ x v, base (put x v) = v
  put_base : ∀ x, put x (base x) = x
  put_put : ∀ x v w, put (put x v) w = put x w
  idx_put : ∀ x v, idx (put x v) = idx x
  states_put : ∀ x v, states (put x v) = states x
  get_eq : ∀ x n k, idx x n = .ok k → StateVec.getElement x n = StateVec.getElement (base x) k
  upd_eq : ∀ x n k a, idx x n = .ok k → StateVec.updateAdd x n a = match StateVec.updateAdd (base x) k a with
    | .error e => .error e
    | .ok v => .ok (put x v)
  zero_eq : ∀ x, StateVec.setZeros x = put x (StateVec.setZeros (base x))

namespace ViewOf
variable [ViewOf X V T]

/-- The amplitude of a basis state seen through the view. -/
def vamp (x : X) (n : Nat) : T :=
  match (states x).find? fun p => p.1 = n with
  | none => 0
  | some p => LawfulSV.amp (base x) p.2

/-- Consistency of translation and iteration. -/
structure Good (x : X) : Prop where
  inv : LawfulSV.inv (base x)
  nodup : ((states x).map Prod.fst).Nodup
  idx_eq : ∀ p ∈ states x, idx x p.1 = .ok p.2
  inj : ∀ p ∈ states x, ∀ q ∈ states x, p.2 = q.2 → p = q
  dom : ∀ p ∈ states x, p.2 ∈ LawfulSV.dom (base x)
  each : ∀ v, StateVec.foreach (put x v) = viewForeach v (states x)

theorem find_of_mem {x : X} (h : Good x) {p : Nat × Nat} (hp : p ∈ states x) : (states x).find? (fun q => q.1 = p.1) = some p := by
  have hn := h.nodup
  generalize states x = l at hp hn
  induction l with
  | nil => cases hp
  | cons q l ih =>
    rw [List.map_cons, List.nodup_cons] at hn
    rcases List.mem_cons.1 hp with rfl | hp'
    · simp
    · rw [List.find?_cons_of_neg, ih hp' hn.2]
      simp only [decide_eq_true_eq]
      intro e
      exact hn.1 (e ▸ List.mem_map_of_mem hp')

theorem vamp_of_mem {x : X} (h : Good x) {p : Nat × Nat} (hp : p ∈ states x) : vamp x p.1 = LawfulSV.amp (base x) p.2 := by
  rw [vamp, find_of_mem h hp]

theorem vamp_of_not {x : X} {n : Nat} (hn : n ∉ (states x).map Prod.fst) : vamp x n = 0 := by
  rw [vamp, List.find?_eq_none.2]
  intro p hp
  simp only [decide_eq_true_eq]
  rintro rfl
  exact hn (List.mem_map_of_mem hp)

instance : LawfulSV X T where
  inv := Good
  dom x := {n | n ∈ (states x).map Prod.fst}
  amp := vamp
  visited x := {n | vamp x n ≠ 0}
  amp_out x n h := vamp_of_not h
  get x n hx hn := by
    obtain ⟨p, hp, rfl⟩ := List.mem_map.1 hn
    rw [get_eq x _ _ (hx.idx_eq p hp), vamp_of_mem hx hp]
    exact LawfulSV.get _ _ hx.inv (hx.dom p hp)
  each x hx := by
    refine ⟨_, ((congrArg StateVec.foreach (put_base x)).symm.trans (hx.each (base x))).trans (viewForeach_spec _ hx.inv _ hx.dom), ?_, ?_, ?_⟩
    · have : (((states x).map fun p => (p.1, LawfulSV.amp (base x) p.2)).filter fun q => decide (q.2 ≠ 0)).Sublist
          ((states x).map fun p => (p.1, LawfulSV.amp (base x) p.2)) := List.filter_sublist
      refine (this.map Prod.fst).nodup ?_
      rw [List.map_map]
      exact hx.nodup
    · intro n
      simp only [List.mem_map, List.mem_filter, decide_eq_true_eq, Set.mem_ofPred_eq]
      constructor
      · rintro ⟨q, ⟨⟨p, hp, rfl⟩, hq⟩, rfl⟩
        rw [vamp_of_mem hx hp]; exact hq
      · intro hn
        by_cases hm : n ∈ (states x).map Prod.fst
        · obtain ⟨p, hp, rfl⟩ := List.mem_map.1 hm
          rw [vamp_of_mem hx hp] at hn
          exact ⟨_, ⟨⟨p, hp, rfl⟩, hn⟩, rfl⟩
        · exact absurd (vamp_of_not hm) hn
    · intro q hq
      obtain ⟨⟨p, hp, rfl⟩, _⟩ := (List.mem_filter.1 hq).imp_left List.mem_map.1
      exact (vamp_of_mem hx hp).symm
  visited_of_ne x n _ h := h
  update x n a hx hn := by
    obtain ⟨p, hp, rfl⟩ := List.mem_map.1 hn
    obtain ⟨v, e1, e2, e3, e4⟩ := LawfulSV.update (base x) p.2 a hx.inv (hx.dom p hp)
    have hg : Good (put x v) := by
      refine ⟨by rw [base_put]; exact e2, by rw [states_put]; exact hx.nodup, ?_, ?_, ?_, fun w => by rw [put_put, states_put]; exact hx.each w⟩
      · intro q hq; rw [states_put] at hq; rw [idx_put]; exact hx.idx_eq q hq
      · intro q hq r hr; rw [states_put] at hq hr; exact hx.inj q hq r hr
      · intro q hq; rw [states_put] at hq; rw [base_put, e3]; exact hx.dom q hq
    refine ⟨put x v, by rw [upd_eq x _ _ a (hx.idx_eq p hp), e1], hg, by rw [states_put], fun k => ?_⟩
    by_cases hk : k ∈ (states x).map Prod.fst
    · obtain ⟨q, hq, rfl⟩ := List.mem_map.1 hk
      rw [vamp_of_mem hg (by rw [states_put]; exact hq), vamp_of_mem hx hq, base_put, e4]
      by_cases he : q.2 = p.2
      · have := hx.inj q hq p hp he
        rw [if_pos he, if_pos (by rw [this])]
      · rw [if_neg he, if_neg]
        intro h1
        have e1 := find_of_mem hx hq
        rw [h1, find_of_mem hx hp] at e1
        cases e1
        exact he rfl
    · rw [vamp_of_not hk, vamp_of_not (x := put x v) (by rw [states_put]; exact hk), if_neg, add_zero]
      rintro rfl; exact hk (List.mem_map_of_mem hp)
  zero x hx := by
    obtain ⟨z1, z2, z3⟩ := LawfulSV.zero (base x) hx.inv
    rw [zero_eq]
    have hg : Good (put x (StateVec.setZeros (base x))) := by
      refine ⟨by rw [base_put]; exact z1, by rw [states_put]; exact hx.nodup, ?_, ?_, ?_, fun w => by rw [put_put, states_put]; exact hx.each w⟩
      · intro q hq; rw [states_put] at hq; rw [idx_put]; exact hx.idx_eq q hq
      · intro q hq r hr; rw [states_put] at hq hr; exact hx.inj q hq r hr
      · intro q hq; rw [states_put] at hq; rw [base_put, z2]; exact hx.dom q hq
    refine ⟨hg, by rw [states_put], fun k => ?_⟩
    by_cases hk : k ∈ (states x).map Prod.fst
    · obtain ⟨q, hq, rfl⟩ := List.mem_map.1 hk
      rw [vamp_of_mem hg (by rw [states_put]; exact hq), base_put, z3]
    · exact vamp_of_not (by rw [states_put]; exact hk)

end ViewOf

/-- What every update preserves is preserved by the application of an operator. -/
theorem applyAll_rel {S W T : Type _} [CommRing S] [Algebra ℝ S] [AddCommMonoid T] [Module S T] [StateVec W T] (R : W → W → Prop)
    (refl : ∀ v, R v v) (trans : ∀ u v w, R u v → R v w → R u w)
    (upd : ∀ (v : W) n a v', StateVec.updateAdd v n a = .ok v' → R v v') (acts : List (MonomialAction × S)) (l : List (Nat × T))
    (v v' : W) (h : applyAll acts l v = .ok v') : R v v' := by
  have terms : ∀ (acts : List (MonomialAction × S)) k (a : T) (v v' : W), applyTerms k a acts v = .ok v' → R v v' := by
    intro acts k a
    induction acts with
    | nil => intro v v' h; cases h; exact refl _
    | cons p acts ih =>
      intro v v' h
      obtain ⟨ma, c⟩ := p
      rw [applyTerms] at h
      cases ht : applyTerm k a ma c v with
      | error e => rw [ht] at h; cases h
      | ok v1 =>
        rw [ht] at h
        refine trans _ _ _ ?_ (ih v1 v' h)
        rw [applyTerm] at ht
        split at ht
        · cases ht
        · cases ht; exact refl _
        · exact upd _ _ _ _ ht
  induction l generalizing v with
  | nil => cases h; exact refl _
  | cons p l ih =>
    obtain ⟨k, a⟩ := p
    rw [applyAll] at h
    cases ht : applyTerms k a acts v with
    | error e => rw [ht] at h; cases h
    | ok v1 =>
      rw [ht] at h
      exact trans _ _ _ (terms _ _ _ _ _ ht) (ih v1 h)

instance CompView.viewOf : ViewOf (CompView V) V T where
  base x := x.sv
  put x v := { x with sv := v }
  idx x n := x.mapIndex n
  states x := (x.foreachAlg.run fun _ ind => ind).1.zipIdx
  base_put _ _ := rfl
  put_base _ := rfl
  put_put _ _ _ := rfl
  idx_put _ _ := rfl
  states_put _ _ := rfl
  get_eq x n k h := by simp only [StateVec.getElement, h]
  upd_eq x n k a h := by simp only [StateVec.updateAdd, h]; rfl
  zero_eq _ := rfl

instance MappedView.viewOf {H : Type _} [HashImpl H Nat Nat] : ViewOf (MappedView H V) V T where
  base x := x.sv
  put x v := { x with sv := v }
  idx x n := x.mapIndex n
  states x := x.map.items
  base_put _ _ := rfl
  put_base _ := rfl
  put_put _ _ _ := rfl
  idx_put _ _ := rfl
  states_put _ _ := rfl
  get_eq x n k h := by simp only [StateVec.getElement, h]
  upd_eq x n k a h := by simp only [StateVec.updateAdd, h]; rfl
  zero_eq _ := rfl

end LC
