import Verif.Spec.Eigen
import Verif.Spec.StateVector
import Verif.Proof.LOpApply
/-
Eigen objects are lawful state vectors.
-/
set_option linter.unusedSectionVars false
namespace LC
namespace EigenView
theorem OnlyHere.refl {T : Type _} (v : EigenView) (m : List T) : v.OnlyHere m m := ⟨rfl, fun _ _ => rfl⟩
theorem OnlyHere.trans {T : Type _} {v : EigenView} {a b c : List T} (h : v.OnlyHere a b) (h' : v.OnlyHere b c) : v.OnlyHere a c :=
  ⟨h'.1.trans h.1, fun p hp => (h'.2 p hp).trans (h.2 p hp)⟩
theorem OnlyHere.set {T : Type _} (v : EigenView) (m : List T) {n : Nat} (hn : n < v.size) (x : T) : v.OnlyHere m (m.set (v.addr n) x) :=
  ⟨by simp, fun p hp => by rw [List.getElem?_set_ne (hp n hn).symm]⟩
end EigenView

namespace EigenSV
variable {T : Type _} [AddCommMonoid T] [DecidableEq T]

theorem zeroLoop_here (view : EigenView) (l : List Nat) (hl : ∀ n ∈ l, n < view.size) (mem : List T) :
    view.OnlyHere mem (zeroLoop view l mem) := by
  induction l generalizing mem with
  | nil => exact .refl _ _
  | cons n l ih => exact .trans (.set view mem (hl n (by simp)) 0) (ih (fun m hm => hl m (by simp [hm])) _)

theorem zeroLoop_keep (view : EigenView) (l : List Nat) (mem : List T) (p : Nat) (h : mem.getD p 0 = 0) :
    (zeroLoop view l mem).getD p 0 = 0 := by
  induction l generalizing mem with
  | nil => exact h
  | cons n l ih =>
    refine ih _ ?_
    rw [List.getD_eq_getElem?_getD, List.getElem?_set]
    split_ifs with h1 h2
    · rfl
    · rfl
    · rw [← List.getD_eq_getElem?_getD]; exact h

theorem zeroLoop_zero (view : EigenView) (l : List Nat) (mem : List T) (n : Nat) (hn : n ∈ l) :
    (zeroLoop view l mem).getD (view.addr n) 0 = 0 := by
  induction l generalizing mem with
  | nil => cases hn
  | cons m l ih =>
    rcases List.mem_cons.1 hn with rfl | hn
    · refine zeroLoop_keep view l _ _ ?_
      rw [List.getD_eq_getElem?_getD, List.getElem?_set]
      split_ifs with h1 h2
      · rfl
      · rfl
      · exact absurd rfl h1
    · exact ih _ hn

theorem getElement_ok {sv : EigenSV T} (h : sv.view.Inside sv.mem.length) {n : Nat} (hn : n < sv.view.size) :
    sv.getElement n = .ok (sv.view.amp sv.mem n) := by
  have := h.inside n hn
  simp [getElement, hn, EigenView.amp, this, List.getD_eq_getElem?_getD]

theorem updateAdd_ok {sv : EigenSV T} (h : sv.view.Inside sv.mem.length) {n : Nat} (hn : n < sv.view.size) (x : T) :
    sv.updateAdd n x = .ok ⟨sv.mem.set (sv.view.addr n) (sv.view.amp sv.mem n + x), sv.view⟩ := by
  have := h.inside n hn
  simp [updateAdd, hn, EigenView.amp, this, List.getD_eq_getElem?_getD]

theorem updateAdd_here {sv sv' : EigenSV T} {n : Nat} {x : T} (h : sv.updateAdd n x = .ok sv') :
    sv'.view = sv.view ∧ sv.view.OnlyHere sv.mem sv'.mem := by
  unfold updateAdd at h
  split_ifs at h with hn
  cases hm : sv.mem[sv.view.addr n]? with
  | none => rw [hm] at h; cases h
  | some a => rw [hm] at h; cases h; exact ⟨rfl, .set _ _ hn _⟩

theorem foreachFrom_ok {sv : EigenSV T} (h : sv.view.Inside sv.mem.length) (l : List Nat) (hl : ∀ n ∈ l, n < sv.view.size) :
    sv.foreachFrom l = .ok ((l.filter fun n => decide (sv.view.amp sv.mem n ≠ 0)).map fun n => (n, sv.view.amp sv.mem n)) := by
  induction l with
  | nil => rfl
  | cons n l ih =>
    rw [foreachFrom, getElement_ok h (hl n (by simp))]
    simp only [ih fun m hm => hl m (by simp [hm])]
    by_cases h0 : sv.view.amp sv.mem n = 0
    · simp [h0]
    · simp [h0]

theorem amp_set {view : EigenView} {mem : List T} (h : view.Inside mem.length) {n : Nat} (hn : n < view.size) (x : T) (k : Nat) :
    view.amp (mem.set (view.addr n) x) k = if k = n then x else view.amp mem k := by
  unfold EigenView.amp
  by_cases hk : k < view.size
  · rw [if_pos hk, if_pos hk, List.getD_eq_getElem?_getD, List.getElem?_set]
    by_cases e : k = n
    · subst e; simp [h.inside k hn]
    · rw [if_neg e, if_neg (fun e' => e (h.distinct k hk n hn e'.symm)), ← List.getD_eq_getElem?_getD]
  · rw [if_neg hk, if_neg hk, if_neg (by omega)]

instance : LawfulSV (EigenSV T) T where
  inv v := v.view.Inside v.mem.length
  dom v := {n | n < v.view.size}
  amp v n := v.view.amp v.mem n
  visited v := {n | v.view.amp v.mem n ≠ 0}
  amp_out v n h := by
    rw [Set.mem_ofPred_eq] at h
    rw [EigenView.amp, if_neg h]
  get v n hv h := getElement_ok hv h
  each v hv := by
    refine ⟨_, foreachFrom_ok hv _ (fun n hn => List.mem_range.1 hn), ?_, fun n => ?_, fun p hp => ?_⟩
    · rw [List.map_map]
      have : (Prod.fst ∘ fun n => (n, v.view.amp v.mem n)) = id := rfl
      rw [this, List.map_id]
      exact List.Nodup.filter _ List.nodup_range
    · rw [List.map_map]
      have : (Prod.fst ∘ fun n => (n, v.view.amp v.mem n)) = id := rfl
      rw [this, List.map_id, List.mem_filter, List.mem_range, Set.mem_ofPred_eq]
      constructor
      · rintro ⟨_, h⟩; simpa using h
      · intro h
        refine ⟨?_, by simpa using h⟩
        by_contra hn
        exact h (by rw [EigenView.amp, if_neg hn])
    · obtain ⟨n, _, rfl⟩ := List.mem_map.1 hp
      rfl
  visited_of_ne v n _ h := h
  update v n x hv h := by
    rw [Set.mem_ofPred_eq] at h
    refine ⟨_, updateAdd_ok hv h x, by simpa using hv, rfl, fun k => ?_⟩
    show v.view.amp _ k = _
    rw [amp_set hv h]
    split_ifs with e
    · rw [e]
    · rw [add_zero]
  zero v hv := by
    have h := zeroLoop_here v.view (List.range v.view.size) (fun n hn => List.mem_range.1 hn) v.mem
    refine ⟨?_, rfl, fun n => ?_⟩
    · show v.view.Inside (zeroLoop _ _ _).length
      rw [h.1]; exact hv
    · show v.view.amp (zeroLoop _ _ _) n = 0
      unfold EigenView.amp
      split_ifs with hn
      · exact zeroLoop_zero _ _ _ _ (List.mem_range.2 hn)
      · rfl

instance : LawfulZeros (EigenSV T) where
  zeros v hv := by
    refine ⟨⟨fun i hi => ?_, fun i _ j _ e => ?_⟩, rfl, fun n => ?_⟩
    · have : i < v.view.size := hi
      simpa [ZerosLike.zerosLike, zerosLike, EigenView.map, EigenView.addr] using this
    · simpa [ZerosLike.zerosLike, zerosLike, EigenView.map, EigenView.addr] using e
    · show EigenView.amp _ _ n = 0
      unfold EigenView.amp
      split_ifs with h
      · simp only [ZerosLike.zerosLike, zerosLike, List.getD_eq_getElem?_getD, List.getElem?_replicate]
        split_ifs <;> rfl
      · rfl

end EigenSV

section
variable {S T V : Type _} [CommRing S] [Algebra ℝ S] [AddCommMonoid T] [Module S T] [DecidableEq T] [StateVec V T]

theorem applyTerm_here {k : Nat} {a : T} {ma : MonomialAction} {c : S} {w w' : EigenSV T} (h : applyTerm k a ma c w = .ok w') :
    w'.view = w.view ∧ w.view.OnlyHere w.mem w'.mem := by
  unfold applyTerm at h
  cases hm : ma.act k (1 : S) with
  | ub => rw [hm] at h; cases h
  | zero => rw [hm] at h; cases h; exact ⟨rfl, .refl _ _⟩
  | nonzero i x => rw [hm] at h; exact EigenSV.updateAdd_here h

theorem applyTerms_here {k : Nat} {a : T} (acts : List (MonomialAction × S)) {w w' : EigenSV T} (h : applyTerms k a acts w = .ok w') :
    w'.view = w.view ∧ w.view.OnlyHere w.mem w'.mem := by
  induction acts generalizing w with
  | nil => cases h; exact ⟨rfl, .refl _ _⟩
  | cons p acts ih =>
    rw [applyTerms] at h
    cases h1 : applyTerm k a p.1 p.2 w with
    | error e => rw [h1] at h; cases h
    | ok w1 =>
      rw [h1] at h
      obtain ⟨a1, a2⟩ := applyTerm_here h1
      obtain ⟨b1, b2⟩ := ih h
      rw [a1] at b1 b2
      exact ⟨b1, a2.trans b2⟩

theorem applyAll_here (acts : List (MonomialAction × S)) (l : List (Nat × T)) {w w' : EigenSV T} (h : applyAll acts l w = .ok w') :
    w'.view = w.view ∧ w.view.OnlyHere w.mem w'.mem := by
  induction l generalizing w with
  | nil => cases h; exact ⟨rfl, .refl _ _⟩
  | cons p l ih =>
    rw [applyAll] at h
    cases h1 : applyTerms p.1 p.2 acts w with
    | error e => rw [h1] at h; cases h
    | ok w1 =>
      rw [h1] at h
      obtain ⟨a1, a2⟩ := applyTerms_here acts h1
      obtain ⟨b1, b2⟩ := ih h
      rw [a1] at b1 b2
      exact ⟨b1, a2.trans b2⟩

theorem applyTo_here (op : LOperator S) (src : V) {w w' : EigenSV T} (h : op.applyTo src w = .ok w') :
    w'.view = w.view ∧ w.view.OnlyHere w.mem w'.mem := by
  unfold LOperator.applyTo LOperator.actImpl at h
  cases h1 : StateVec.foreach src with
  | error e => rw [h1] at h; cases h
  | ok l =>
    rw [h1] at h
    obtain ⟨b1, b2⟩ := applyAll_here _ _ h
    exact ⟨b1, .trans (EigenSV.zeroLoop_here w.view _ (fun n hn => List.mem_range.1 hn) w.mem) b2⟩

theorem amp_apart {src dst : EigenView} (hap : src.Apart dst) {m m' : List T} (h : dst.OnlyHere m m') (n : Nat) :
    src.amp m' n = src.amp m n := by
  unfold EigenView.amp
  split_ifs with hn
  · rw [List.getD_eq_getElem?_getD, List.getD_eq_getElem?_getD, h.2 _ (fun i hi => hap n hn i hi)]
  · rfl

theorem sharedTerms_eq {src : EigenView} {n : Nat} (hn : n < src.size) (acts : List (MonomialAction × S)) (w : EigenSV T)
    (hin : src.Inside w.mem.length) (hap : src.Apart w.view) : sharedTerms src n acts w = applyTerms n (src.amp w.mem n) acts w := by
  induction acts generalizing w with
  | nil => rfl
  | cons p acts ih =>
    rw [sharedTerms, applyTerms, EigenSV.getElement_ok (sv := ⟨w.mem, src⟩) hin hn]
    simp only
    cases h1 : applyTerm n (src.amp w.mem n) p.1 p.2 w with
    | error e => rfl
    | ok w1 =>
      obtain ⟨a1, a2⟩ := applyTerm_here h1
      simp only
      rw [ih w1 (by rw [a2.1]; exact hin) (by rw [a1]; exact hap), amp_apart hap a2]

theorem sharedLoop_eq {src : EigenView} (acts : List (MonomialAction × S)) (l : List Nat) (hl : ∀ n ∈ l, n < src.size) (w : EigenSV T)
    (hin : src.Inside w.mem.length) (hap : src.Apart w.view) :
    sharedLoop acts src l w = applyAll acts ((l.filter fun n => decide (src.amp w.mem n ≠ 0)).map fun n => (n, src.amp w.mem n)) w := by
  induction l generalizing w with
  | nil => rfl
  | cons n l ih =>
    have hn := hl n (by simp)
    have hl' : ∀ m ∈ l, m < src.size := fun m hm => hl m (by simp [hm])
    rw [sharedLoop, EigenSV.getElement_ok (sv := ⟨w.mem, src⟩) hin hn]
    simp only
    by_cases h0 : src.amp w.mem n = 0
    · rw [if_pos h0, ih hl' w hin hap, List.filter_cons_of_neg (by simpa using h0)]
    · rw [if_neg h0, List.filter_cons_of_pos (by simpa using h0), List.map_cons, applyAll, sharedTerms_eq hn acts w hin hap]
      cases h1 : applyTerms n (src.amp w.mem n) acts w with
      | error e => rfl
      | ok w1 =>
        obtain ⟨a1, a2⟩ := applyTerms_here acts h1
        simp only
        rw [ih hl' w1 (by rw [a2.1]; exact hin) (by rw [a1]; exact hap)]
        simp only [amp_apart hap a2]

/-- Two objects without common elements in one memory act as if they were in different memories. -/
theorem applyShared_eq (op : LOperator S) (mem : List T) {src dst : EigenView} (hin : src.Inside mem.length) (hap : src.Apart dst) :
    op.applyShared mem src dst = (op.applyTo (EigenSV.mk mem src) (EigenSV.mk mem dst)).map (·.mem) := by
  have hz := EigenSV.zeroLoop_here dst (List.range dst.size) (fun n hn => List.mem_range.1 hn) mem
  unfold LOperator.applyShared LOperator.applyTo LOperator.actImpl
  rw [sharedLoop_eq op.actions _ (fun n hn => List.mem_range.1 hn) _ (by show src.Inside (EigenSV.zeroLoop _ _ _).length; rw [hz.1]; exact hin) hap]
  have hf : StateVec.foreach (EigenSV.mk mem src) = _ := EigenSV.foreachFrom_ok (sv := ⟨mem, src⟩) hin _ (fun n hn => List.mem_range.1 hn)
  rw [hf]
  have ha : ∀ n, src.amp (StateVec.setZeros (EigenSV.mk mem dst)).mem n = src.amp mem n := fun n => amp_apart hap hz n
  simp only [ha]
  cases applyAll op.actions _ (StateVec.setZeros (EigenSV.mk mem dst)) <;> rfl

end
end LC
