import Mathlib.Data.List.Nodup
import Mathlib.Data.Finset.Card
import Mathlib.Data.Set.Card
import Verif.Spec.StateVector
/-
The two state vector types are lawful.
-/
set_option linter.unusedSectionVars false
set_option linter.unusedSimpArgs false
namespace LC

/-! ### `std::vector` -/
namespace DenseSV
variable {T : Type _} [AddCommMonoid T] [DecidableEq T]

theorem foreachFrom_spec (l : List T) (n : Nat) :
    ((foreachFrom n l).map Prod.fst).Nodup ∧ (∀ p, p ∈ foreachFrom n l ↔ n ≤ p.1 ∧ p.2 ≠ 0 ∧ l[p.1 - n]? = some p.2) := by
  induction l generalizing n with
  | nil => simp [foreachFrom]
  | cons a l ih =>
    obtain ⟨h1, h2⟩ := ih (n + 1)
    have hmem : ∀ p : Nat × T, (n ≤ p.1 ∧ p.2 ≠ 0 ∧ (a :: l)[p.1 - n]? = some p.2) ↔
        (p = (n, a) ∧ a ≠ 0) ∨ (n + 1 ≤ p.1 ∧ p.2 ≠ 0 ∧ l[p.1 - (n + 1)]? = some p.2) := by
      rintro ⟨k, b⟩
      simp only
      by_cases hk : n + 1 ≤ k
      · obtain ⟨j, rfl⟩ := Nat.exists_eq_add_of_le hk
        rw [show n + 1 + j - n = j + 1 by omega, show n + 1 + j - (n + 1) = j by omega]
        simp only [List.getElem?_cons_succ, Prod.mk.injEq]
        constructor
        · rintro ⟨_, h, h'⟩; exact Or.inr ⟨hk, h, h'⟩
        · rintro (⟨⟨h, _⟩, _⟩ | ⟨_, h, h'⟩)
          · omega
          · exact ⟨by omega, h, h'⟩
      · by_cases hkn : k = n
        · subst hkn
          simp only [Nat.sub_self, List.getElem?_cons_zero, Option.some.injEq, Prod.mk.injEq]
          constructor
          · rintro ⟨_, h, h'⟩; exact Or.inl ⟨⟨trivial, h'.symm⟩, h' ▸ h⟩
          · rintro (⟨⟨_, h⟩, h'⟩ | ⟨h, _⟩)
            · exact ⟨le_refl _, h ▸ h', h.symm⟩
            · omega
        · constructor
          · rintro ⟨h, _⟩; omega
          · rintro (⟨h, _⟩ | ⟨h, _⟩)
            · simp only [Prod.mk.injEq] at h; exact absurd h.1 hkn
            · omega
    unfold foreachFrom
    split
    · next ha =>
      refine ⟨h1, fun p => ?_⟩
      rw [hmem, h2]
      simp [ha]
    · next ha =>
      refine ⟨?_, fun p => ?_⟩
      · rw [List.map_cons, List.nodup_cons]
        refine ⟨fun h => ?_, h1⟩
        obtain ⟨p, hp, hpn⟩ := List.mem_map.1 h
        have := ((h2 p).1 hp).1
        omega
      · rw [List.mem_cons, hmem, h2]
        simp [ha]

theorem getD_set (l : List T) (n k : Nat) (x : T) (h : n < l.length) :
    (l.set n (l[n] + x)).getD k 0 = l.getD k 0 + if k = n then x else 0 := by
  rw [List.getD_eq_getElem?_getD, List.getD_eq_getElem?_getD, List.getElem?_set]
  by_cases hk : n = k
  · subst hk; simp [h]
  · rw [if_neg hk, if_neg (Ne.symm hk), add_zero]

instance : LawfulSV (DenseSV T) T where
  inv _ := True
  dom v := {n | n < v.data.length}
  amp v n := v.data.getD n 0
  visited v := {n | v.data.getD n 0 ≠ 0}
  amp_out v n h := by
    rw [Set.mem_ofPred_eq, not_lt] at h
    rw [List.getD_eq_getElem?_getD, List.getElem?_eq_none h]; rfl
  get v n _ h := by
    rw [Set.mem_ofPred_eq] at h
    simp [StateVec.getElement, DenseSV.getElement, h]
  each v _ := by
    obtain ⟨h1, h2⟩ := foreachFrom_spec v.data 0
    refine ⟨_, rfl, h1, fun n => ?_, fun p hp => ?_⟩
    · rw [List.mem_map, Set.mem_ofPred_eq]
      constructor
      · rintro ⟨p, hp, rfl⟩
        obtain ⟨_, h3, h4⟩ := (h2 p).1 hp
        rw [Nat.sub_zero] at h4
        rw [List.getD_eq_getElem?_getD, h4]; exact h3
      · intro h
        refine ⟨(n, v.data.getD n 0), (h2 _).2 ⟨Nat.zero_le _, h, ?_⟩, rfl⟩
        rw [Nat.sub_zero]
        rw [List.getD_eq_getElem?_getD] at h ⊢
        cases hh : v.data[n]? with
        | none => rw [hh] at h; simp at h
        | some a => rfl
    · obtain ⟨_, h3, h4⟩ := (h2 p).1 hp
      rw [Nat.sub_zero] at h4
      rw [List.getD_eq_getElem?_getD, h4]; rfl
  visited_of_ne v n _ h := h
  update v n x _ h := by
    rw [Set.mem_ofPred_eq] at h
    refine ⟨⟨v.data.set n (v.data[n] + x)⟩, ?_, trivial, ?_, fun k => getD_set _ _ _ _ h⟩
    · simp [StateVec.updateAdd, DenseSV.updateAdd, h]
    · ext k; simp
  zero v _ := by
    refine ⟨trivial, ?_, fun n => ?_⟩
    · ext k; simp [StateVec.setZeros, DenseSV.setZeros]
    · simp only [StateVec.setZeros, DenseSV.setZeros, List.getD_eq_getElem?_getD, List.getElem?_map]
      cases v.data[n]? <;> rfl

instance : LawfulZeros (DenseSV T) where
  zeros v _ := by
    refine ⟨trivial, ?_, fun n => ?_⟩
    · ext k; simp [ZerosLike.zerosLike, DenseSV.zerosLike, LawfulSV.dom]
    · simp only [ZerosLike.zerosLike, DenseSV.zerosLike, LawfulSV.amp, List.getD_eq_getElem?_getD]
      by_cases h : n < v.data.length
      · simp [h]
      · rw [List.getElem?_eq_none (by simpa using h)]; rfl

end DenseSV

/-! ### `std::unordered_map` -/
namespace UMap
variable {H K V : Type _} [HashImpl H K V] [DecidableEq K]

/-- Keys are unique. -/
def Nodup (m : UMap H K V) : Prop := (m.items.map Prod.fst).Nodup

theorem find?_iff {m : UMap H K V} (h : m.Nodup) (k : K) (v : V) : m.find? k = some v ↔ (k, v) ∈ m.items := by
  unfold Nodup at h
  unfold find?
  revert h
  induction m.items with
  | nil => simp
  | cons p l ih =>
    intro h
    rw [List.map_cons, List.nodup_cons] at h
    rw [List.find?_cons]
    by_cases hp : p.1 = k
    · simp only [hp, decide_true, Option.map_some, Option.some.injEq, List.mem_cons]
      constructor
      · intro e; left; rw [← hp, ← e]
      · rintro (e | e)
        · rw [← e]
        · exfalso; apply h.1; rw [hp]; exact List.mem_map.2 ⟨_, e, rfl⟩
    · simp only [hp, decide_false, List.mem_cons]
      rw [ih h.2]
      constructor
      · exact Or.inr
      · rintro (e | e)
        · rw [← e] at hp; exact absurd rfl hp
        · exact e

theorem find?_none {m : UMap H K V} (k : K) : m.find? k = none ↔ k ∉ m.items.map Prod.fst := by
  unfold find?
  simp only [Option.map_eq_none_iff, List.find?_eq_none, decide_eq_true_eq, List.mem_map, not_exists, not_and]

theorem nodup_empty : (empty : UMap H K V).Nodup := by simp [Nodup, empty]

theorem emplace_spec {m : UMap H K V} (h : m.Nodup) (k : K) (v : V) :
    (m.emplace k v).Nodup ∧ ∀ k', (m.emplace k v).find? k' = if k' = k ∧ m.find? k = none then some v else m.find? k' := by
  unfold emplace
  cases hf : m.find? k with
  | some x => simp [h]
  | none =>
    simp only
    have hp := HashImpl.insert_perm m.h m.items (k, v)
    have hnd : (UMap.mk (HashImpl.insert m.h m.items (k, v)).1 (HashImpl.insert m.h m.items (k, v)).2 : UMap H K V).Nodup := by
      unfold Nodup
      rw [(hp.map Prod.fst).nodup_iff, List.map_cons, List.nodup_cons]
      exact ⟨(find?_none k).1 hf, h⟩
    refine ⟨hnd, fun k' => ?_⟩
    apply Option.ext
    intro x
    rw [find?_iff hnd, hp.mem_iff, List.mem_cons, ← find?_iff h]
    by_cases hk : k' = k
    · subst hk; simp [hf, eq_comm]
    · simp [hk]

theorem assign_spec {m : UMap H K V} (h : m.Nodup) (k : K) (v : V) (hk : m.find? k ≠ none) :
    (m.assign k v).Nodup ∧ ∀ k', (m.assign k v).find? k' = if k' = k then some v else m.find? k' := by
  have hkeys : (m.assign k v).items.map Prod.fst = m.items.map Prod.fst := by
    simp only [assign, List.map_map]
    refine List.map_congr_left fun p _ => ?_
    simp only [Function.comp]; split <;> rfl
  have hnd : (m.assign k v).Nodup := by unfold Nodup; rw [hkeys]; exact h
  refine ⟨hnd, fun k' => ?_⟩
  apply Option.ext
  intro x
  rw [find?_iff hnd]
  simp only [assign, List.mem_map]
  by_cases hk' : k' = k
  · subst hk'
    rw [if_pos rfl]
    constructor
    · rintro ⟨p, hp, e⟩
      split at e
      · simp only [Prod.mk.injEq] at e; rw [e.2]
      · next hne => rw [e] at hne; exact absurd rfl hne
    · intro e
      simp only [Option.some.injEq] at e
      obtain ⟨y, hy⟩ := Option.ne_none_iff_exists'.1 hk
      exact ⟨(k', y), (find?_iff h _ _).1 hy, by simp [e]⟩
  · rw [if_neg hk', find?_iff h]
    constructor
    · rintro ⟨p, hp, e⟩
      split at e
      · next he => simp only [Prod.mk.injEq] at e; exact absurd (e.1.symm.trans he) hk'
      · rw [← e]; exact hp
    · intro e
      exact ⟨_, e, by simp [hk']⟩

theorem set_spec {m : UMap H K V} (h : m.Nodup) (k : K) (v : V) :
    (m.set k v).Nodup ∧ ∀ k', (m.set k v).find? k' = if k' = k then some v else m.find? k' := by
  unfold set
  cases hf : m.find? k with
  | some x => exact assign_spec h k v (by simp [hf])
  | none =>
    obtain ⟨h1, h2⟩ := emplace_spec h k v
    exact ⟨h1, fun k' => by rw [h2]; simp [hf]⟩

theorem erase_spec {m : UMap H K V} (h : m.Nodup) (k : K) :
    (m.erase k).Nodup ∧ ∀ k', (m.erase k).find? k' = if k' = k then none else m.find? k' := by
  have hnd : (m.erase k).Nodup := List.Sublist.nodup (List.Sublist.map _ List.filter_sublist) h
  refine ⟨hnd, fun k' => ?_⟩
  apply Option.ext
  intro x
  rw [find?_iff hnd]
  simp only [erase, List.mem_filter, Bool.not_eq_true', decide_eq_false_iff_not]
  by_cases hk : k' = k
  · simp [hk]
  · simp only [hk, not_false_eq_true, and_true, if_false]; exact (find?_iff h _ _).symm

theorem eraseIf_spec {m : UMap H K V} (h : m.Nodup) (p : V → Bool) :
    (m.eraseIf p).Nodup ∧ ∀ k', (m.eraseIf p).find? k' = (m.find? k').filter fun v => !p v := by
  have hnd : (m.eraseIf p).Nodup := List.Sublist.nodup (List.Sublist.map _ List.filter_sublist) h
  refine ⟨hnd, fun k' => ?_⟩
  apply Option.ext
  intro x
  rw [find?_iff hnd]
  simp only [eraseIf, List.mem_filter, Option.filter_eq_some_iff, find?_iff h]

theorem copy_spec {m : UMap H K V} (h : m.Nodup) : m.copy.Nodup ∧ ∀ k', m.copy.find? k' = m.find? k' := by
  have hp := HashImpl.copy_perm m.h m.items
  have hnd : m.copy.Nodup := by
    unfold Nodup copy
    rw [(hp.map Prod.fst).nodup_iff]; exact h
  refine ⟨hnd, fun k' => ?_⟩
  apply Option.ext
  intro x
  rw [find?_iff hnd, find?_iff h]
  exact hp.mem_iff

end UMap

/-! ### `sparse_state_vector` -/
namespace SparseSV
variable {H T : Type _} [HashImpl H Nat T] [AddCommMonoid T] [DecidableEq T]

theorem getElement_eq (sv : SparseSV H T) (n : Nat) : sv.getElement n = (sv.data.find? n).getD 0 := by
  unfold getElement; cases sv.data.find? n <;> rfl

theorem updateAdd_spec {sv : SparseSV H T} (h : sv.data.Nodup) (n : Nat) (x : T) :
    (sv.updateAdd n x).data.Nodup ∧ ∀ k, (sv.updateAdd n x).data.find? k = if k = n then
        (if sv.getElement n + x = 0 then none else some (sv.getElement n + x)) else sv.data.find? k := by
  rw [getElement_eq]
  unfold updateAdd
  cases hf : sv.data.find? n with
  | none =>
    simp only [Option.getD_none, zero_add]
    by_cases hx : x = 0
    · simp only [hx, ne_eq, not_true_eq_false, if_false, if_true]
      refine ⟨h, fun k => ?_⟩
      split
      · next hk => rw [hk, hf]
      · rfl
    · simp only [hx, ne_eq, not_false_eq_true, if_true, if_false]
      exact UMap.set_spec h n x
  | some a =>
    simp only [Option.getD_some]
    obtain ⟨h1, h2⟩ := UMap.assign_spec h n (a + x) (by simp [hf])
    by_cases h0 : a + x = 0
    · simp only [h0, if_true]
      rw [h0] at h1 h2
      obtain ⟨h3, h4⟩ := UMap.erase_spec h1 n
      refine ⟨h3, fun k => ?_⟩
      rw [h4, h2]
      by_cases hk : k = n <;> simp [hk]
    · simp only [h0, if_false]
      exact ⟨h1, h2⟩

theorem getElement_updateAdd {sv : SparseSV H T} (h : sv.data.Nodup) (n : Nat) (x : T) (k : Nat) :
    (sv.updateAdd n x).getElement k = sv.getElement k + if k = n then x else 0 := by
  rw [getElement_eq, (updateAdd_spec h n x).2, getElement_eq, getElement_eq]
  by_cases hk : k = n
  · simp only [hk, if_true]
    split
    · next h0 => rw [h0]; rfl
    · rfl
  · simp [hk]

instance : LawfulSV (SparseSV H T) T where
  inv v := v.data.Nodup
  dom _ := Set.univ
  amp v n := v.getElement n
  visited v := {n | v.data.find? n ≠ none}
  amp_out v n h := absurd (Set.mem_univ n) h
  get v n _ _ := rfl
  each v hv := by
    refine ⟨v.foreach, rfl, hv, fun n => ?_, fun p hp => ?_⟩
    · rw [Set.mem_ofPred_eq, ne_eq, UMap.find?_none, not_not]; rfl
    · rw [getElement_eq, (UMap.find?_iff hv p.1 p.2).2 hp]; rfl
  visited_of_ne v n _ h := by
    rw [Set.mem_ofPred_eq]
    intro h'
    rw [getElement_eq, h'] at h
    exact h rfl
  update v n x hv _ := ⟨_, rfl, (updateAdd_spec hv n x).1, rfl, getElement_updateAdd hv n x⟩
  zero v hv := ⟨by simp [UMap.Nodup, StateVec.setZeros, setZeros], rfl, fun n => rfl⟩

instance : LawfulZeros (SparseSV H T) where
  zeros _ _ := ⟨UMap.nodup_empty, rfl, fun _ => rfl⟩

end SparseSV
end LC
