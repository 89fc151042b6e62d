import Mathlib.Tactic.Ring
import Mathlib.Tactic.Abel
import Mathlib.Algebra.Module.Basic
import Verif.Proof.Order
/-
`std::map` operations on sorted lists, seen through the coefficient function.
-/
set_option linter.unusedSectionVars false
set_option linter.unusedSimpArgs false
namespace LC
namespace Terms
variable {G S : Type _} [GenOps G]

/-- Keys strictly increasing. -/
def Sorted (t : Terms G S) : Prop := t.Pairwise (fun p q => monLt p.1 q.1 = true)

variable [LawfulGen G]

theorem find?_mem {t : Terms G S} {k : List G} {v : S} (h : t.find? k = some v) : (k, v) ∈ t := by
  induction t with
  | nil => simp [find?] at h
  | cons p t ih =>
    obtain ⟨k', v'⟩ := p
    simp only [find?] at h
    split at h
    · exact List.mem_cons_of_mem _ (ih h)
    · split at h
      · simp at h
      · rename_i h1 h2
        rcases monLt_tri k k' with h3 | h3 | h3
        · simp_all
        · simp_all
        · simp_all

theorem find?_of_mem {t : Terms G S} (hs : t.Sorted) {k : List G} {v : S} (h : (k, v) ∈ t) : t.find? k = some v := by
  induction t with
  | nil => simp at h
  | cons p t ih =>
    obtain ⟨k', v'⟩ := p
    simp only [Sorted, List.pairwise_cons] at hs
    rcases List.mem_cons.1 h with h | h
    · cases h; simp [find?, monLt_irrefl]
    · have := hs.1 _ h
      simp only at this
      simp [find?, this, ih hs.2 h]

theorem find?_iff {t : Terms G S} (hs : t.Sorted) {k : List G} {v : S} : t.find? k = some v ↔ (k, v) ∈ t :=
  ⟨find?_mem, find?_of_mem hs⟩

theorem mem_emplace {k : List G} {v : S} {t : Terms G S} {p} (h : p ∈ t.emplace k v) : p = (k, v) ∨ p ∈ t := by
  induction t with
  | nil => simpa [emplace] using h
  | cons q t ih =>
    obtain ⟨k', v'⟩ := q
    simp only [emplace] at h
    split at h
    · rcases List.mem_cons.1 h with h | h
      · simp [h]
      · rcases ih h with h | h <;> simp [h]
    · split at h
      · simpa [or_assoc] using h
      · right; exact h

theorem mem_assign {k : List G} {v : S} {t : Terms G S} {p} (h : p ∈ t.assign k v) : p = (k, v) ∨ p ∈ t := by
  induction t with
  | nil => simp [assign] at h
  | cons q t ih =>
    obtain ⟨k', v'⟩ := q
    simp only [assign] at h
    split at h
    · rcases List.mem_cons.1 h with h | h
      · simp [h]
      · rcases ih h with h | h <;> simp [h]
    · split at h
      · right; exact h
      · rename_i h1 h2
        have : k = k' := by
          rcases monLt_tri k k' with h3 | h3 | h3 <;> simp_all
        subst this
        rcases List.mem_cons.1 h with h | h
        · simp [h]
        · simp [h]

omit [LawfulGen G] in
theorem mem_erase {k : List G} {t : Terms G S} {p} (h : p ∈ t.erase k) : p ∈ t := by
  induction t with
  | nil => simp [erase] at h
  | cons q t ih =>
    obtain ⟨k', v'⟩ := q
    simp only [erase] at h
    split at h
    · rcases List.mem_cons.1 h with h | h
      · simp [h]
      · simp [ih h]
    · split at h
      · exact h
      · exact List.mem_cons_of_mem _ h

theorem sorted_emplace {k : List G} {v : S} {t : Terms G S} (hs : t.Sorted) : (t.emplace k v).Sorted := by
  induction t with
  | nil => simp [emplace, Sorted]
  | cons q t ih =>
    obtain ⟨k', v'⟩ := q
    simp only [Sorted, List.pairwise_cons] at hs
    simp only [emplace]
    split
    · rename_i h
      simp only [Sorted, List.pairwise_cons]
      refine ⟨?_, ih hs.2⟩
      intro p hp
      rcases mem_emplace hp with hp | hp
      · simp [hp, h]
      · exact hs.1 _ hp
    · split
      · rename_i h1 h2
        simp only [Sorted, List.pairwise_cons, List.mem_cons, forall_eq_or_imp]
        exact ⟨⟨h2, fun p hp => monLt_trans h2 (hs.1 _ hp)⟩, hs⟩
      · simp only [Sorted, List.pairwise_cons]; exact hs

theorem sorted_assign {k : List G} {v : S} {t : Terms G S} (hs : t.Sorted) : (t.assign k v).Sorted := by
  induction t with
  | nil => simp [assign, Sorted]
  | cons q t ih =>
    obtain ⟨k', v'⟩ := q
    simp only [Sorted, List.pairwise_cons] at hs
    simp only [assign]
    split
    · rename_i h
      simp only [Sorted, List.pairwise_cons]
      refine ⟨?_, ih hs.2⟩
      intro p hp
      rcases mem_assign hp with hp | hp
      · simp [hp, h]
      · exact hs.1 _ hp
    · split
      · simp only [Sorted, List.pairwise_cons]; exact hs
      · simp only [Sorted, List.pairwise_cons]; exact hs

omit [LawfulGen G] in
theorem sorted_erase {k : List G} {t : Terms G S} (hs : t.Sorted) : (t.erase k).Sorted := by
  induction t with
  | nil => simp [erase, Sorted]
  | cons q t ih =>
    obtain ⟨k', v'⟩ := q
    simp only [Sorted, List.pairwise_cons] at hs
    simp only [erase]
    split
    · simp only [Sorted, List.pairwise_cons]
      exact ⟨fun p hp => hs.1 _ (mem_erase hp), ih hs.2⟩
    · split
      · simp only [Sorted, List.pairwise_cons]; exact hs
      · exact hs.2

theorem find?_emplace_self {k : List G} {v : S} {t : Terms G S} (h : t.find? k = none) :
    (t.emplace k v).find? k = some v := by
  induction t with
  | nil => simp [emplace, find?, monLt_irrefl]
  | cons q t ih =>
    obtain ⟨k', v'⟩ := q
    simp only [find?] at h
    simp only [emplace]
    split at h
    · rename_i h1; simp [h1, find?, ih h]
    · split at h
      · rename_i h1 h2; simp [h1, h2, find?, monLt_irrefl]
      · simp at h

/-- A key absent beyond a smaller head. -/
theorem find?_eq_none_of_lt {t : Terms G S} {k : List G} (h : ∀ p ∈ t, monLt k p.1 = true) : t.find? k = none := by
  cases t with
  | nil => rfl
  | cons q t =>
    obtain ⟨k', v'⟩ := q
    have := h (k', v') (by simp)
    simp only at this
    simp [find?, this, monLt_asymm this]

theorem find?_emplace_ne {k l : List G} {v : S} {t : Terms G S} (hs : t.Sorted) (h : l ≠ k) :
    (t.emplace k v).find? l = t.find? l := by
  induction t with
  | nil =>
    rcases monLt_tri k l with h1 | h1 | h1
    · simp [emplace, find?, h1]
    · exact absurd h1.symm h
    · simp [emplace, find?, h1, monLt_asymm h1]
  | cons q t ih =>
    obtain ⟨k', v'⟩ := q
    have hs' := hs
    simp only [Sorted, List.pairwise_cons] at hs
    simp only [emplace]
    split
    · simp only [find?, ih hs.2]
    · split
      · rename_i h1 h2
        rcases monLt_tri k l with h3 | h3 | h3
        · rw [find?]; simp [h3]
        · exact absurd h3.symm h
        · rw [find?]; simp only [monLt_asymm h3, h3, if_true]
          have := monLt_trans h3 h2
          simp [find?, this, monLt_asymm this]
      · rfl

theorem find?_assign_self {k : List G} {v w : S} {t : Terms G S} (h : t.find? k = some w) :
    (t.assign k v).find? k = some v := by
  induction t with
  | nil => simp [find?] at h
  | cons q t ih =>
    obtain ⟨k', v'⟩ := q
    simp only [find?] at h
    simp only [assign]
    split at h
    · rename_i h1; simp [h1, find?, ih h]
    · split at h
      · simp at h
      · rename_i h1 h2; simp [h1, h2, find?]

theorem find?_assign_ne {k l : List G} {v : S} {t : Terms G S} (h : l ≠ k) :
    (t.assign k v).find? l = t.find? l := by
  induction t with
  | nil => rfl
  | cons q t ih =>
    obtain ⟨k', v'⟩ := q
    simp only [assign]
    split
    · simp only [find?, ih]
    · split
      · rfl
      · rename_i h1 h2
        have : k = k' := by
          rcases monLt_tri k k' with h3 | h3 | h3 <;> simp_all
        subst this
        rcases monLt_tri k l with h3 | h3 | h3
        · simp [find?, h3]
        · exact absurd h3.symm h
        · simp [find?, h3, monLt_asymm h3]

theorem find?_erase_self {k : List G} {t : Terms G S} (hs : t.Sorted) : (t.erase k).find? k = none := by
  induction t with
  | nil => rfl
  | cons q t ih =>
    obtain ⟨k', v'⟩ := q
    simp only [Sorted, List.pairwise_cons] at hs
    simp only [erase]
    split
    · rename_i h; simp [find?, h, ih hs.2]
    · split
      · rename_i h1 h2; simp [find?, h1, h2]
      · rename_i h1 h2
        have : k = k' := by
          rcases monLt_tri k k' with h3 | h3 | h3 <;> simp_all
        subst this
        exact find?_eq_none_of_lt hs.1

theorem find?_erase_ne {k l : List G} {t : Terms G S} (hs : t.Sorted) (h : l ≠ k) :
    (t.erase k).find? l = t.find? l := by
  induction t with
  | nil => rfl
  | cons q t ih =>
    obtain ⟨k', v'⟩ := q
    simp only [Sorted, List.pairwise_cons] at hs
    simp only [erase]
    split
    · simp only [find?, ih hs.2]
    · split
      · rfl
      · rename_i h1 h2
        have : k = k' := by
          rcases monLt_tri k k' with h3 | h3 | h3 <;> simp_all
        subst this
        rcases monLt_tri k l with h3 | h3 | h3
        · simp [find?, h3]
        · exact absurd h3.symm h
        · rw [find?_eq_none_of_lt (fun p hp => monLt_trans h3 (hs.1 p hp))]
          simp [find?, h3, monLt_asymm h3]

/-- Strictly sorted lists with the same nodes are equal. -/
theorem eq_of_mem_iff {t u : Terms G S} (ht : t.Sorted) (hu : u.Sorted) (h : ∀ p, p ∈ t ↔ p ∈ u) : t = u := by
  have nd : ∀ {t : Terms G S}, t.Sorted → t.Nodup := fun hs => by
    refine List.Pairwise.imp ?_ hs
    rintro a b hab rfl
    simp [monLt_irrefl] at hab
  refine List.Perm.eq_of_pairwise ?_ ht hu ((List.perm_ext_iff_of_nodup (nd ht) (nd hu)).2 h)
  intro a b _ _ h1 h2
  simp [monLt_asymm h1] at h2

variable [CommRing S]

/-- The coefficient of monomial `k` (0 if it is not stored). -/
def coeff (t : Terms G S) (k : List G) : S := (t.find? k).getD 0

/-- No stored coefficient is zero. -/
def NonZero (t : Terms G S) : Prop := ∀ p ∈ t, p.2 ≠ 0

/-- Canonical coefficient map. -/
def Canon (t : Terms G S) : Prop := t.Sorted ∧ t.NonZero

open Classical in
theorem coeff_emplace {t : Terms G S} (hs : t.Sorted) {k l : List G} {v : S} (h : t.find? k = none) :
    (t.emplace k v).coeff l = t.coeff l + if l = k then v else 0 := by
  by_cases e : l = k
  · subst e; simp [coeff, find?_emplace_self h, h]
  · simp [coeff, find?_emplace_ne hs e, e]

variable [DecidableEq S]

theorem sorted_store {t : Terms G S} (hs : t.Sorted) (k : List G) (c : S) : (t.store k c).Sorted := by
  simp only [store]
  split
  · exact sorted_emplace hs
  · split
    · exact sorted_erase hs
    · exact sorted_assign hs

theorem nonZero_store {t : Terms G S} (hs : t.NonZero) (k : List G) {c : S} (hc : c ≠ 0) :
    (t.store k c).NonZero := by
  intro p hp
  simp only [store] at hp
  split at hp
  · rcases mem_emplace hp with h | h
    · simp [h, hc]
    · exact hs _ h
  · split at hp
    · exact hs _ (mem_erase hp)
    · rcases mem_assign hp with h | h
      · simp [h]; assumption
      · exact hs _ h

theorem canon_store {t : Terms G S} (hs : t.Canon) (k : List G) {c : S} (hc : c ≠ 0) : (t.store k c).Canon :=
  ⟨sorted_store hs.1 k c, nonZero_store hs.2 k hc⟩

open Classical in
theorem coeff_store {t : Terms G S} (hs : t.Sorted) (k l : List G) (c : S) :
    (t.store k c).coeff l = t.coeff l + if l = k then c else 0 := by
  simp only [store]
  split
  · rename_i h
    exact coeff_emplace hs h
  · rename_i v h
    by_cases e : l = k
    · subst e
      split
      · rename_i h'; simp [coeff, h, find?_erase_self hs, h']
      · simp [coeff, h, find?_assign_self h]
    · split
      · simp [coeff, find?_erase_ne hs e, e]
      · simp [coeff, find?_assign_ne e, e]

omit [DecidableEq S] in
theorem canon_ext {t u : Terms G S} (ht : t.Canon) (hu : u.Canon) (h : ∀ k, t.coeff k = u.coeff k) : t = u := by
  have key : ∀ {t u : Terms G S}, t.Canon → u.Canon → (∀ k, t.coeff k = u.coeff k) → ∀ p, p ∈ t → p ∈ u := by
    rintro t u ht hu h ⟨k, v⟩ hp
    have h1 := h k
    rw [coeff, find?_of_mem ht.1 hp] at h1
    simp only [coeff, Option.getD_some] at h1
    cases h2 : u.find? k with
    | none => rw [h2] at h1; exact absurd h1 (ht.2 _ hp)
    | some w => rw [h2] at h1; simp at h1; subst h1; exact find?_mem h2
  exact eq_of_mem_iff ht.1 hu.1 fun p => ⟨key ht hu h p, key hu ht (fun k => (h k).symm) p⟩

omit [DecidableEq S] in
theorem coeff_nil (k : List G) : coeff ([] : Terms G S) k = 0 := rfl

omit [DecidableEq S] in
theorem canon_nil : Canon ([] : Terms G S) := ⟨List.Pairwise.nil, fun _ h => by simp at h⟩

/-- Store a list of (monomial, coefficient) pairs one after another. -/
def storeAll (l : List (List G × S)) (t : Terms G S) : Terms G S := l.foldl (fun t p => t.store p.1 p.2) t

open Classical in
/-- Total coefficient of `k` in a list of pairs. -/
noncomputable def sumAt (l : List (List G × S)) (k : List G) : S :=
  (l.map fun p => if k = p.1 then p.2 else 0).sum

omit [GenOps G] [LawfulGen G] [DecidableEq S] in
@[simp] theorem sumAt_nil (k : List G) : sumAt ([] : List (List G × S)) k = 0 := rfl
omit [GenOps G] [LawfulGen G] [DecidableEq S] in
open Classical in
@[simp] theorem sumAt_cons (p : List G × S) (l) (k : List G) :
    sumAt (p :: l) k = (if k = p.1 then p.2 else 0) + sumAt l k := by simp [sumAt]
omit [GenOps G] [LawfulGen G] [DecidableEq S] in
@[simp] theorem sumAt_append (l l' : List (List G × S)) (k : List G) :
    sumAt (l ++ l') k = sumAt l k + sumAt l' k := by simp [sumAt]

theorem sorted_storeAll (l : List (List G × S)) {t : Terms G S} (hs : t.Sorted) : (storeAll l t).Sorted := by
  induction l generalizing t with
  | nil => exact hs
  | cons p l ih => exact ih (sorted_store hs _ _)

theorem canon_storeAll (l : List (List G × S)) (hl : ∀ p ∈ l, p.2 ≠ 0) {t : Terms G S} (hs : t.Canon) :
    (storeAll l t).Canon := by
  induction l generalizing t with
  | nil => exact hs
  | cons p l ih =>
    exact ih (fun q hq => hl q (List.mem_cons_of_mem _ hq)) (canon_store hs _ (hl p (by simp)))

theorem coeff_storeAll (l : List (List G × S)) {t : Terms G S} (hs : t.Sorted) (k : List G) :
    (storeAll l t).coeff k = t.coeff k + sumAt l k := by
  induction l generalizing t with
  | nil => simp [storeAll]
  | cons p l ih =>
    have := ih (sorted_store hs p.1 p.2)
    simp only [storeAll, List.foldl_cons] at this ⊢
    rw [this, coeff_store hs, sumAt_cons]
    simp only [add_assoc]

omit [DecidableEq S] in
theorem coeff_eq_sumAt {t : Terms G S} (hs : t.Sorted) (k : List G) : t.coeff k = sumAt t k := by
  induction t with
  | nil => rfl
  | cons p t ih =>
    obtain ⟨k', v⟩ := p
    have hs' := hs
    simp only [Sorted, List.pairwise_cons] at hs
    rw [sumAt_cons, ← ih hs.2]
    rcases monLt_tri k k' with h | h | h
    · have h2 : Terms.find? k t = none := find?_eq_none_of_lt fun p hp => monLt_trans h (hs.1 p hp)
      simp [coeff, find?, h, monLt_asymm h, h2, monLt_ne h]
    · subst h
      have h2 : Terms.find? k t = none := find?_eq_none_of_lt fun p hp => hs.1 p hp
      simp [coeff, find?, monLt_irrefl, h2]
    · simp [coeff, find?, h, (monLt_ne h).symm]

theorem mem_store {k : List G} {c : S} {t : Terms G S} {p} (h : p ∈ t.store k c) : p.1 = k ∨ p ∈ t := by
  simp only [store] at h
  split at h
  · rcases mem_emplace h with h | h <;> simp [h]
  · split at h
    · simp [mem_erase h]
    · rcases mem_assign h with h | h <;> simp [h]

theorem mem_storeAll {l : List (List G × S)} {t : Terms G S} {p} (h : p ∈ storeAll l t) :
    p ∈ t ∨ ∃ q ∈ l, q.1 = p.1 := by
  induction l generalizing t with
  | nil => left; exact h
  | cons q l ih =>
    rcases ih h with h | ⟨q', hq', h⟩
    · rcases mem_store h with h | h
      · right; exact ⟨q, by simp, h.symm⟩
      · left; exact h
    · right; exact ⟨q', by simp [hq'], h⟩


/-! ### Linear functionals of the map -/
section EvalWith
variable {M : Type _} [AddCommGroup M] [Module S M] (s : List G → M)

/-- `∑ coefficient • s(monomial)`. -/
def evalWith (t : List (List G × S)) : M := (t.map fun p => p.2 • s p.1).sum

@[simp] theorem evalWith_nil : evalWith s ([] : List (List G × S)) = 0 := rfl
@[simp] theorem evalWith_cons (p : List G × S) (t) :
    evalWith s (p :: t) = p.2 • s p.1 + evalWith s t := by simp [evalWith]
@[simp] theorem evalWith_append (t t' : List (List G × S)) :
    evalWith s (t ++ t') = evalWith s t + evalWith s t' := by simp [evalWith]

theorem evalWith_emplace {k : List G} {c : S} {t : Terms G S} (h : t.find? k = none) :
    evalWith s (t.emplace k c) = evalWith s t + c • s k := by
  induction t with
  | nil => simp [Terms.emplace]
  | cons q t ih =>
    obtain ⟨k', v'⟩ := q
    simp only [Terms.find?] at h
    simp only [Terms.emplace]
    split at h
    · rename_i h1; rw [if_pos h1, evalWith_cons, ih h, evalWith_cons, add_assoc]
    · split at h
      · rename_i h1 h2; rw [if_neg h1, if_pos h2, evalWith_cons, add_comm]
      · simp at h

theorem evalWith_erase {k : List G} {v : S} {t : Terms G S} (h : t.find? k = some v) :
    evalWith s (t.erase k) + v • s k = evalWith s t := by
  induction t with
  | nil => simp [Terms.find?] at h
  | cons q t ih =>
    obtain ⟨k', v'⟩ := q
    simp only [Terms.find?] at h
    simp only [Terms.erase]
    split at h
    · rename_i h1; rw [if_pos h1, evalWith_cons, evalWith_cons, add_assoc, ih h]
    · split at h
      · simp at h
      · rename_i h1 h2
        rw [if_neg h1, if_neg h2, evalWith_cons, add_comm]
        have : k = k' := by
          rcases monLt_tri k k' with h3 | h3 | h3 <;> simp_all
        simp at h
        rw [h, this]

theorem evalWith_assign {k : List G} {v w : S} {t : Terms G S} (h : t.find? k = some v) :
    evalWith s (t.assign k w) + v • s k = evalWith s t + w • s k := by
  induction t with
  | nil => simp [Terms.find?] at h
  | cons q t ih =>
    obtain ⟨k', v'⟩ := q
    simp only [Terms.find?] at h
    simp only [Terms.assign]
    split at h
    · rename_i h1; rw [if_pos h1, evalWith_cons, evalWith_cons, add_assoc, ih h, add_assoc]
    · split at h
      · simp at h
      · rename_i h1 h2
        rw [if_neg h1, if_neg h2, evalWith_cons, evalWith_cons]
        have : k = k' := by
          rcases monLt_tri k k' with h3 | h3 | h3 <;> simp_all
        simp at h
        rw [h, this]; simp only; abel

theorem evalWith_store (k : List G) (c : S) (t : Terms G S) :
    evalWith s (t.store k c) = evalWith s t + c • s k := by
  simp only [Terms.store]
  split
  · rename_i h; exact evalWith_emplace s h
  · rename_i v h
    split
    · rename_i h0
      rw [← evalWith_erase s h, add_assoc, ← add_smul, h0]; simp
    · have := evalWith_assign s (w := v + c) h
      rw [add_smul, ← add_assoc, add_right_comm] at this
      exact add_right_cancel this

theorem evalWith_storeAll (l : List (List G × S)) (t : Terms G S) :
    evalWith s (Terms.storeAll l t) = evalWith s t + evalWith s l := by
  induction l generalizing t with
  | nil => simp [Terms.storeAll]
  | cons p l ih =>
    have := ih (t.store p.1 p.2)
    simp only [Terms.storeAll, List.foldl_cons] at this ⊢
    rw [this, evalWith_store, evalWith_cons, add_assoc]

theorem evalWith_add (s' : List G → M) (t : List (List G × S)) :
    evalWith (fun m => s m + s' m) t = evalWith s t + evalWith s' t := by
  induction t with
  | nil => simp
  | cons p t ih => simp only [evalWith_cons, ih, smul_add]; abel

theorem evalWith_smul (c : S) (t : List (List G × S)) :
    evalWith (fun m => c • s m) t = c • evalWith s t := by
  induction t with
  | nil => simp
  | cons p t ih => simp only [evalWith_cons, ih, smul_add, smul_comm c]

theorem evalWith_mapSmul (c : S) (t : List (List G × S)) :
    evalWith s (t.map fun p => (p.1, c * p.2)) = c • evalWith s t := by
  induction t with
  | nil => simp
  | cons p t ih => simp only [List.map_cons, evalWith_cons, ih, smul_add, mul_smul]

theorem evalWith_congr {s s' : List G → M} {t : List (List G × S)} (h : ∀ p ∈ t, s p.1 = s' p.1) :
    evalWith s t = evalWith s' t := by
  induction t with
  | nil => rfl
  | cons p t ih => simp only [evalWith_cons, h p (by simp), ih fun q hq => h q (by simp [hq])]

end EvalWith

open Classical in
theorem sumAt_eq_evalWith (t : List (List G × S)) (k : List G) :
    sumAt t k = evalWith (fun m => if k = m then (1 : S) else 0) t := by
  induction t with
  | nil => rfl
  | cons p t ih => simp [ih]

end Terms
end LC
