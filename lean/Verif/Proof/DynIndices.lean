import Mathlib.Order.Defs.LinearOrder
import Mathlib.Tactic.Order
import Verif.Model.DynIndices
/-
Order lemmas for dynamic index sequences and tuples.
-/
namespace LC
variable {α β : Type _} [LinearOrder α] [LinearOrder β]

namespace DynIndex

theorem eqOp_iff (a b : DynIndex α β) : eqOp a b = true ↔ a = b := by
  cases a <;> cases b <;> simp [eqOp]
theorem lt_irrefl (a : DynIndex α β) : ltOp a a = false := by cases a <;> simp [ltOp]
theorem lt_trans {a b c : DynIndex α β} (h : ltOp a b = true) (h' : ltOp b c = true) : ltOp a c = true := by
  cases a <;> cases b <;> cases c <;> simp_all [ltOp] <;> order
theorem lt_tri (a b : DynIndex α β) : ltOp a b = true ∨ a = b ∨ ltOp b a = true := by
  cases a <;> cases b <;> simp [ltOp]
  · exact lt_trichotomy _ _
  · exact lt_trichotomy _ _
theorem lt_asymm {a b : DynIndex α β} (h : ltOp a b = true) : ltOp b a = false := by
  cases h' : ltOp b a with
  | false => rfl
  | true => have := lt_trans h h'; rw [lt_irrefl] at this; exact this.symm

end DynIndex

namespace DynIndices

theorem vecEq_iff : ∀ u v : List (DynIndex α β), vecEq u v = true ↔ u = v
  | [], [] => by simp [vecEq]
  | [], _ :: _ => by simp [vecEq]
  | _ :: _, [] => by simp [vecEq]
  | a :: u, b :: v => by
    have ih := vecEq_iff u v
    simp only [vecEq, Bool.and_eq_true, beq_iff_eq] at ih
    simp only [vecEq, List.length_cons, List.zipWith_cons_cons, List.all_cons, Bool.and_eq_true, beq_iff_eq,
      List.cons.injEq, ← ih, id, DynIndex.eqOp_iff]
    constructor
    · rintro ⟨h1, h2, h3⟩; exact ⟨h2, by omega, h3⟩
    · rintro ⟨h1, h2, h3⟩; exact ⟨by omega, h1, h3⟩

theorem vecLt_irrefl (u : List (DynIndex α β)) : vecLt u u = false := by
  induction u with
  | nil => rfl
  | cons a u ih => simp [vecLt, DynIndex.lt_irrefl, ih]

theorem vecLt_trans : ∀ (a b c : List (DynIndex α β)), vecLt a b = true → vecLt b c = true → vecLt a c = true
  | _, [], [], _, h => by simp [vecLt] at h
  | [], [], _ :: _, h, _ => by simp [vecLt] at h
  | _ :: _, [], _ :: _, h, _ => by simp [vecLt] at h
  | _, _ :: _, [], _, h => by simp [vecLt] at h
  | [], _ :: _, _ :: _, _, _ => by simp [vecLt]
  | a :: as, b :: bs, c :: cs, h, h' => by
    have ih := vecLt_trans as bs cs
    simp only [vecLt] at *
    rcases DynIndex.lt_tri a b with h1 | h1 | h1
    · rcases DynIndex.lt_tri b c with h2 | h2 | h2
      · simp [DynIndex.lt_trans h1 h2]
      · subst h2; simp [h1]
      · simp [h2, DynIndex.lt_asymm h2] at h'
    · subst h1
      rcases DynIndex.lt_tri a c with h2 | h2 | h2
      · simp [h2]
      · subst h2; simp [DynIndex.lt_irrefl] at *; exact ih h h'
      · simp [h2, DynIndex.lt_asymm h2] at h'
    · simp [h1, DynIndex.lt_asymm h1] at h

theorem vecLt_tri : ∀ (a b : List (DynIndex α β)), vecLt a b = true ∨ a = b ∨ vecLt b a = true
  | [], [] => by simp
  | [], _ :: _ => by simp [vecLt]
  | _ :: _, [] => by simp [vecLt]
  | a :: as, b :: bs => by
    simp only [vecLt]
    rcases DynIndex.lt_tri a b with h1 | h1 | h1
    · simp [h1]
    · subst h1
      simpa [DynIndex.lt_irrefl] using vecLt_tri as bs
    · simp [h1, DynIndex.lt_asymm h1]

theorem eqOp_iff (u v : DynIndices α β) : eqOp u v = true ↔ u = v := by
  cases u; cases v; simp [eqOp, vecEq_iff]
theorem gtOp_eq (u v : DynIndices α β) : gtOp u v = ltOp v u := by
  simp only [gtOp, ltOp]
  by_cases h : u.indices.length = v.indices.length
  · simp [h]
  · simp [h, Ne.symm h]
theorem ltOp_irrefl (u : DynIndices α β) : ltOp u u = false := by simp [ltOp, vecLt_irrefl]
theorem ltOp_trans {u v w : DynIndices α β} (h : ltOp u v = true) (h' : ltOp v w = true) : ltOp u w = true := by
  simp only [ltOp] at *
  by_cases h1 : u.indices.length = v.indices.length
  · by_cases h2 : v.indices.length = w.indices.length
    · simp only [h1, h2, ne_eq, not_true_eq_false, if_false] at *
      exact vecLt_trans _ _ _ h h'
    · simp_all
  · by_cases h2 : v.indices.length = w.indices.length
    · simp_all
    · simp only [ne_eq, h1, h2, not_false_eq_true, if_true, decide_eq_true_eq] at h h'
      have : u.indices.length ≠ w.indices.length := by omega
      simp only [ne_eq, this, not_false_eq_true, if_true, decide_eq_true_eq]; omega
theorem ltOp_tri (u v : DynIndices α β) : ltOp u v = true ∨ u = v ∨ ltOp v u = true := by
  simp only [ltOp]
  by_cases h : u.indices.length = v.indices.length
  · have := vecLt_tri u.indices v.indices
    cases u; cases v; simp_all
  · simp only [ne_eq, h, Ne.symm h, not_false_eq_true, if_true, decide_eq_true_eq]; omega

instance : DecidableEq (DynIndices α β) := fun u v =>
  if h : u.indices = v.indices then isTrue (by cases u; cases v; simp_all) else isFalse (fun e => h (by rw [e]))

/-- The library's comparisons make `dyn_indices` a linear order, so every theorem about `Gen ι` applies to
`ι = dyn_indices`. -/
instance : LinearOrder (DynIndices α β) where
  le u v := u = v ∨ ltOp u v = true
  lt u v := ltOp u v = true
  le_refl u := Or.inl rfl
  le_trans u v w := by
    rintro (rfl | h) (rfl | h')
    · exact Or.inl rfl
    · exact Or.inr h'
    · exact Or.inr h
    · exact Or.inr (ltOp_trans h h')
  lt_iff_le_not_ge u v := by
    constructor
    · intro h
      refine ⟨Or.inr h, ?_⟩
      rintro (rfl | h')
      · simp [ltOp_irrefl] at h
      · have := ltOp_trans h h'; simp [ltOp_irrefl] at this
    · rintro ⟨rfl | h, h'⟩
      · exact absurd (Or.inl rfl) h'
      · exact h
  le_antisymm u v := by
    rintro (rfl | h) (h' | h')
    · rfl
    · rfl
    · exact h'.symm
    · have := ltOp_trans h h'; simp [ltOp_irrefl] at this
  le_total u v := by
    rcases ltOp_tri u v with h | h | h
    · exact Or.inl (Or.inr h)
    · exact Or.inl (Or.inl h)
    · exact Or.inr (Or.inr h)
  toDecidableLE := fun _ _ => inferInstanceAs (Decidable (_ ∨ _))

end DynIndices
end LC
