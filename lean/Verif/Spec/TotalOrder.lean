/-
Specification: three Boolean comparison operators form a strict total order.
-/
namespace LC

/-- `==`, `<`, `>` decide a strict total order on `α`. -/
structure StrictTotalOps {α : Type _} (eq lt gt : α → α → Bool) : Prop where
  /-- `==` is equality -/
  eq_iff : ∀ a b, eq a b = true ↔ a = b
  /-- exactly one of `<`, `==`, `>` holds -/
  exactly_one : ∀ a b, (lt a b = true ∧ eq a b = false ∧ gt a b = false) ∨
    (lt a b = false ∧ eq a b = true ∧ gt a b = false) ∨ (lt a b = false ∧ eq a b = false ∧ gt a b = true)
  /-- `<` is transitive -/
  trans : ∀ a b c, lt a b = true → lt b c = true → lt a c = true
  /-- `>` is the converse of `<` -/
  converse : ∀ a b, gt a b = lt b a

end LC
