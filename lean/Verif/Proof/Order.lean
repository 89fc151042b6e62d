import Mathlib.Tactic.Order
import Verif.Model.Expression
/-
Generator and monomial comparison: order lemmas.
-/
namespace LC

/-- What the expression layer needs from the comparison operators of a generator family. -/
class LawfulGen (G : Type _) [GenOps G] : Prop where
  eq_iff : ∀ a b : G, GenOps.eq a b = true ↔ a = b
  lt_irrefl : ∀ a : G, GenOps.lt a a = false
  lt_trans : ∀ a b c : G, GenOps.lt a b = true → GenOps.lt b c = true → GenOps.lt a c = true
  lt_tri : ∀ a b : G, GenOps.lt a b = true ∨ a = b ∨ GenOps.lt b a = true
  gt_iff : ∀ a b : G, GenOps.gt a b = GenOps.lt b a

namespace Gen
variable {ι : Type _} [LinearOrder ι]

theorem eqOp_iff (a b : Gen ι) : eqOp a b = true ↔ a = b := by
  cases a <;> cases b <;> simp [eqOp, equal, algebraId, and_assoc]

theorem gtOp_eq (a b : Gen ι) : gtOp a b = ltOp b a := by
  cases a <;> cases b <;> simp only [gtOp, ltOp, greater, less, algebraId]
  all_goals try rfl
  · rename_i d i e j
    cases d <;> cases e <;> simp
  · rename_i d i e j
    cases d <;> cases e <;> simp
  · rename_i m c i n e j
    by_cases h : m = n
    · subst h
      by_cases h2 : i = j
      · subst h2; simp
      · simp [h2, Ne.symm h2]
    · simp [h, Ne.symm h]

theorem ltOp_irrefl (a : Gen ι) : ltOp a a = false := by
  cases a <;> simp [ltOp, less]

theorem SpinComp.toNat_inj {a b : SpinComp} (h : a.toNat = b.toNat) : a = b := by
  cases a <;> cases b <;> simp_all [SpinComp.toNat]

theorem ltOp_trans (a b c : Gen ι) (h₁ : ltOp a b = true) (h₂ : ltOp b c = true) : ltOp a c = true := by
  cases a <;> cases b <;> cases c <;> simp [ltOp, less, algebraId] at h₁ h₂ ⊢
  · rename_i d i e j f k
    cases d <;> cases e <;> cases f <;> simp at h₁ h₂ ⊢ <;> order
  · rename_i d i e j f k
    cases d <;> cases e <;> cases f <;> simp at h₁ h₂ ⊢ <;> order
  · rename_i m₁ c₁ i₁ m₂ c₂ i₂ m₃ c₃ i₃
    split at h₁ <;> split at h₂
    · subst_vars
      simp
      split at h₁ <;> split at h₂
      · subst_vars; simp; omega
      · subst_vars; simp_all
      · subst_vars; simp_all
      · rw [if_neg]
        · order
        · intro; subst_vars; order
    · subst_vars; simp_all
    · subst_vars; simp_all
    · rw [if_neg] <;> omega

theorem ltOp_tri (a b : Gen ι) : ltOp a b = true ∨ a = b ∨ ltOp b a = true := by
  cases a <;> cases b <;> simp [ltOp, less, algebraId]
  · rename_i d i e j
    rcases lt_trichotomy i j with h | h | h <;> cases d <;> cases e <;> simp [h]
  · rename_i d i e j
    rcases lt_trichotomy i j with h | h | h <;> cases d <;> cases e <;> simp [h]
  · rename_i m c i n e j
    rcases lt_trichotomy m n with h | h | h
    · have : ¬ m = n := by omega
      simp [h, this]
    · subst h
      rcases lt_trichotomy i j with h | h | h
      · simp [h, h.ne]
      · subst h
        simp
        rcases lt_trichotomy c.toNat e.toNat with h | h | h
        · simp [h]
        · right; left; exact SpinComp.toNat_inj h
        · simp [h]
      · simp [h, h.ne]
    · have : ¬ n = m := by omega
      simp [h, this]

instance : LawfulGen (Gen ι) where
  eq_iff := eqOp_iff
  lt_irrefl := ltOp_irrefl
  lt_trans := ltOp_trans
  lt_tri := ltOp_tri
  gt_iff := gtOp_eq

end Gen

section
variable {G : Type _} [GenOps G] [LawfulGen G]

theorem gen_lt_asymm {a b : G} (h : GenOps.lt a b = true) : GenOps.lt b a = false := by
  by_contra h'
  have := LawfulGen.lt_trans _ _ _ h (by simpa using h')
  rw [LawfulGen.lt_irrefl] at this; simp at this

theorem lexCompare_irrefl (m : List G) : lexCompare GenOps.lt m m = false := by
  induction m with
  | nil => rfl
  | cons a l ih => simp [lexCompare, LawfulGen.lt_irrefl, ih]

theorem lexCompare_trans : ∀ (a b c : List G), lexCompare GenOps.lt a b = true → lexCompare GenOps.lt b c = true →
    lexCompare GenOps.lt a c = true
  | [], [], _, h, _ => by simp [lexCompare] at h
  | [], _ :: _, [], _, h => by simp [lexCompare] at h
  | [], _ :: _, _ :: _, _, _ => by simp [lexCompare]
  | _ :: _, [], _, h, _ => by simp [lexCompare] at h
  | _ :: _, _ :: _, [], _, h => by simp [lexCompare] at h
  | x :: a, y :: b, z :: c, h₁, h₂ => by
    simp only [lexCompare] at h₁ h₂ ⊢
    rcases LawfulGen.lt_tri x y with h | h | h
    · rcases LawfulGen.lt_tri y z with h' | h' | h'
      · simp [LawfulGen.lt_trans _ _ _ h h']
      · subst h'; simp [h]
      · simp [h', gen_lt_asymm h'] at h₂
    · subst h
      rcases LawfulGen.lt_tri x z with h' | h' | h'
      · simp [h']
      · subst h'
        simp [LawfulGen.lt_irrefl] at h₁ h₂ ⊢
        exact lexCompare_trans a b c h₁ h₂
      · simp [h', gen_lt_asymm h'] at h₂
    · simp [h, gen_lt_asymm h] at h₁

theorem lexCompare_tri : ∀ (a b : List G), a.length = b.length →
    lexCompare GenOps.lt a b = true ∨ a = b ∨ lexCompare GenOps.lt b a = true
  | [], [], _ => by simp
  | [], _ :: _, h => by simp at h
  | _ :: _, [], h => by simp at h
  | x :: a, y :: b, hl => by
    simp only [lexCompare]
    rcases LawfulGen.lt_tri x y with h | h | h
    · simp [h]
    · subst h
      simp [LawfulGen.lt_irrefl]
      exact lexCompare_tri a b (by simpa using hl)
    · simp [h]

theorem lexCompare_gt : ∀ (a b : List G), a.length = b.length →
    lexCompare GenOps.gt a b = lexCompare GenOps.lt b a
  | [], [], _ => rfl
  | [], _ :: _, h => by simp at h
  | _ :: _, [], h => by simp at h
  | x :: a, y :: b, hl => by
    simp only [lexCompare, LawfulGen.gt_iff]
    rw [lexCompare_gt a b (by simpa using hl)]

theorem monLt_irrefl (m : List G) : monLt m m = false := by
  simp [monLt, lexCompare_irrefl]

theorem monLt_trans {a b c : List G} (h₁ : monLt a b = true) (h₂ : monLt b c = true) : monLt a c = true := by
  simp only [monLt] at *
  split at h₁ <;> split at h₂ <;> split <;> simp at *
  · omega
  · omega
  · omega
  · omega
  · omega
  · omega
  · omega
  · exact lexCompare_trans _ _ _ h₁ h₂

theorem monLt_tri (a b : List G) : monLt a b = true ∨ a = b ∨ monLt b a = true := by
  simp only [monLt]
  by_cases h : a.length = b.length
  · simp [h]; exact lexCompare_tri a b h
  · simp [h, Ne.symm h]; omega

theorem monLt_asymm {a b : List G} (h : monLt a b = true) : monLt b a = false := by
  by_contra h'
  have := monLt_trans h (by simpa using h')
  rw [monLt_irrefl] at this; simp at this

theorem monGt_eq (a b : List G) : monGt a b = monLt b a := by
  simp only [monGt, monLt]
  by_cases h : a.length = b.length
  · simp [h]; exact lexCompare_gt a b h
  · simp [h, Ne.symm h]

theorem monEq_iff : ∀ (a b : List G), monEq a b = true ↔ a = b
  | [], [] => by simp [monEq]
  | [], _ :: _ => by simp [monEq]
  | _ :: _, [] => by simp [monEq]
  | x :: a, y :: b => by
    have := monEq_iff a b
    simp only [monEq, Bool.and_eq_true, beq_iff_eq] at this
    simp only [monEq, List.length_cons, List.zipWith_cons_cons, List.all_cons, id, Bool.and_eq_true, beq_iff_eq,
      LawfulGen.eq_iff, List.cons.injEq, ← this]
    constructor
    · rintro ⟨h, h', h''⟩; exact ⟨h', by omega, h''⟩
    · rintro ⟨h, h', h''⟩; exact ⟨by omega, h, h''⟩

theorem monLt_ne {a b : List G} (h : monLt a b = true) : a ≠ b := by
  rintro rfl; rw [monLt_irrefl] at h; simp at h

omit [LawfulGen G] in
theorem monLt_nil (a : List G) : monLt a [] = false := by
  cases a <;> simp [monLt, lexCompare]

end
end LC
