import Verif.Model.SpacePartition
/- `std::map`, `std::multimap` and `std::set` as sorted lists. -/
namespace LC
variable {K V : Type _} [LinearOrder K]

/-- Keys strictly increasing. -/
def OSorted (l : List (K × V)) : Prop := l.Pairwise fun p q => p.1 < q.1

theorem omapFind_mem {l : List (K × V)} {k : K} {v : V} (h : omapFind k l = some v) : (k, v) ∈ l := by
  induction l with
  | nil => simp [omapFind] at h
  | cons p l ih =>
    obtain ⟨k', v'⟩ := p
    rw [omapFind] at h
    split at h
    · exact List.mem_cons_of_mem _ (ih h)
    · split at h
      · simp at h
      · next h1 h2 =>
        have : k = k' := le_antisymm (not_lt.1 h1) (not_lt.1 h2)
        subst this
        cases h
        exact List.mem_cons_self

theorem omapFind_lt {l : List (K × V)} {k : K} (h : ∀ p ∈ l, k < p.1) : omapFind k l = none := by
  cases l with
  | nil => rfl
  | cons p l =>
    have := h p List.mem_cons_self
    rw [omapFind, if_neg (not_lt.2 this.le), if_pos this]

theorem omapFind_emplace {l : List (K × V)} (hl : OSorted l) (k : K) (v : V) :
    OSorted (omapEmplace k v l) ∧ (∀ p ∈ omapEmplace k v l, p ∈ l ∨ p.1 = k) ∧
    (∀ k', omapFind k' (omapEmplace k v l) = if k' = k then some ((omapFind k l).getD v) else omapFind k' l) ∧
    (omapEmplace k v l).length = if (omapFind k l).isSome then l.length else l.length + 1 := by
  induction l with
  | nil =>
    refine ⟨by simp [OSorted, omapEmplace], by simp [omapEmplace], fun k' => ?_, by simp [omapEmplace, omapFind]⟩
    simp only [omapEmplace, omapFind, Option.getD_none]
    by_cases h : k' = k
    · simp [h]
    · rw [if_neg h]; rcases lt_or_gt_of_ne h with h1 | h1
      · rw [if_neg (not_lt.2 h1.le), if_pos h1]
      · rw [if_pos h1]
  | cons p l ih =>
    obtain ⟨k1, v1⟩ := p
    unfold OSorted at hl
    rw [List.pairwise_cons] at hl
    obtain ⟨a, b, c, d⟩ := ih hl.2
    rw [omapEmplace]
    by_cases h1 : k1 < k
    · rw [if_pos h1]
      refine ⟨?_, ?_, fun k' => ?_, ?_⟩
      · refine List.pairwise_cons.2 ⟨fun q hq => ?_, a⟩
        rcases b q hq with h | h
        · exact hl.1 q h
        · rw [h]; exact h1
      · intro q hq
        rcases List.mem_cons.1 hq with rfl | hq
        · exact Or.inl List.mem_cons_self
        · exact (b q hq).imp (List.mem_cons_of_mem _) id
      · rw [omapFind, omapFind, omapFind, c, if_pos h1]
        by_cases h2 : k' = k
        · subst h2; rw [if_pos h1, if_pos rfl, if_pos rfl]
        · rw [if_neg h2, if_neg h2]
      · rw [List.length_cons, d, omapFind, if_pos h1, List.length_cons]
        split <;> rfl
    · rw [if_neg h1]
      by_cases h2 : k < k1
      · rw [if_pos h2]
        refine ⟨?_, ?_, fun k' => ?_, ?_⟩
        · refine List.pairwise_cons.2 ⟨fun q hq => ?_, List.pairwise_cons.2 hl⟩
          rcases List.mem_cons.1 hq with rfl | hq
          · exact h2
          · exact h2.trans (hl.1 q hq)
        · intro q hq
          rcases List.mem_cons.1 hq with rfl | hq
          · exact Or.inr rfl
          · exact Or.inl hq
        · have : omapFind k ((k1, v1) :: l) = none := by rw [omapFind, if_neg h1, if_pos h2]
          rw [this]
          by_cases h3 : k' = k
          · subst h3; rw [omapFind, if_neg (lt_irrefl _), if_neg (lt_irrefl _), if_pos rfl]; rfl
          · rw [if_neg h3]
            rcases lt_or_gt_of_ne h3 with h4 | h4
            · rw [omapFind, if_neg (not_lt.2 h4.le), if_pos h4, omapFind, if_neg (not_lt.2 (h4.trans h2).le), if_pos (h4.trans h2)]
            · rw [omapFind, if_pos h4]
        · rw [omapFind, if_neg h1, if_pos h2]; rfl
      · rw [if_neg h2]
        have hk : k = k1 := le_antisymm (not_lt.1 h1) (not_lt.1 h2)
        subst hk
        refine ⟨List.pairwise_cons.2 hl, fun q hq => Or.inl hq, fun k' => ?_, ?_⟩
        · by_cases h3 : k' = k
          · subst h3; rw [if_pos rfl, omapFind, if_neg h1, if_neg h2]; rfl
          · rw [if_neg h3]
        · rw [omapFind, if_neg h1, if_neg h2]; rfl

theorem omapFind_assign {l : List (K × V)} (hl : OSorted l) (k : K) (v : V) :
    OSorted (omapAssign k v l) ∧ (∀ p ∈ omapAssign k v l, p.1 = k ∨ p ∈ l) ∧
    (∀ k', omapFind k' (omapAssign k v l) = if k' = k then some v else omapFind k' l) := by
  induction l with
  | nil =>
    refine ⟨by simp [OSorted, omapAssign], by simp [omapAssign], fun k' => ?_⟩
    simp only [omapAssign, omapFind]
    by_cases h : k' = k
    · simp [h]
    · rw [if_neg h]; rcases lt_or_gt_of_ne h with h1 | h1
      · rw [if_neg (not_lt.2 h1.le), if_pos h1]
      · rw [if_pos h1]
  | cons p l ih =>
    obtain ⟨k1, v1⟩ := p
    unfold OSorted at hl
    rw [List.pairwise_cons] at hl
    obtain ⟨a, b, c⟩ := ih hl.2
    rw [omapAssign]
    by_cases h1 : k1 < k
    · rw [if_pos h1]
      refine ⟨?_, ?_, fun k' => ?_⟩
      · refine List.pairwise_cons.2 ⟨fun q hq => ?_, a⟩
        rcases b q hq with h | h
        · rw [h]; exact h1
        · exact hl.1 q h
      · intro q hq
        rcases List.mem_cons.1 hq with rfl | hq
        · exact Or.inr List.mem_cons_self
        · exact (b q hq).imp id (List.mem_cons_of_mem _)
      · rw [omapFind, omapFind, c]
        by_cases h2 : k' = k
        · subst h2; rw [if_pos h1, if_pos rfl, if_pos rfl]
        · rw [if_neg h2, if_neg h2]
    · rw [if_neg h1]
      by_cases h2 : k < k1
      · rw [if_pos h2]
        refine ⟨?_, ?_, fun k' => ?_⟩
        · refine List.pairwise_cons.2 ⟨fun q hq => ?_, List.pairwise_cons.2 hl⟩
          rcases List.mem_cons.1 hq with rfl | hq
          · exact h2
          · exact h2.trans (hl.1 q hq)
        · intro q hq
          rcases List.mem_cons.1 hq with rfl | hq
          · exact Or.inl rfl
          · exact Or.inr hq
        · by_cases h3 : k' = k
          · subst h3; rw [omapFind, if_neg (lt_irrefl _), if_neg (lt_irrefl _), if_pos rfl]
          · rw [if_neg h3]
            rcases lt_or_gt_of_ne h3 with h4 | h4
            · rw [omapFind, if_neg (not_lt.2 h4.le), if_pos h4, omapFind, if_neg (not_lt.2 (h4.trans h2).le), if_pos (h4.trans h2)]
            · rw [omapFind, if_pos h4]
      · rw [if_neg h2]
        have hk : k = k1 := le_antisymm (not_lt.1 h1) (not_lt.1 h2)
        subst hk
        refine ⟨List.pairwise_cons.2 ⟨hl.1, hl.2⟩, ?_, fun k' => ?_⟩
        · intro q hq
          rcases List.mem_cons.1 hq with rfl | hq
          · exact Or.inl rfl
          · exact Or.inr (List.mem_cons_of_mem _ hq)
        · rw [omapFind, omapFind]
          by_cases h3 : k' = k
          · subst h3; rw [if_neg (lt_irrefl _), if_neg (lt_irrefl _), if_pos rfl]
          · rw [if_neg h3]
            rcases lt_or_gt_of_ne h3 with h4 | h4
            · rw [if_neg (not_lt.2 h4.le), if_pos h4, if_neg (not_lt.2 h4.le), if_pos h4]
            · rw [if_pos h4, if_pos h4]

theorem osetEmplace_spec {l : List K} (hl : l.Pairwise (· < ·)) (k : K) :
    (osetEmplace k l).Pairwise (· < ·) ∧ ∀ x, x ∈ osetEmplace k l ↔ x = k ∨ x ∈ l := by
  induction l with
  | nil => simp [osetEmplace]
  | cons k1 l ih =>
    rw [List.pairwise_cons] at hl
    obtain ⟨a, b⟩ := ih hl.2
    rw [osetEmplace]
    by_cases h1 : k1 < k
    · rw [if_pos h1]
      refine ⟨List.pairwise_cons.2 ⟨fun q hq => ?_, a⟩, fun x => ?_⟩
      · rcases (b q).1 hq with rfl | h
        · exact h1
        · exact hl.1 q h
      · rw [List.mem_cons, b, List.mem_cons]; tauto
    · rw [if_neg h1]
      by_cases h2 : k < k1
      · rw [if_pos h2]
        refine ⟨List.pairwise_cons.2 ⟨fun q hq => ?_, List.pairwise_cons.2 hl⟩, fun x => List.mem_cons⟩
        rcases List.mem_cons.1 hq with rfl | hq
        · exact h2
        · exact h2.trans (hl.1 q hq)
      · rw [if_neg h2]
        have hk : k = k1 := le_antisymm (not_lt.1 h1) (not_lt.1 h2)
        subst hk
        refine ⟨List.pairwise_cons.2 hl, fun x => ?_⟩
        rw [List.mem_cons]; tauto

theorem multimapInsert_spec {l : List (K × V)} (hl : l.Pairwise fun p q => p.1 ≤ q.1) (k : K) (v : V) :
    ((multimapInsert k v l).Pairwise fun p q => p.1 ≤ q.1) ∧ ∀ p, p ∈ multimapInsert k v l ↔ p = (k, v) ∨ p ∈ l := by
  induction l with
  | nil => simp [multimapInsert]
  | cons p l ih =>
    obtain ⟨k1, v1⟩ := p
    rw [List.pairwise_cons] at hl
    obtain ⟨a, b⟩ := ih hl.2
    rw [multimapInsert]
    by_cases h1 : k < k1
    · rw [if_pos h1]
      refine ⟨List.pairwise_cons.2 ⟨fun q hq => ?_, List.pairwise_cons.2 hl⟩, fun x => List.mem_cons⟩
      rcases List.mem_cons.1 hq with rfl | hq
      · exact h1.le
      · exact h1.le.trans (hl.1 q hq)
    · rw [if_neg h1]
      refine ⟨List.pairwise_cons.2 ⟨fun q hq => ?_, a⟩, fun x => ?_⟩
      · rcases (b q).1 hq with rfl | h
        · exact not_lt.1 h1
        · exact hl.1 q h
      · rw [List.mem_cons, b, List.mem_cons]; tauto

end LC
