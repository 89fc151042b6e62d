import Mathlib.Data.Nat.Bitwise
import Mathlib.Data.List.Sort
import Mathlib.Tactic.Ring
import Mathlib.Tactic.Linarith
import Mathlib.Tactic.IntervalCases
import Verif.Model.BitOps
import Verif.Spec.Bits
/-
Bit-level lemmas: lowest set bit, clearing it, positions of set bits.
-/
namespace LC

theorem pow2_eq {n : Nat} (h : n < 64) : pow2 n = 2 ^ n := by
  unfold pow2
  rw [Nat.one_shiftLeft, Nat.mod_eq_of_lt]
  exact Nat.pow_lt_pow_right (by norm_num) h

theorem testBit_of_lt {x n j : Nat} (h : x < 2 ^ n) (hj : n ≤ j) : x.testBit j = false :=
  Nat.testBit_lt_two_pow (h.trans_le (Nat.pow_le_pow_right (by decide) hj))

theorem lt_of_testBit {x n : Nat} (h : ∀ j, n ≤ j → x.testBit j = false) : x < 2 ^ n :=
  Nat.lt_pow_two_of_testBit x h

/-- Every non-zero number is an odd multiple of a power of two. -/
theorem exists_odd_decomp {m : Nat} (h : m ≠ 0) : ∃ c q, m = 2 ^ c * (2 * q + 1) := by
  induction m using Nat.strongRecOn with
  | _ m ih =>
    rcases Nat.even_or_odd' m with ⟨k, rfl | rfl⟩
    · obtain ⟨c, q, hk⟩ := ih k (by omega) (by omega)
      exact ⟨c + 1, q, by rw [pow_succ]; conv_lhs => rw [hk]
                          ring⟩
    · exact ⟨0, k, by simp⟩

theorem testBit_decomp (c q j : Nat) :
    (2 ^ c * (2 * q + 1)).testBit j = (decide (c ≤ j) && (decide (j = c) || q.testBit (j - c - 1))) := by
  rw [Nat.testBit_two_pow_mul]
  by_cases h : c ≤ j
  · rcases Nat.eq_or_lt_of_le h with rfl | h'
    · simp
    · obtain ⟨d, rfl⟩ : ∃ d, j = c + 1 + d := ⟨j - c - 1, by omega⟩
      have e : c + 1 + d - c = d + 1 := by omega
      have e2 : c + 1 + d - c - 1 = d := by omega
      rw [e, Nat.testBit_succ]
      have : (2 * q + 1) / 2 = q := by omega
      have h3 : c + 1 + d ≠ c := by omega
      simp [this, h3]
  · simp [h]

theorem decomp_pred (c q : Nat) : 2 ^ c * (2 * q + 1) - 1 = 2 ^ c * (2 * q) + (2 ^ c - 1) := by
  have := Nat.two_pow_pos c
  rw [mul_add, mul_one]; omega

theorem testBit_decomp_pred (c q j : Nat) :
    (2 ^ c * (2 * q + 1) - 1).testBit j = (if j < c then true else (decide (j ≠ c) && q.testBit (j - c - 1))) := by
  rw [decomp_pred, Nat.testBit_two_pow_mul_add _ (by have := Nat.two_pow_pos c; omega)]
  by_cases h : j < c
  · simp only [h, if_true, Nat.testBit_two_pow_sub_one, decide_true]
  · simp only [h, if_false]
    rcases Nat.eq_or_lt_of_le (Nat.le_of_not_lt h) with rfl | h'
    · simp
    · obtain ⟨d, rfl⟩ : ∃ d, j = c + 1 + d := ⟨j - c - 1, by omega⟩
      have e : c + 1 + d - c = d + 1 := by omega
      have e2 : c + 1 + d - c - 1 = d := by omega
      rw [e, Nat.testBit_succ]
      have : (2 * q) / 2 = q := by omega
      have h3 : c + 1 + d ≠ c := by omega
      simp [this, h3]

/-- Clearing the lowest set bit. -/
theorem testBit_clear (c q j : Nat) :
    (2 ^ c * (2 * q + 1) &&& (2 ^ c * (2 * q + 1) - 1)).testBit j
      = ((2 ^ c * (2 * q + 1)).testBit j && decide (j ≠ c)) := by
  rw [Nat.testBit_and, testBit_decomp_pred, testBit_decomp]
  by_cases h : j < c
  · have h1 : ¬ c ≤ j := by omega
    simp [h, h1]
  · by_cases h2 : j = c
    · subst h2; simp
    · have h1 : c ≤ j := by omega
      simp [h, h1, h2]

/-- Isolating the lowest set bit. -/
theorem land_neg (c q : Nat) (h : 2 ^ c * (2 * q + 1) < W64) :
    2 ^ c * (2 * q + 1) &&& neg64 (2 ^ c * (2 * q + 1)) = 2 ^ c := by
  have hc : c < 64 := by
    by_contra hc
    have : W64 ≤ 2 ^ c := Nat.pow_le_pow_right (by decide) (by omega)
    nlinarith [Nat.two_pow_pos c]
  have hW : W64 = 2 ^ c * 2 ^ (64 - c) := by rw [← pow_add, Nat.add_sub_cancel' hc.le]
  have hq : 2 * q + 1 < 2 ^ (64 - c) := by
    rw [hW] at h; exact Nat.lt_of_mul_lt_mul_left h
  have hn : neg64 (2 ^ c * (2 * q + 1)) = 2 ^ c * (2 ^ (64 - c) - (2 * q + 1)) := by
    unfold neg64
    have h1 : W64 - 2 ^ c * (2 * q + 1) = 2 ^ c * (2 ^ (64 - c) - (2 * q + 1)) := by
      rw [Nat.mul_sub, ← hW]
    rw [h1, Nat.mod_eq_of_lt]
    conv_rhs => rw [hW]
    exact Nat.mul_lt_mul_of_pos_left (by omega) (Nat.two_pow_pos c)
  rw [hn]
  apply Nat.eq_of_testBit_eq
  intro j
  rw [Nat.testBit_and, testBit_decomp, Nat.testBit_two_pow_mul, Nat.testBit_two_pow_sub_succ (by omega), Nat.testBit_two_pow]
  by_cases h1 : c ≤ j
  · rcases Nat.eq_or_lt_of_le h1 with rfl | h'
    · simp; omega
    · obtain ⟨d, rfl⟩ : ∃ d, j = c + 1 + d := ⟨j - c - 1, by omega⟩
      have e : c + 1 + d - c = d + 1 := by omega
      have e2 : c + 1 + d - c - 1 = d := by omega
      have h3 : c + 1 + d ≠ c := by omega
      have h4 : c ≠ c + 1 + d := by omega
      have h5 : c ≤ c + 1 + d := by omega
      rw [e, Nat.testBit_succ]
      have : (2 * q) / 2 = q := by omega
      simp [this, h3, h4, h5]
      intro h6; simp [h6]
  · have : c ≠ j := by omega
    simp [h1, this]

/-! ### Positions of set bits -/

theorem mem_bitPositions {x j : Nat} : j ∈ bitPositions x ↔ j < 64 ∧ x.testBit j = true := by
  simp [bitPositions]

theorem bitPositions_sorted (x : Nat) : (bitPositions x).Pairwise (· < ·) :=
  List.Pairwise.filter _ List.pairwise_lt_range

theorem bitPositions_nodup (x : Nat) : (bitPositions x).Nodup := List.Nodup.filter _ List.nodup_range

theorem bitPositions_zero : bitPositions 0 = [] := by simp [bitPositions]

/-- Two strictly increasing lists with the same elements are equal. -/
theorem eq_of_sorted {l₁ l₂ : List Nat} (h₁ : l₁.Pairwise (· < ·)) (h₂ : l₂.Pairwise (· < ·))
    (h : ∀ j, j ∈ l₁ ↔ j ∈ l₂) : l₁ = l₂ := by
  have p : l₁.Perm l₂ := (List.perm_ext_iff_of_nodup (h₁.imp (fun h => h.ne)) (h₂.imp (fun h => h.ne))).2 h
  exact p.eq_of_pairwise (fun a b _ _ h h' => absurd h (Nat.lt_asymm h')) h₁ h₂

theorem decomp_lt {c q : Nat} (h : 2 ^ c * (2 * q + 1) < W64) : c < 64 := by
  by_contra hc
  have : W64 ≤ 2 ^ c := Nat.pow_le_pow_right (by decide) (by omega)
  nlinarith [Nat.two_pow_pos c]

theorem bitPositions_decomp {c q : Nat} (h : 2 ^ c * (2 * q + 1) < W64) :
    bitPositions (2 ^ c * (2 * q + 1))
      = c :: bitPositions (2 ^ c * (2 * q + 1) &&& (2 ^ c * (2 * q + 1) - 1)) := by
  apply eq_of_sorted (bitPositions_sorted _)
  · refine List.pairwise_cons.2 ⟨?_, bitPositions_sorted _⟩
    intro j hj
    rw [mem_bitPositions, testBit_clear, testBit_decomp] at hj
    simp at hj; omega
  · intro j
    rw [List.mem_cons, mem_bitPositions, mem_bitPositions, testBit_clear]
    have hc := decomp_lt h
    constructor
    · rintro ⟨h1, h2⟩
      by_cases e : j = c
      · exact Or.inl e
      · exact Or.inr ⟨h1, by simp [h2, e]⟩
    · rintro (rfl | ⟨h1, h2⟩)
      · exact ⟨hc, by rw [testBit_decomp]; simp⟩
      · simp at h2; exact ⟨h1, by simp [h2.1]⟩

theorem ctz_decomp {c q : Nat} (h : 2 ^ c * (2 * q + 1) < W64) : ctz (2 ^ c * (2 * q + 1)) = c := by
  have := bitPositions_decomp h
  rw [bitPositions] at this
  rw [ctz, builtinCtz, this]; rfl

/-- Peeling the lowest set bit off a word. -/
theorem bitPositions_peel {m : Nat} (h : m ≠ 0) (hW : m < W64) :
    bitPositions m = ctz m :: bitPositions (m &&& (m - 1)) ∧ m &&& neg64 m = 2 ^ ctz m ∧ m.testBit (ctz m) = true
      ∧ ctz m < 64 ∧ m &&& (m - 1) < W64 := by
  obtain ⟨c, q, rfl⟩ := exists_odd_decomp h
  rw [ctz_decomp hW]
  refine ⟨bitPositions_decomp hW, land_neg c q hW, ?_, decomp_lt hW, (land_pred_lt h).trans hW⟩
  rw [testBit_decomp]; simp

theorem bitPositions_eq_nil {m : Nat} (hW : m < W64) : bitPositions m = [] ↔ m = 0 := by
  constructor
  · intro h
    by_contra h0
    rw [(bitPositions_peel h0 hW).1] at h; cases h
  · rintro rfl; exact bitPositions_zero

theorem bitPositions_length_le (m : Nat) : (bitPositions m).length ≤ 64 := by
  simpa [bitPositions] using List.length_filter_le (m.testBit ·) (List.range 64)

theorem land_two_pow_ne_zero (x c : Nat) : x &&& 2 ^ c ≠ 0 ↔ x.testBit c = true := by
  rw [Nat.and_two_pow]
  cases x.testBit c <;> simp

end LC
