import Mathlib.Data.Nat.Choose.Basic
import Mathlib.Data.Nat.Choose.Sum
import Verif.Proof.BitOps
import Verif.Model.Ranking
/-
`binomial(n, k)` is exact for `n ≤ 62`; the combinatorial number system.
-/
namespace LC

theorem choose_step_bound {n i : Nat} (hn : n ≤ 62) : Nat.choose n i * (n - i) < W64 := by
  rcases Nat.eq_zero_or_pos n with rfl | hpos
  · simp
  · have h1 : Nat.choose n i * (n - i) = n * Nat.choose (n - 1) i := by
      obtain ⟨m, rfl⟩ : ∃ m, n = m + 1 := ⟨n - 1, by omega⟩
      have h2 := Nat.add_one_mul_choose_eq m i
      have h3 := Nat.choose_succ_right_eq (m + 1) i
      simp only [Nat.add_sub_cancel]
      rw [← h3]; simpa using h2.symm
    have h4 : Nat.choose (n - 1) i ≤ Nat.choose 61 30 :=
      (Nat.choose_le_choose i (by omega)).trans (Nat.choose_le_middle i 61)
    have h5 : Nat.choose 61 30 = 232714176627630544 := by decide +kernel
    rw [h1]
    calc n * Nat.choose (n - 1) i ≤ 62 * 232714176627630544 := Nat.mul_le_mul hn (h5 ▸ h4)
      _ < W64 := by decide

theorem binomial_loop (n k : Nat) (hk : k ≤ n) (hn : n ≤ 62) :
    (List.range k).foldl (fun C i => mul64 C (n - i) / (i + 1)) 1 = Nat.choose n k := by
  induction k with
  | zero => simp
  | succ k ih =>
    rw [List.range_succ, List.foldl_append, ih (by omega)]
    simp only [List.foldl_cons, List.foldl_nil]
    rw [mul64, Nat.mod_eq_of_lt (choose_step_bound hn), ← Nat.choose_succ_right_eq]
    exact Nat.mul_div_cancel _ (by omega)

theorem binomial_eq_choose (n k : Nat) (hn : n ≤ 62) : binomial n k = Nat.choose n k := by
  unfold binomial
  split
  · next h => exact (Nat.choose_eq_zero_of_lt h).symm
  · next h =>
    simp only
    split
    · rw [binomial_loop n (n - k) (by omega) hn, Nat.choose_symm (by omega)]
    · rw [binomial_loop n k (by omega) hn]

/-! ### Combinatorial number system -/

/-- `Σ_j C(p_j, k + j + 1)` over a list of positions. -/
def colex : Nat → List Nat → Nat
  | _, [] => 0
  | k, p :: l => Nat.choose p (k + 1) + colex (k + 1) l

theorem colex_append (k : Nat) (l₁ l₂ : List Nat) : colex k (l₁ ++ l₂) = colex k l₁ + colex (k + l₁.length) l₂ := by
  induction l₁ generalizing k with
  | nil => simp [colex]
  | cons p l ih =>
    simp only [List.cons_append, colex, ih, List.length_cons]
    rw [show k + 1 + l.length = k + (l.length + 1) by omega]; omega

/-- Positions of a word split into a low part and a shifted high part. -/
theorem bitPositions_add {s M r : Nat} (hs : s < 2 ^ M) (h : s + 2 ^ M * r < W64) :
    bitPositions (s + 2 ^ M * r) = bitPositions s ++ (bitPositions r).map (· + M) := by
  have hb : ∀ j, (s + 2 ^ M * r).testBit j = if j < M then s.testBit j else r.testBit (j - M) := by
    intro j; rw [Nat.add_comm, Nat.testBit_two_pow_mul_add _ hs]
  apply eq_of_sorted (bitPositions_sorted _)
  · rw [List.pairwise_append]
    refine ⟨bitPositions_sorted _, ?_, ?_⟩
    · rw [List.pairwise_map]; exact (bitPositions_sorted r).imp (by intro a b h; omega)
    · intro a ha b hb
      rw [mem_bitPositions] at ha
      obtain ⟨c, hc, rfl⟩ := List.mem_map.1 hb
      have : a < M := by
        by_contra hc
        rw [testBit_of_lt hs (by omega)] at ha; simp at ha
      omega
  · intro j
    rw [List.mem_append, mem_bitPositions, hb, mem_bitPositions, List.mem_map]
    constructor
    · rintro ⟨h1, h2⟩
      split at h2
      · exact Or.inl ⟨h1, h2⟩
      · next h3 => exact Or.inr ⟨j - M, mem_bitPositions.2 ⟨by omega, h2⟩, by omega⟩
    · rintro (⟨h1, h2⟩ | ⟨a, ha, rfl⟩)
      · have : j < M := by
          by_contra hc
          rw [testBit_of_lt hs (by omega)] at h2; simp at h2
        exact ⟨h1, by simp [this, h2]⟩
      · rw [mem_bitPositions] at ha
        have h64 : a + M < 64 := by
          by_contra hc
          have := hb (a + M)
          rw [testBit_of_lt h (by omega)] at this
          simp [ha.2] at this
        exact ⟨h64, by simp [ha.2]⟩

theorem bitPositions_top {s M : Nat} (hs : s < 2 ^ M) (hM : M < 64) :
    bitPositions (s + 2 ^ M) = bitPositions s ++ [M] := by
  have h1 : bitPositions 1 = [0] := by decide +kernel
  have h2 : s + 2 ^ M * 1 < W64 := by
    have : 2 ^ (M + 1) ≤ W64 := Nat.pow_le_pow_right (by decide) (by omega)
    rw [pow_succ] at this; omega
  have := bitPositions_add hs h2
  rw [mul_one, h1] at this
  simpa using this

/-- Number of set bits (of a 64-bit word). -/
def bitCount (s : Nat) : Nat := (bitPositions s).length

/-- Rank of a word among the words with the same number of set bits. -/
def cnsRank (s : Nat) : Nat := colex 0 (bitPositions s)

theorem bitCount_zero : bitCount 0 = 0 := by rw [bitCount, bitPositions_zero]; rfl
theorem cnsRank_zero : cnsRank 0 = 0 := by rw [cnsRank, bitPositions_zero]; rfl

theorem bitCount_top {s M : Nat} (hs : s < 2 ^ M) (hM : M < 64) : bitCount (s + 2 ^ M) = bitCount s + 1 := by
  rw [bitCount, bitPositions_top hs hM, List.length_append]; rfl

theorem cnsRank_top {s M : Nat} (hs : s < 2 ^ M) (hM : M < 64) :
    cnsRank (s + 2 ^ M) = cnsRank s + Nat.choose M (bitCount s + 1) := by
  rw [cnsRank, bitPositions_top hs hM, colex_append]
  simp [colex, cnsRank, bitCount]

/-- Case distinction on the top bit. -/
theorem top_cases {s M : Nat} (h : s < 2 ^ (M + 1)) : s < 2 ^ M ∨ ∃ s' < 2 ^ M, s = s' + 2 ^ M := by
  rw [pow_succ] at h
  by_cases h1 : s < 2 ^ M
  · exact Or.inl h1
  · exact Or.inr ⟨s - 2 ^ M, by omega, by omega⟩

theorem bitCount_le {s M : Nat} (h : s < 2 ^ M) (hM : M ≤ 64) : bitCount s ≤ M := by
  induction M generalizing s with
  | zero =>
    have : s = 0 := by simpa using h
    subst this; simp [bitCount_zero]
  | succ M ih =>
    rcases top_cases h with h1 | ⟨s', h1, rfl⟩
    · exact (ih h1 (by omega)).trans (by omega)
    · rw [bitCount_top h1 (by omega)]
      have := ih h1 (by omega)
      omega

theorem cnsRank_lt {s M : Nat} (h : s < 2 ^ M) (hM : M ≤ 64) : cnsRank s < Nat.choose M (bitCount s) := by
  induction M generalizing s with
  | zero =>
    have : s = 0 := by simpa using h
    subst this; simp [bitCount_zero, cnsRank_zero]
  | succ M ih =>
    rcases top_cases h with h1 | ⟨s', h1, rfl⟩
    · exact (ih h1 (by omega)).trans_le (Nat.choose_le_choose _ (by omega))
    · rw [bitCount_top h1 (by omega), cnsRank_top h1 (by omega), Nat.choose_succ_succ']
      have := ih h1 (by omega)
      omega

theorem cnsRank_lt_cnsRank {s t M : Nat} (ht : t < 2 ^ M) (hM : M ≤ 64) (hst : s < t) (hc : bitCount s = bitCount t) :
    cnsRank s < cnsRank t := by
  induction M generalizing s t with
  | zero => simp at ht; omega
  | succ M ih =>
    rcases top_cases ht with h1 | ⟨t', h1, rfl⟩
    · exact ih h1 (by omega) hst hc
    · rcases top_cases (hst.trans ht) with h2 | ⟨s', h2, rfl⟩
      · have h3 := cnsRank_lt h2 (by omega)
        rw [cnsRank_top h1 (by omega)]
        rw [bitCount_top h1 (by omega)] at hc
        rw [hc] at h3; omega
      · rw [cnsRank_top h1 (by omega), cnsRank_top h2 (by omega)]
        rw [bitCount_top h1 (by omega), bitCount_top h2 (by omega)] at hc
        have := ih h1 (by omega) (by omega : s' < t') (by omega)
        have hc' : bitCount s' = bitCount t' := by omega
        rw [hc']; omega

theorem cnsRank_surj (M : Nat) (hM : M ≤ 64) (N r : Nat) (h : r < Nat.choose M N) :
    ∃ s < 2 ^ M, bitCount s = N ∧ cnsRank s = r := by
  induction M generalizing N r with
  | zero =>
    cases N with
    | zero => simp at h; exact ⟨0, by simp, bitCount_zero, by rw [cnsRank_zero, h]⟩
    | succ N => simp at h
  | succ M ih =>
    by_cases h1 : r < Nat.choose M N
    · obtain ⟨s, h2, h3, h4⟩ := ih (by omega) N r h1
      exact ⟨s, h2.trans (Nat.pow_lt_pow_right (by decide) (by omega)), h3, h4⟩
    · cases N with
      | zero => simp at h h1; omega
      | succ N =>
        rw [Nat.choose_succ_succ'] at h
        obtain ⟨s, h2, h3, h4⟩ := ih (by omega) N (r - Nat.choose M (N + 1)) (by omega)
        refine ⟨s + 2 ^ M, by rw [pow_succ]; omega, ?_, ?_⟩
        · rw [bitCount_top h2 (by omega), h3]
        · rw [cnsRank_top h2 (by omega), h3, h4]; omega

/-! ### Complement within `M` bits -/

theorem xor_ones {s M : Nat} (h : s < 2 ^ M) : s ^^^ (2 ^ M - 1) = 2 ^ M - 1 - s := by
  apply Nat.eq_of_testBit_eq
  intro j
  rw [Nat.testBit_xor, Nat.testBit_two_pow_sub_one, show 2 ^ M - 1 - s = 2 ^ M - (s + 1) by omega,
    Nat.testBit_two_pow_sub_succ h]
  by_cases hj : j < M
  · simp [hj]
  · simp [hj, testBit_of_lt h (by omega : M ≤ j)]

theorem bitCount_compl {s M : Nat} (h : s < 2 ^ M) (hM : M ≤ 64) : bitCount (2 ^ M - 1 - s) = M - bitCount s := by
  induction M generalizing s with
  | zero =>
    have : s = 0 := by simpa using h
    subst this; simp [bitCount_zero]
  | succ M ih =>
    have hp := Nat.two_pow_pos M
    rcases top_cases h with h1 | ⟨s', h1, rfl⟩
    · have e : 2 ^ (M + 1) - 1 - s = (2 ^ M - 1 - s) + 2 ^ M := by rw [pow_succ]; omega
      rw [e, bitCount_top (by omega) (by omega), ih h1 (by omega)]
      have := bitCount_le h1 (by omega)
      omega
    · have e : 2 ^ (M + 1) - 1 - (s' + 2 ^ M) = 2 ^ M - 1 - s' := by rw [pow_succ]; omega
      rw [e, bitCount_top h1 (by omega), ih h1 (by omega)]
      omega

end LC
