import Verif.Model.FloatBits
import Verif.Spec.FloatBits
import Mathlib.Analysis.Convex.SpecificFunctions.Basic
import Mathlib.Analysis.SpecialFunctions.Log.Deriv
import Mathlib.Analysis.Complex.ExponentialBounds
/-! Bounds of base-2 logarithms of integers near powers of two. -/
namespace LC
open Real

/-- `x < log2(1+x)` for `0 < x < 1`. -/
theorem lt_logb_one_add {x : ℝ} (h0 : 0 < x) (h1 : x < 1) : x < logb 2 (1 + x) := by
  rw [lt_logb_iff_rpow_lt (by norm_num) (by linarith)]
  have := rpow_one_add_lt_one_add_mul_self (s := 1) (by norm_num) (by norm_num) h0 h1
  norm_num at this
  exact this

/-- `log2(1-x) ≤ -x` for `0 ≤ x < 1`. -/
theorem logb_one_sub_le {x : ℝ} (h0 : 0 ≤ x) (h1 : x < 1) : logb 2 (1 - x) ≤ -x := by
  have hl : 0 < log 2 := log_pos (by norm_num)
  have h2 : log 2 < 1 := by have := log_two_lt_d9; linarith
  rw [logb, div_le_iff₀ hl]
  have := log_le_sub_one_of_pos (show 0 < 1 - x by linarith)
  nlinarith

theorem logb_two_pow (k : Nat) : logb 2 ((2 : ℝ) ^ k) = k := by
  rw [← rpow_natCast, logb_rpow (by norm_num) (by norm_num)]

/-- An integer above `2^k` has a logarithm greater than `k + 2^-k`. -/
theorem logb_gt {n k : Nat} (hk : 0 < k) (h : 2 ^ k < n) : (k : ℝ) + 1 / 2 ^ k < logb 2 n := by
  have hp : (0 : ℝ) < 2 ^ k := by positivity
  have hn : (2 : ℝ) ^ k + 1 ≤ n := by exact_mod_cast h
  have e : (2 : ℝ) ^ k + 1 = 2 ^ k * (1 + 1 / 2 ^ k) := by field_simp
  have h1 : (1 : ℝ) / 2 ^ k < 1 := by
    rw [div_lt_one hp]; exact_mod_cast Nat.one_lt_two_pow hk.ne'
  calc (k : ℝ) + 1 / 2 ^ k < k + logb 2 (1 + 1 / 2 ^ k) := by
        have := lt_logb_one_add (x := 1 / 2 ^ k) (by positivity) h1; linarith
    _ = logb 2 (2 ^ k + 1) := by
        rw [e, logb_mul (by positivity) (by positivity), logb_two_pow]
    _ ≤ logb 2 n := logb_le_logb_of_le (by norm_num) (by positivity) hn

/-- An integer below `2^k` has a logarithm of at most `k - 2^-k`. -/
theorem logb_le {n k : Nat} (h0 : 0 < n) (h : n < 2 ^ k) : logb 2 n ≤ k - 1 / 2 ^ k := by
  have hp : (0 : ℝ) < 2 ^ k := by positivity
  have hk : k ≠ 0 := by rintro rfl; simp at h; omega
  have hn : (n : ℝ) ≤ 2 ^ k - 1 := by
    have : (n : ℝ) + 1 ≤ 2 ^ k := by exact_mod_cast h
    linarith
  have e : (2 : ℝ) ^ k - 1 = 2 ^ k * (1 - 1 / 2 ^ k) := by field_simp
  have h1 : (1 : ℝ) / 2 ^ k < 1 := by
    rw [div_lt_one hp]; exact_mod_cast Nat.one_lt_two_pow hk
  calc logb 2 n ≤ logb 2 (2 ^ k - 1) := logb_le_logb_of_le (by norm_num) (by exact_mod_cast h0) hn
    _ = k + logb 2 (1 - 1 / 2 ^ k) := by
        rw [e, logb_mul (by positivity) (by linarith), logb_two_pow]
    _ ≤ k - 1 / 2 ^ k := by
        have := logb_one_sub_le (x := 1 / 2 ^ k) (by positivity) h1; linarith

theorem clog_eq {n k : Nat} (h1 : 2 ^ k < n) (h2 : n ≤ 2 ^ (k + 1)) : Nat.clog 2 n = k + 1 := by
  apply le_antisymm
  · exact (Nat.clog_le_iff_le_pow (by norm_num)).2 h2
  · exact (Nat.lt_clog_iff_pow_lt (by norm_num)).2 h1

/-- From bounds of the computed logarithm to the number of bits. -/
theorem floatBits_of {log2 : Nat → ℝ} {n k : Nat} (h1 : (k : ℝ) < log2 n) (h2 : log2 n ≤ k + 1) :
    ESpace.floatBits log2 n = k + 1 := by
  have : ⌈log2 n⌉ = ((k + 1 : Nat) : ℤ) := by
    rw [Int.ceil_eq_iff]; push_cast; constructor <;> linarith
  simp [ESpace.floatBits, this]

/-- Every `n ≥ 2` lies between two powers of two. -/
theorem between {n : Nat} (h : 2 ≤ n) : ∃ k, 2 ^ k < n ∧ n ≤ 2 ^ (k + 1) := by
  obtain ⟨k, hk⟩ : ∃ k, Nat.clog 2 n = k + 1 :=
    ⟨Nat.clog 2 n - 1, by have := Nat.clog_pos (b := 2) (by norm_num) h; omega⟩
  refine ⟨k, ?_, ?_⟩
  · exact (Nat.lt_clog_iff_pow_lt (by norm_num)).1 (by omega)
  · exact (Nat.clog_le_iff_le_pow (by norm_num)).1 (by omega)

/-- The number of bits is exact up to dimension `2^m` if the error of the logarithm is at most `2^-m`. -/
theorem floatBits_exact {log2 : Nat → ℝ} {m n : Nat} (hl : Log2Within log2 m) (hm : m ≤ 53) (h0 : 0 < n) (hn : n ≤ 2 ^ m) :
    ESpace.floatBits log2 n = Nat.clog 2 n := by
  have h53 : n ≤ 2 ^ 53 := hn.trans (Nat.pow_le_pow_right (by norm_num) hm)
  by_cases h1 : n = 1
  · subst h1
    have := hl.exact 0 (by norm_num)
    norm_num at this
    simp [ESpace.floatBits, this]
  obtain ⟨k, hk1, hk2⟩ := between (n := n) (by omega)
  have hkm : k < m := (Nat.pow_lt_pow_iff_right (by norm_num : 1 < 2)).1 (hk1.trans_le hn)
  rw [clog_eq hk1 hk2]
  rcases hk2.eq_or_lt with heq | hlt
  · have := hl.exact (k + 1) (by omega)
    rw [← heq] at this
    apply floatBits_of <;> rw [this] <;> push_cast <;> linarith
  have hk0 : 0 < k := by
    rcases Nat.eq_zero_or_pos k with rfl | h
    · simp at hk1 hlt; omega
    · exact h
  have herr := abs_le.1 (hl.error n h0 h53)
  have hge : (1 : ℝ) / 2 ^ m ≤ 1 / 2 ^ (k + 1) :=
    one_div_le_one_div_of_le (by positivity) (pow_le_pow_right₀ (by norm_num) hkm)
  have hgk : (1 : ℝ) / 2 ^ (k + 1) ≤ 1 / 2 ^ k :=
    one_div_le_one_div_of_le (by positivity) (pow_le_pow_right₀ (by norm_num) (by omega))
  have ha := logb_gt hk0 hk1
  have hb := logb_le h0 hlt
  push_cast at hb
  apply floatBits_of <;> linarith [herr.1, herr.2]

/-- Error of rounding to 53 bits of numbers below 64. -/
theorem roundDouble_error {x : ℝ} (h0 : 0 < x) (h1 : x < 64) : |roundDouble x - x| ≤ 1 / 2 ^ 48 := by
  have hlog : Int.log 2 x ≤ 5 := by
    by_contra hc
    push Not at hc
    have := Int.zpow_log_le_self (b := 2) (r := x) (by norm_num) h0
    have h6 : ((2 : ℕ) : ℝ) ^ (6 : ℤ) ≤ (2 : ℕ) ^ Int.log 2 x := zpow_le_zpow_right₀ (by norm_num) (by omega)
    norm_num at h6 this
    linarith
  set p : ℝ := 2 ^ (52 - Int.log 2 x) with hp
  have hp47 : (2 : ℝ) ^ 47 ≤ p := by
    rw [hp, ← zpow_natCast]
    exact zpow_le_zpow_right₀ (by norm_num) (by push_cast; omega)
  have hp0 : 0 < p := lt_of_lt_of_le (by positivity) hp47
  have e : roundDouble x - x = (round (x * p) - x * p) / p := by
    rw [roundDouble, ← hp]; field_simp
  rw [e, abs_div, abs_of_pos hp0, div_le_iff₀ hp0, abs_sub_comm]
  have := abs_sub_round (x * p)
  norm_num at hp47 this ⊢
  linarith

/-- On `[32, 64)` doubles are the multiples of `2^-47`. -/
theorem roundDouble_eq {x : ℝ} (h0 : 32 ≤ x) (h1 : x < 64) : roundDouble x = round (x * 2 ^ 47) / 2 ^ 47 := by
  have hlog : Int.log 2 x = 5 := by
    apply le_antisymm
    · by_contra hc
      push Not at hc
      have := Int.zpow_log_le_self (b := 2) (r := x) (by norm_num) (by linarith)
      have h6 : ((2 : ℕ) : ℝ) ^ (6 : ℤ) ≤ (2 : ℕ) ^ Int.log 2 x := zpow_le_zpow_right₀ (by norm_num) (by omega)
      norm_num at h6 this
      linarith
    · by_contra hc
      push Not at hc
      have := Int.lt_zpow_succ_log_self (b := 2) (by norm_num) x
      have h6 : ((2 : ℕ) : ℝ) ^ (Int.log 2 x + 1) ≤ (2 : ℕ) ^ (5 : ℤ) := zpow_le_zpow_right₀ (by norm_num) (by omega)
      norm_num at h6 this
      linarith
  rw [roundDouble, hlog]
  norm_num

theorem roundDouble_natCast (k : Nat) (hk : k < 64) : roundDouble k = k := by
  rcases Nat.eq_zero_or_pos k with rfl | h0
  · simp [roundDouble]
  have hlog : Int.log 2 (k : ℝ) = (Nat.log 2 k : ℤ) := Int.log_natCast 2 k
  have h6 : Nat.log 2 k ≤ 6 := by
    have : Nat.log 2 k < 6 := Nat.log_lt_of_lt_pow h0.ne' (by omega)
    omega
  have e : ((2 : ℝ) ^ (52 - (Nat.log 2 k : ℤ))) = ((2 ^ (52 - Nat.log 2 k) : ℕ) : ℝ) := by
    rw [show (52 : ℤ) - (Nat.log 2 k : ℤ) = ((52 - Nat.log 2 k : ℕ) : ℤ) by omega, zpow_natCast]
    push_cast; rfl
  rw [roundDouble, hlog, e]
  have : ((k : ℝ) * ((2 ^ (52 - Nat.log 2 k) : ℕ) : ℝ)) = ((k * 2 ^ (52 - Nat.log 2 k) : ℕ) : ℝ) := by push_cast; ring
  rw [this, round_natCast]
  have hpos : (0 : ℝ) < ((2 ^ (52 - Nat.log 2 k) : ℕ) : ℝ) := by positivity
  rw [Int.cast_natCast, ← this]
  field_simp

theorem correctLog2_pow (k : Nat) (hk : k < 64) : correctLog2 (2 ^ k) = k := by
  rw [correctLog2]; push_cast; rw [logb_two_pow, roundDouble_natCast k hk]

theorem correctLog2_within : Log2Within correctLog2 48 where
  exact := correctLog2_pow
  error n h0 hn := by
    rcases Nat.lt_or_ge 1 n with h1 | h1
    · have hlt : logb 2 (n : ℝ) < 64 := by
        rw [logb_lt_iff_lt_rpow (by norm_num) (by exact_mod_cast h0)]
        have : (n : ℝ) ≤ 2 ^ 53 := by exact_mod_cast hn
        norm_num at this ⊢; linarith
      exact roundDouble_error (logb_pos (by norm_num) (by exact_mod_cast h1)) hlt
    · have : n = 1 := by omega
      subst this
      have := correctLog2_pow 0 (by norm_num)
      norm_num at this
      simp [this]

/-- With correct rounding the number of bits is exact up to `2^49`. -/
theorem floatBits_correct {n : Nat} (h0 : 0 < n) (hn : n ≤ 2 ^ 49) : ESpace.floatBits correctLog2 n = Nat.clog 2 n := by
  rcases Nat.lt_or_ge (2 ^ 48) n with h1 | h1
  · rw [clog_eq h1 hn]
    rcases hn.eq_or_lt with heq | hlt
    · have := correctLog2_pow 49 (by norm_num)
      rw [← heq] at this
      apply floatBits_of <;> rw [this] <;> norm_num
    have ha := logb_gt (by norm_num) h1
    have hb := logb_le h0 hlt
    have herr := abs_le.1 (correctLog2_within.error n h0 (by omega))
    apply floatBits_of
    · have := herr.1
      norm_num at ha this ⊢
      linarith
    · rw [correctLog2, roundDouble_eq (by norm_num at ha ⊢; linarith) (by norm_num at hb ⊢; linarith), div_le_iff₀ (by positivity)]
      have : round (logb 2 (n : ℝ) * 2 ^ 47) ≤ (49 * 2 ^ 47 : ℤ) := by
        rw [round_eq]
        apply Int.le_of_lt_add_one
        rw [Int.floor_lt]
        push_cast
        norm_num at hb ⊢
        linarith
      have h' : ((round (logb 2 (n : ℝ) * 2 ^ 47) : ℤ) : ℝ) ≤ ((49 * 2 ^ 47 : ℤ) : ℝ) := by exact_mod_cast this
      push_cast at h'
      norm_num at h' ⊢
      linarith
  · exact floatBits_exact correctLog2_within (by norm_num) h0 h1

/-- The computed logarithm of `2^49 + 1` is 49. -/
theorem correctLog2_bad : correctLog2 (2 ^ 49 + 1) = 49 := by
  have ha := logb_gt (k := 49) (n := 2 ^ 49 + 1) (by norm_num) (by norm_num)
  have hb : logb 2 ((2 ^ 49 + 1 : ℕ) : ℝ) < 49 + 1 / 2 ^ 48 := by
    have e : (((2 ^ 49 + 1 : ℕ)) : ℝ) = 2 ^ 49 * (1 + 1 / 2 ^ 49) := by norm_num
    rw [e, logb_mul (by positivity) (by positivity), logb_two_pow]
    have hl : (0.69 : ℝ) < log 2 := by have := log_two_gt_d9; linarith
    have : logb 2 (1 + 1 / 2 ^ 49 : ℝ) ≤ (1 / 2 ^ 49) / 0.69 := by
      rw [logb]
      have := log_le_sub_one_of_pos (show (0 : ℝ) < 1 + 1 / 2 ^ 49 by positivity)
      calc log (1 + 1 / 2 ^ 49) / log 2 ≤ (1 / 2 ^ 49) / log 2 := by
            apply div_le_div_of_nonneg_right _ (by linarith); linarith
        _ ≤ _ := by apply div_le_div_of_nonneg_left (by positivity) (by norm_num) hl.le
    have h2 : ((1 : ℝ) / 2 ^ 49) / 0.69 < 1 / 2 ^ 48 := by norm_num
    push_cast
    linarith
  rw [correctLog2, roundDouble_eq (by norm_num at ha ⊢; linarith) (by norm_num at hb ⊢; linarith)]
  have : round (logb 2 ((2 ^ 49 + 1 : ℕ) : ℝ) * 2 ^ 47) = (49 * 2 ^ 47 : ℤ) := by
    rw [round_eq, Int.floor_eq_iff]
    push_cast
    norm_num at ha hb ⊢
    constructor <;> linarith
  rw [this]
  norm_num

end LC
