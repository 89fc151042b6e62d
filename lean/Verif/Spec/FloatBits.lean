import Mathlib.Analysis.SpecialFunctions.Log.Base
import Mathlib.Data.Int.Log
/-! What is assumed about `std::log2`. -/
namespace LC

/-- Rounding of a real number to the nearest IEEE 754 double (53 significant bits; exponent range and ties are ignored: the logarithms
considered here lie between 1 and 64 or are 0, and are integers or irrational). -/
noncomputable def roundDouble (x : ℝ) : ℝ := (round (x * 2 ^ (52 - Int.log 2 x)) : ℝ) / 2 ^ (52 - Int.log 2 x)

/-- The correctly rounded base-2 logarithm. -/
noncomputable def correctLog2 (n : Nat) : ℝ := roundDouble (Real.logb 2 n)

/-- An implementation of `std::log2` that is exact for powers of two and has an absolute error of at most `2^-m` for integers that are
exactly representable as doubles. (Results are below 64, so an error below one unit in the last place means `m = 47`.) -/
structure Log2Within (log2 : Nat → ℝ) (m : Nat) : Prop where
  exact : ∀ k : Nat, k < 64 → log2 (2 ^ k) = (k : ℝ)
  error : ∀ n, 0 < n → n ≤ 2 ^ 53 → |log2 n - Real.logb 2 n| ≤ 1 / 2 ^ m

end LC
