import Verif.Proof.BitOps
/-
C23–C25: bit operations.
-/
namespace LC

/-- **C23** `next_pow2(i)` is defined for `i ≤ 2^63`, the same in both compilation branches, and it is the lowest power
of two that is not smaller than `i`: a power of two, `≥ i`, and every power of two `≥ i` is at least as large.
Consequently it is below `2 i`. -/
theorem C23_next_pow2 (i : Nat) (h : i ≤ 2 ^ 63) :
    ∃ r, nextPow2Gnu? i = some r ∧ nextPow2Portable i = r ∧ (∃ k, r = 2 ^ k) ∧ i ≤ r ∧ (∀ k, i ≤ 2 ^ k → r ≤ 2 ^ k) ∧
      (1 ≤ i → r < 2 * i) := by
  by_cases h2 : i < 2
  · refine ⟨1, by simp [nextPow2Gnu?, h2], by simp [nextPow2Portable, h2], ⟨0, rfl⟩, by omega, ?_, by omega⟩
    intro k _; exact Nat.one_le_two_pow
  · obtain ⟨h3, h4⟩ := nextPow2_eq (by omega) h
    have h0 : i - 1 ≠ 0 := by omega
    have hlt : i - 1 < 2 ^ (Nat.log2 (i - 1) + 1) := Nat.lt_log2_self
    have hle : 2 ^ Nat.log2 (i - 1) ≤ i - 1 := Nat.log2_self_le h0
    refine ⟨_, h3, h4, ⟨_, rfl⟩, by omega, ?_, ?_⟩
    · intro k hk
      apply Nat.pow_le_pow_right (by decide)
      have : i - 1 < 2 ^ k := by omega
      exact (Nat.log2_lt h0).2 this
    · intro _; rw [pow_succ]; omega

/-- **C23** beyond `2^63` the GNU branch shifts by 64 bits: undefined behaviour. -/
theorem C23_next_pow2_beyond (i : Nat) (h : 2 ^ 63 < i) (hW : i < W64) : nextPow2Gnu? i = none := by
  have h0 : i - 1 ≠ 0 := by omega
  have h1 : Nat.log2 (i - 1) < 64 := (Nat.log2_lt h0).2 (lt_of_le_of_lt (Nat.sub_le i 1) hW)
  have h2 : ¬ Nat.log2 (i - 1) < 63 := fun hc => by have := (Nat.log2_lt h0).1 hc; omega
  unfold nextPow2Gnu?
  rw [if_neg (by omega), sub64_one (by omega) hW, builtinClz, shl64?]
  rw [if_neg (by omega)]

example : nextPow2Gnu? 1000 = some 1024 ∧ nextPow2Portable 1000 = 1024 := by decide +kernel

/-- **C24** Bit `k` of `extract_bits(v, mask)` is bit `p_k` of `v`, where `p_k` is the `k`-th set position of `mask`;
bits beyond the number of set positions are 0. -/
theorem C24_extract_bits (v mask : Nat) (hW : mask < W64) :
    (∀ k p, (bitPositions mask)[k]? = some p → (extractBits v mask).testBit k = v.testBit p) ∧
    (∀ k, (bitPositions mask).length ≤ k → (extractBits v mask).testBit k = false) := by
  refine ⟨fun k p h => ?_, fun k h => ?_⟩
  · rw [extractBits_testBit _ _ hW, h]
  · rw [extractBits_testBit _ _ hW, List.getElem?_eq_none h]

/-- **C24** Bit `p_k` of `deposit_bits(x, mask)` is bit `k` of `x`; bits outside `mask` are 0. -/
theorem C24_deposit_bits (x mask : Nat) (hW : mask < W64) :
    (∀ k p, (bitPositions mask)[k]? = some p → (depositBits x mask).testBit p = x.testBit k) ∧
    (∀ j, mask.testBit j = false → (depositBits x mask).testBit j = false) := by
  refine ⟨fun k p h => ?_, fun j h => ?_⟩
  · obtain ⟨hk, rfl⟩ := List.getElem?_eq_some_iff.1 h
    rw [depositBits_testBit _ _ hW, (bitPositions_nodup mask).idxOf_getElem]
    simp
  · rw [depositBits_testBit _ _ hW]
    have : j ∉ bitPositions mask := fun hm => by rw [(mem_bitPositions.1 hm).2] at h; cases h
    simp [this]

/-- **C24** Round trips. -/
theorem C24_round_trips (x v mask : Nat) (hW : mask < W64) :
    extractBits (depositBits x mask) mask = x % 2 ^ popcount mask ∧
    depositBits (extractBits v mask) mask = v &&& mask :=
  ⟨extract_deposit x mask hW, deposit_extract v mask hW⟩

example : extractBits 0b110101 0b101100 = 0b101 ∧ depositBits 0b101 0b101100 = 0b100100 := by decide +kernel

/-- **C25** (partial: `popcount` fails in the portable branch, see F13) Parity and trailing zero counts are right in both
branches. The GNU branches are compiler intrinsics. -/
theorem C25_counts_partial (x : Nat) (hW : x < W64) :
    parityPopcountPortable x = ((bitPositions x).length % 2 == 1) ∧
    parityPopcount x = ((bitPositions x).length % 2 == 1) ∧
    popcount x = (bitPositions x).length ∧
    (x ≠ 0 → (ctzPortable x = ctz x ∧ x.testBit (ctz x) = true ∧ ∀ j < ctz x, x.testBit j = false)) := by
  refine ⟨parityPortable_eq x, rfl, rfl, fun h0 => ?_⟩
  obtain ⟨c, q, rfl⟩ := exists_odd_decomp h0
  rw [ctz_decomp hW, ctzPortable_eq (decomp_lt hW)]
  refine ⟨rfl, by rw [testBit_decomp]; simp, fun j hj => ?_⟩
  rw [testBit_decomp]
  have : ¬ c ≤ j := by omega
  simp [this]

/-- **C25 (finding F13)** The portable branch of `popcount` is wrong, e.g. for 2: it returns 3 instead of 1. -/
theorem C25_F13_portable_popcount_wrong : popcountPortable 2 = 3 ∧ popcount 2 = 1 := by decide +kernel

example : ctzPortable 0xf000 = 12 ∧ parityPopcountPortable 0b1011 = true := by decide +kernel

end LC
