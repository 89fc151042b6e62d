import Verif.Proof.Bits
/-
Correctness of `deposit_bits`, `extract_bits`, `next_pow2` and the portable bit counts.
-/
set_option linter.unusedSimpArgs false
namespace LC

theorem add64_two_pow (k : Nat) : add64 (2 ^ k % W64) (2 ^ k % W64) = 2 ^ (k + 1) % W64 := by
  unfold add64
  rw [← Nat.add_mod, pow_succ, mul_two]

theorem two_pow_mod {k : Nat} (h : k < 64) : 2 ^ k % W64 = 2 ^ k :=
  Nat.mod_eq_of_lt (Nat.pow_lt_pow_right (by decide) h)

theorem extractLoop_spec (val mask : Nat) (hW : mask < W64) (k res : Nat)
    (hk : k + (bitPositions mask).length ≤ 64) (j : Nat) :
    (extractLoop val mask (2 ^ k % W64) res).testBit j
      = (res.testBit j || (decide (k ≤ j) &&
          (match (bitPositions mask)[j - k]? with | some p => val.testBit p | none => false))) := by
  induction mask using Nat.strongRecOn generalizing k res with
  | _ mask ih =>
    rw [extractLoop]
    split
    · next h => subst h; simp [bitPositions_zero]
    · next h =>
      obtain ⟨h1, h2, h3, h4, h5⟩ := bitPositions_peel h hW
      rw [h1, List.length_cons] at hk
      rw [add64_two_pow, ih _ (land_pred_lt h) h5 (k + 1) _ (by omega), two_pow_mod (by omega : k < 64), Nat.and_assoc, h2,
        h1]
      have hbit := land_two_pow_ne_zero val (ctz mask)
      rcases Nat.lt_trichotomy j k with hj | hj | hj
      · have a1 : ¬ k ≤ j := by omega
        have a2 : ¬ k + 1 ≤ j := by omega
        have a3 : k ≠ j := by omega
        split_ifs <;> simp [a1, a2, a3, Nat.testBit_two_pow]
      · subst hj
        have a2 : ¬ j + 1 ≤ j := by omega
        cases hb : val.testBit (ctz mask)
        · rw [if_neg (by rw [hbit, hb]; simp)]; simp [hb]
        · rw [if_pos (hbit.2 hb)]; simp [hb]
      · have a1 : k ≤ j := by omega
        have a2 : k + 1 ≤ j := by omega
        have a3 : k ≠ j := by omega
        obtain ⟨d, rfl⟩ : ∃ d, j = k + 1 + d := ⟨j - (k + 1), by omega⟩
        have e1 : k + 1 + d - (k + 1) = d := by omega
        have e2 : k + 1 + d - k = d + 1 := by omega
        rw [e1, e2, List.getElem?_cons_succ]
        split_ifs <;> simp [a1, a3, Nat.testBit_two_pow]

theorem extractBits_testBit (val mask : Nat) (hW : mask < W64) (j : Nat) :
    (extractBits val mask).testBit j
      = (match (bitPositions mask)[j]? with | some p => val.testBit p | none => false) := by
  have := extractLoop_spec val mask hW 0 0 (by have := bitPositions_length_le mask; omega) j
  rw [extractBits]
  rw [show (2 : Nat) ^ 0 % W64 = 1 from rfl] at this
  rw [this]; simp

theorem depositLoop_spec (src mask : Nat) (hW : mask < W64) (k res : Nat)
    (hk : k + (bitPositions mask).length ≤ 64) (j : Nat) :
    (depositLoop src mask (2 ^ k % W64) res).testBit j
      = (res.testBit j || (decide (j ∈ bitPositions mask) && src.testBit (k + (bitPositions mask).idxOf j))) := by
  induction mask using Nat.strongRecOn generalizing k res with
  | _ mask ih =>
    rw [depositLoop]
    split
    · next h => subst h; simp [bitPositions_zero]
    · next h =>
      obtain ⟨h1, h2, h3, h4, h5⟩ := bitPositions_peel h hW
      have hnd := bitPositions_nodup mask
      rw [h1] at hnd
      have hnd := (List.nodup_cons.1 hnd).1
      rw [h1, List.length_cons] at hk
      rw [add64_two_pow, ih _ (land_pred_lt h) h5 (k + 1) _ (by omega), two_pow_mod (by omega : k < 64), h2,
        h1]
      have hbit := land_two_pow_ne_zero src k
      by_cases hj : j = ctz mask
      · subst hj
        cases hb : src.testBit k
        · rw [if_neg (by rw [hbit, hb]; simp)]; simp [hb, hnd]
        · rw [if_pos (hbit.2 hb)]; simp [hb, hnd]
      · rw [List.idxOf_cons_ne _ (Ne.symm hj)]
        have e : k + (List.idxOf j (bitPositions (mask &&& (mask - 1)))).succ
            = k + 1 + List.idxOf j (bitPositions (mask &&& (mask - 1))) := by omega
        rw [e]
        have hj' : ctz mask ≠ j := Ne.symm hj
        split_ifs <;> simp [hj, hj', Nat.testBit_two_pow]

theorem depositBits_testBit (src mask : Nat) (hW : mask < W64) (j : Nat) :
    (depositBits src mask).testBit j
      = (decide (j ∈ bitPositions mask) && src.testBit ((bitPositions mask).idxOf j)) := by
  have := depositLoop_spec src mask hW 0 0 (by have := bitPositions_length_le mask; omega) j
  rw [depositBits]
  rw [show (2 : Nat) ^ 0 % W64 = 1 from rfl] at this
  rw [this]; simp

/-- Extracting what was deposited. -/
theorem extract_deposit (x mask : Nat) (hW : mask < W64) :
    extractBits (depositBits x mask) mask = x % 2 ^ (bitPositions mask).length := by
  apply Nat.eq_of_testBit_eq
  intro j
  rw [extractBits_testBit _ _ hW, Nat.testBit_mod_two_pow]
  by_cases h : j < (bitPositions mask).length
  · rw [List.getElem?_eq_getElem h]
    simp only [h, decide_true, Bool.true_and]
    rw [depositBits_testBit _ _ hW, (bitPositions_nodup mask).idxOf_getElem]
    simp
  · rw [List.getElem?_eq_none (by omega)]
    simp [h]

/-- Depositing what was extracted. -/
theorem deposit_extract (v mask : Nat) (hW : mask < W64) :
    depositBits (extractBits v mask) mask = v &&& mask := by
  apply Nat.eq_of_testBit_eq
  intro j
  rw [depositBits_testBit _ _ hW, Nat.testBit_and]
  by_cases h : j ∈ bitPositions mask
  · have hl := List.idxOf_lt_length_of_mem h
    have hm := (mem_bitPositions.1 h).2
    rw [extractBits_testBit _ _ hW, List.getElem?_eq_getElem hl]
    simp [h, hm]
  · have : mask.testBit j = false := by
      by_contra hc
      apply h
      rw [mem_bitPositions]
      refine ⟨?_, by simpa using hc⟩
      by_contra h64
      exact hc (testBit_of_lt hW (by omega))
    simp [h, this]

theorem extractBits_lt (v mask : Nat) (hW : mask < W64) : extractBits v mask < 2 ^ (bitPositions mask).length := by
  apply lt_of_testBit
  intro j hj
  rw [extractBits_testBit _ _ hW, List.getElem?_eq_none hj]

theorem depositBits_sub (x mask : Nat) (hW : mask < W64) : depositBits x mask &&& mask = depositBits x mask := by
  apply Nat.eq_of_testBit_eq
  intro j
  rw [Nat.testBit_and, depositBits_testBit _ _ hW]
  by_cases h : j ∈ bitPositions mask
  · simp [h, (mem_bitPositions.1 h).2]
  · simp [h]

theorem depositBits_le (x mask : Nat) (hW : mask < W64) : depositBits x mask ≤ mask := by
  rw [← depositBits_sub x mask hW]; exact Nat.and_le_right

/-! ### next_pow2 -/

/-- bit `j` of the smeared word: some bit among `j … j+n-1` of `i` is set -/
def Smeared (i n x : Nat) : Prop := ∀ j, x.testBit j = true ↔ ∃ d < n, i.testBit (j + d) = true

theorem Smeared.step {i n x : Nat} (h : Smeared i n x) : Smeared i (2 * n) (smear n x) := by
  intro j
  unfold smear
  rw [Nat.testBit_or, Nat.testBit_shiftRight, Bool.or_eq_true, h j, h (n + j)]
  constructor
  · rintro (⟨d, h1, h2⟩ | ⟨d, h1, h2⟩)
    · exact ⟨d, by omega, h2⟩
    · exact ⟨n + d, by omega, by rw [show j + (n + d) = n + j + d by omega]; exact h2⟩
  · rintro ⟨d, h1, h2⟩
    by_cases hd : d < n
    · exact Or.inl ⟨d, hd, h2⟩
    · exact Or.inr ⟨d - n, by omega, by rw [show n + j + (d - n) = j + d by omega]; exact h2⟩

theorem Smeared.one (i : Nat) : Smeared i 1 i := by
  intro j
  constructor
  · intro h; exact ⟨0, by omega, by simpa using h⟩
  · rintro ⟨d, h1, h2⟩
    have : d = 0 := by omega
    subst this; simpa using h2

theorem smear_all {i : Nat} (h0 : i ≠ 0) (hW : i < W64) :
    smear 32 (smear 16 (smear 8 (smear 4 (smear 2 (smear 1 i))))) = 2 ^ (Nat.log2 i + 1) - 1 := by
  have h := (Smeared.one i).step.step.step.step.step.step
  simp only [Nat.reduceMul] at h
  apply Nat.eq_of_testBit_eq
  intro j
  rw [Nat.testBit_two_pow_sub_one, Bool.eq_iff_iff, h j, decide_eq_true_iff]
  have hl : i.testBit (Nat.log2 i) = true := Nat.testBit_log2 h0
  have hlt : i < 2 ^ (Nat.log2 i + 1) := Nat.lt_log2_self
  have h64 : Nat.log2 i < 64 := (Nat.log2_lt h0).2 hW
  constructor
  · rintro ⟨d, h1, h2⟩
    by_contra hc
    rw [testBit_of_lt hlt (by omega)] at h2; cases h2
  · intro hj
    exact ⟨Nat.log2 i - j, by omega, by rw [show j + (Nat.log2 i - j) = Nat.log2 i by omega]; exact hl⟩

theorem sub64_one {i : Nat} (h : 1 ≤ i) (hW : i < W64) : sub64 i 1 = i - 1 := by
  unfold sub64
  rw [show i + W64 - 1 = (i - 1) + W64 by omega, Nat.add_mod_right, Nat.mod_eq_of_lt (by omega)]

/-- Closed form of both branches on their common domain. -/
theorem nextPow2_eq {i : Nat} (h2 : 2 ≤ i) (hW : i ≤ 2 ^ 63) :
    nextPow2Gnu? i = some (2 ^ (Nat.log2 (i - 1) + 1)) ∧ nextPow2Portable i = 2 ^ (Nat.log2 (i - 1) + 1) := by
  have hW' : i < W64 := lt_of_le_of_lt hW (by decide)
  have h0 : i - 1 ≠ 0 := by omega
  have hl : Nat.log2 (i - 1) < 63 := (Nat.log2_lt h0).2 (by omega)
  have hp : 2 ^ (Nat.log2 (i - 1) + 1) < W64 := Nat.pow_lt_pow_right (by decide) (by omega)
  constructor
  · unfold nextPow2Gnu?
    rw [if_neg (by omega), sub64_one (by omega) hW', builtinClz, shl64?]
    rw [show 64 - (63 - Nat.log2 (i - 1)) = Nat.log2 (i - 1) + 1 by omega, if_pos (by omega)]
    rw [Nat.one_shiftLeft, Nat.mod_eq_of_lt hp]
  · unfold nextPow2Portable
    rw [if_neg (by omega), sub64_one (by omega) hW', smear_all h0 (by omega), add64]
    have := Nat.two_pow_pos (Nat.log2 (i - 1) + 1)
    rw [show 2 ^ (Nat.log2 (i - 1) + 1) - 1 + 1 = 2 ^ (Nat.log2 (i - 1) + 1) by omega, Nat.mod_eq_of_lt hp]

/-! ### Portable counts -/

/-- parity of bits `j, j+1, …, j+n-1` -/
def parityRange (i j : Nat) : Nat → Bool
  | 0 => false
  | n + 1 => xor (i.testBit j) (parityRange i (j + 1) n)

theorem parityRange_add (i j a b : Nat) : parityRange i j (a + b) = xor (parityRange i j a) (parityRange i (j + a) b) := by
  induction a generalizing j with
  | zero => simp [parityRange]
  | succ a ih =>
    rw [show a + 1 + b = (a + b) + 1 by omega]
    simp only [parityRange]
    rw [ih, Bool.xor_assoc, show j + 1 + a = j + (a + 1) by omega]

theorem parityRange_xor (x y j n : Nat) :
    parityRange (x ^^^ y) j n = xor (parityRange x j n) (parityRange y j n) := by
  induction n generalizing j with
  | zero => rfl
  | succ n ih =>
    simp only [parityRange, ih, Nat.testBit_xor]
    cases x.testBit j <;> cases y.testBit j <;> simp

theorem parityRange_shift (x s j n : Nat) : parityRange (x >>> s) j n = parityRange x (s + j) n := by
  induction n generalizing j with
  | zero => rfl
  | succ n ih => simp only [parityRange, ih, Nat.testBit_shiftRight]; rfl

/-- One fold halves the range without changing its parity. -/
theorem parityRange_fold (x s : Nat) : parityRange (xorFold s x) 0 s = parityRange x 0 (s + s) := by
  rw [xorFold, parityRange_xor, parityRange_shift, parityRange_add]
  simp

theorem parityRange_eq_count (x j n : Nat) :
    parityRange x j n = (((List.range' j n).filter (x.testBit ·)).length % 2 == 1) := by
  induction n generalizing j with
  | zero => rfl
  | succ n ih =>
    rw [List.range'_succ, List.filter_cons]
    simp only [parityRange, ih]
    split
    · next h =>
      rw [h, List.length_cons, Bool.true_xor]
      rw [Bool.eq_iff_iff]; simp; omega
    · next h => simp [h]

theorem xorFoldAll_bit0 (x : Nat) : (xorFoldAll x).testBit 0 = parityRange x 0 64 := by
  have h1 : ∀ y, y.testBit 0 = parityRange y 0 1 := fun y => by simp [parityRange]
  rw [xorFoldAll, h1, parityRange_fold, parityRange_fold, parityRange_fold, parityRange_fold, parityRange_fold,
    parityRange_fold]

theorem parityPortable_eq (x : Nat) : parityPopcountPortable x = ((bitPositions x).length % 2 == 1) := by
  have h := xorFoldAll_bit0 x
  rw [parityRange_eq_count, ← List.range_eq_range'] at h
  have h2 := land_two_pow_ne_zero (xorFoldAll x) 0
  rw [pow_zero, h] at h2
  rw [parityPopcountPortable, bitPositions, Bool.eq_iff_iff, ← h2, bne_iff_ne]

/-- One step of the portable `count_trailing_zeros`. -/
theorem ctzStep_spec (n c q s : Nat) :
    ctzStep (2 ^ s - 1) s (n, 2 ^ c * (2 * q + 1))
      = if s ≤ c then (n + s, 2 ^ (c - s) * (2 * q + 1)) else (n, 2 ^ c * (2 * q + 1)) := by
  unfold ctzStep
  simp only [Nat.and_two_pow_sub_one_eq_mod]
  by_cases h : s ≤ c
  · obtain ⟨d, rfl⟩ := Nat.exists_eq_add_of_le h
    rw [if_pos h, pow_add, mul_assoc, if_pos (Nat.mul_mod_right _ _), Nat.shiftRight_eq_div_pow,
      Nat.mul_div_cancel_left _ (Nat.two_pow_pos s), Nat.add_sub_cancel_left]
  · rw [if_neg h, if_neg]
    intro h0
    have hd : 2 ^ s ∣ 2 ^ c * (2 * q + 1) := Nat.dvd_of_mod_eq_zero h0
    obtain ⟨d, hd'⟩ : ∃ d, s = c + 1 + d := ⟨s - c - 1, by omega⟩
    rw [hd', pow_add, pow_add, mul_assoc] at hd
    obtain ⟨k, hk⟩ := (Nat.mul_dvd_mul_iff_left (Nat.two_pow_pos c)).1 hd
    rw [pow_one, mul_assoc] at hk
    omega

theorem ctzPortable_eq {c q : Nat} (hc : c < 64) : ctzPortable (2 ^ c * (2 * q + 1)) = c := by
  unfold ctzPortable
  have key : ∀ s n c, ∃ n' c', ctzStep (2 ^ s - 1) s (n, 2 ^ c * (2 * q + 1)) = (n', 2 ^ c' * (2 * q + 1)) ∧
      n' + c' = n + c ∧ (c < 2 * s → c' < s) ∧ n ≤ n' := by
    intro s n c
    rw [ctzStep_spec]
    split
    · exact ⟨_, _, rfl, by omega, by omega, by omega⟩
    · exact ⟨_, _, rfl, by omega, by omega, by omega⟩
  obtain ⟨n1, c1, e1, f1, g1, l1⟩ := key 32 1 c
  obtain ⟨n2, c2, e2, f2, g2, l2⟩ := key 16 n1 c1
  obtain ⟨n3, c3, e3, f3, g3, l3⟩ := key 8 n2 c2
  obtain ⟨n4, c4, e4, f4, g4, l4⟩ := key 4 n3 c3
  obtain ⟨n5, c5, e5, f5, g5, l5⟩ := key 2 n4 c4
  norm_num at e1 e2 e3 e4 e5
  rw [e1, e2, e3, e4, e5]
  have h5 : c5 < 2 := g5 (g4 (g3 (g2 (g1 (by omega)))))
  have : (2 ^ c5 * (2 * q + 1)) &&& 1 = if c5 = 0 then 1 else 0 := by
    rw [Nat.and_one_is_mod]
    rcases (by omega : c5 = 0 ∨ c5 = 1) with rfl | rfl
    · simp
    · simp
  simp only [this]
  split <;> omega

end LC
