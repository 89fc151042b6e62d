import Mathlib.Algebra.BigOperators.Ring.Nat
import Verif.Proof.Bits
import Verif.Proof.BitOps
import Verif.Model.MonomialAction
/-
Count masks and the parity of the Jordan–Wigner string.
-/
set_option linter.unusedSectionVars false
set_option linter.unusedSimpArgs false
namespace LC

/-- The number of set bits in positions `r0, …, k-1`. -/
def cnt (r0 s k : Nat) : Nat := ((Finset.range k).filter fun b => r0 ≤ b ∧ s.testBit b = true).card

theorem countMaskLoop_bits (D : List Nat) (hD : D.Nodup) (c i : Nat) (on : Bool) (mask : Nat) (hi : i + c ≤ 64)
    (hon : on = (D.countP (fun d => decide (i ≤ d)) % 2 == 1)) (b : Nat) :
    (countMaskLoop (D.map fun x : Nat => (x : Int)) c i on mask).testBit b
      = (mask.testBit b || (decide (i ≤ b ∧ b < i + c ∧ b ∉ D) && (D.countP (fun d => decide (b < d)) % 2 == 1))) := by
  induction c generalizing i on mask with
  | zero =>
    rw [countMaskLoop]
    have : ¬ (i ≤ b ∧ b < i + 0 ∧ b ∉ D) := by omega
    rw [decide_eq_false this]; simp
  | succ c ih =>
    have hmem : ((i : Int) ∈ D.map fun x : Nat => (x : Int)) ↔ i ∈ D := by simp
    have e1 : ((i : Int) + 1) = ((i + 1 : Nat) : Int) := by push_cast; rfl
    rw [countMaskLoop]
    by_cases h : i ∈ D
    · rw [if_pos (hmem.2 h), e1, ih (i + 1) (!on) mask (by omega)]
      · congr 1
        by_cases hb : i ≤ b ∧ b < i + (c + 1) ∧ b ∉ D
        · have : i ≠ b := fun e => hb.2.2 (e ▸ h)
          have h2 : i + 1 ≤ b ∧ b < i + 1 + c ∧ b ∉ D := ⟨by omega, by omega, hb.2.2⟩
          simp [hb, h2]
        · have h2 : ¬ (i + 1 ≤ b ∧ b < i + 1 + c ∧ b ∉ D) := fun hh => hb ⟨by omega, by omega, hh.2.2⟩
          rw [decide_eq_false hb, decide_eq_false h2]
      · have : D.countP (fun d => decide (i ≤ d)) = D.countP (fun d => decide (i + 1 ≤ d)) + 1 := by
          clear hon ih hmem
          induction D with
          | nil => simp at h
          | cons x D ihD =>
            rw [List.nodup_cons] at hD
            rcases List.mem_cons.1 h with rfl | h
            · have e : ∀ d ∈ D, (decide (i ≤ d) = true ↔ decide (i + 1 ≤ d) = true) := by
                intro d hd
                have : i ≠ d := fun e => hD.1 (e ▸ hd)
                simp; omega
              rw [List.countP_cons, List.countP_cons, List.countP_congr e]
              simp
            · rw [List.countP_cons, List.countP_cons, ihD hD.2 h]
              have : x ≠ i := fun e => hD.1 (e ▸ h)
              by_cases hx : i ≤ x
              · have hx2 : i + 1 ≤ x := by omega
                simp [hx, hx2]
              · have hx2 : ¬ i + 1 ≤ x := by omega
                simp [hx, hx2]
        rw [hon, this]
        generalize D.countP (fun d => decide (i + 1 ≤ d)) = N
        rw [Bool.eq_iff_iff]
        simp only [Bool.not_eq_true', beq_eq_false_iff_ne, beq_iff_eq]
        omega
    · rw [if_neg (fun hh => h (hmem.1 hh)), e1]
      have hcP : ∀ d ∈ D, (decide (i ≤ d) = true ↔ decide (i + 1 ≤ d) = true) := by
        intro d hd
        have : i ≠ d := fun e => h (e ▸ hd)
        simp; omega
      rw [ih (i + 1) on _ (by omega)]
      · by_cases hb : b = i
        · subst hb
          have h2 : ¬ (b + 1 ≤ b ∧ b < b + 1 + c ∧ b ∉ D) := by omega
          have h3 : b ≤ b ∧ b < b + (c + 1) ∧ b ∉ D := ⟨le_rfl, by omega, h⟩
          rw [decide_eq_false h2, decide_eq_true h3, Int.toNat_natCast, pow2_eq (by omega)]
          have : D.countP (fun d => decide (b < d)) = D.countP (fun d => decide (b ≤ d)) := by
            apply List.countP_congr
            intro d hd
            have := hcP d hd
            simp at this ⊢; omega
          rw [this, ← hon]
          cases on <;> simp
        · have hm : ((if on = true then mask ||| pow2 (Int.toNat (i : Int)) else mask).testBit b) = mask.testBit b := by
            rw [Int.toNat_natCast, pow2_eq (by omega)]
            split
            · rw [Nat.testBit_or, Nat.testBit_two_pow_of_ne (fun e => hb e.symm)]; simp
            · rfl
          rw [hm]
          have : (i + 1 ≤ b ∧ b < i + 1 + c ∧ b ∉ D) ↔ (i ≤ b ∧ b < i + (c + 1) ∧ b ∉ D) := by
            constructor
            · rintro ⟨x, y, z⟩; exact ⟨by omega, by omega, z⟩
            · rintro ⟨x, y, z⟩; exact ⟨by omega, by omega, z⟩
          simp only [this]
      · rw [hon, List.countP_congr hcP]

/-- The bits of a count mask: positions in the range, not in the set, with an odd number of elements of the set above. -/
theorem countMask_bits (D : List Nat) (hD : D.Nodup) (r0 r1 : Nat) (h1 : r1 ≤ 64) (hr : ∀ d ∈ D, r0 ≤ d) (h01 : r0 ≤ r1) (b : Nat) :
    (computeCountMask (D.map fun x : Nat => (x : Int)) ⟨(r0 : Int), (r1 : Int) - 1⟩).testBit b
      = (decide (r0 ≤ b ∧ b < r1 ∧ b ∉ D) && (D.countP (fun d => decide (b < d)) % 2 == 1)) := by
  unfold computeCountMask
  have e : ((r1 : Int) - 1 - r0 + 1).toNat = r1 - r0 := by omega
  simp only [e, List.length_map]
  rw [countMaskLoop_bits D hD (r1 - r0) r0 _ 0 (by omega)]
  · rw [Nat.zero_testBit, Bool.false_or, Nat.add_sub_cancel' h01]
  · have : D.countP (fun d => decide (r0 ≤ d)) = D.length := by
      rw [List.countP_eq_length]; intro d hd; simpa using hr d hd
    rw [this]

theorem bitPositions_card (x : Nat) : (bitPositions x).length = ((Finset.range 64).filter fun b => x.testBit b = true).card := by
  rw [bitPositions, ← List.toFinset_card_of_nodup (List.Nodup.filter _ List.nodup_range)]
  congr 1
  ext b
  simp

/-- Double counting. -/
theorem sum_cnt (D : List Nat) (r0 t : Nat) (hD : ∀ d ∈ D, d ≤ 64) :
    (D.map fun d : Nat => cnt r0 t d).sum
      = ∑ b ∈ Finset.range 64, if r0 ≤ b ∧ t.testBit b = true then D.countP (fun d => decide (b < d)) else 0 := by
  induction D with
  | nil => simp
  | cons d D ih =>
    rw [List.map_cons, List.sum_cons, ih (fun x hx => hD x (by simp [hx]))]
    have hd := hD d (by simp)
    have : cnt r0 t d = ∑ b ∈ Finset.range 64, if r0 ≤ b ∧ t.testBit b = true then (if b < d then 1 else 0) else 0 := by
      unfold cnt
      rw [Finset.card_filter]
      have hsub : Finset.range d ⊆ Finset.range 64 := Finset.range_subset_range.2 hd
      rw [← Finset.sum_subset (s₁ := Finset.range d) (s₂ := Finset.range 64) (f := fun b => if r0 ≤ b ∧ t.testBit b = true then (if b < d then 1 else 0) else 0) hsub]
      · apply Finset.sum_congr rfl
        intro b hb
        rw [Finset.mem_range] at hb
        simp [hb]
      · intro b _ hb
        rw [Finset.mem_range] at hb
        simp [hb]
    rw [this, ← Finset.sum_add_distrib]
    apply Finset.sum_congr rfl
    intro b _
    rw [List.countP_cons]
    split <;> simp [Nat.add_comm]

/-- The parity of the Jordan–Wigner strings of the set `D` is the parity of the number of bits selected by its count
mask. -/
theorem parity_cnt (D : List Nat) (hD : D.Nodup) (r0 r1 t : Nat) (h1 : r1 ≤ 64) (h01 : r0 ≤ r1) (hr : ∀ d ∈ D, r0 ≤ d ∧ d < r1)
    (ht : ∀ d ∈ D, t.testBit d = false) :
    Odd ((D.map fun d : Nat => cnt r0 t d).sum)
      ↔ Odd (bitPositions (t &&& computeCountMask (D.map fun x : Nat => (x : Int)) ⟨(r0 : Int), (r1 : Int) - 1⟩)).length := by
  rw [sum_cnt D r0 t (fun d hd => by have := hr d hd; omega), Finset.odd_sum_iff_odd_card_odd, bitPositions_card]
  have : ((Finset.range 64).filter fun b => Odd (if r0 ≤ b ∧ t.testBit b = true then D.countP (fun d => decide (b < d)) else 0))
      = (Finset.range 64).filter fun b =>
        (t &&& computeCountMask (D.map fun x : Nat => (x : Int)) ⟨(r0 : Int), (r1 : Int) - 1⟩).testBit b = true := by
    apply Finset.filter_congr
    intro b _
    rw [Nat.testBit_and, countMask_bits D hD r0 r1 h1 (fun d hd => (hr d hd).1) h01]
    constructor
    · intro h
      split at h
      · next h2 =>
        have hnD : b ∉ D := fun hm => by rw [ht b hm] at h2; simp at h2
        have hlt : b < r1 := by
          by_contra hc
          have : D.countP (fun d => decide (b < d)) = 0 := by
            rw [List.countP_eq_zero]; intro d hd; have := hr d hd; simp; omega
          rw [this] at h; simp at h
        rw [Nat.odd_iff] at h
        simp [h2, hnD, hlt, h]
      · simp at h
    · intro h
      simp only [Bool.and_eq_true, decide_eq_true_eq, beq_iff_eq] at h
      rw [if_pos ⟨h.2.1.1, h.1⟩, Nat.odd_iff]
      exact h.2.2
  rw [this]

theorem parityPopcount_xor (x y : Nat) :
    parityPopcount (x ^^^ y) = xor (parityPopcount x) (parityPopcount y) := by
  have h : ∀ z, parityPopcount z = parityRange z 0 64 := by
    intro z
    rw [parityRange_eq_count, ← List.range_eq_range']
    rfl
  rw [h, h, h, parityRange_xor]

theorem parityPopcount_odd (x : Nat) : parityPopcount x = true ↔ Odd (bitPositions x).length := by
  rw [Nat.odd_iff, show parityPopcount x = ((bitPositions x).length % 2 == 1) from rfl]
  simp

/-- The word with the given bits set. -/
def maskOf : List Nat → Nat
  | [] => 0
  | x :: l => 2 ^ x ||| maskOf l

theorem maskOf_testBit (l : List Nat) (b : Nat) : (maskOf l).testBit b = decide (b ∈ l) := by
  induction l with
  | nil => simp [maskOf]
  | cons x l ih =>
    rw [maskOf, Nat.testBit_or, ih, Nat.testBit_two_pow]
    simp [eq_comm]

theorem testBit_not64 {x b : Nat} (h : b < 64) : (not64 x).testBit b = !x.testBit b := by
  unfold not64
  rw [Nat.testBit_xor, Nat.testBit_two_pow_sub_one]
  simp [h]

theorem testBit_not64_high {x b : Nat} (hx : x < W64) (h : ¬ b < 64) : (not64 x).testBit b = false := by
  unfold not64
  rw [Nat.testBit_xor, Nat.testBit_two_pow_sub_one, testBit_of_lt hx (by omega)]
  simp [h]

end LC
