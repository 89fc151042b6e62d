import Mathlib.Data.Nat.Choose.Bounds
import Verif.Proof.Binomial
/-
Combination ranking, staggered ranking and unranking.
-/
set_option linter.unusedSimpArgs false
namespace LC

/-! ### The table of `combination_ranking` -/

theorem combRow_spec (m nc : Nat) (n : Nat) (hn : n ≤ nc) (t : List Nat) (ht : m * nc + nc ≤ t.length) :
    ((List.range' 1 n).foldl (fun t n => t.set (m * nc + n - 1) (binomial m n)) t).length = t.length ∧
    (∀ j < n, ((List.range' 1 n).foldl (fun t n => t.set (m * nc + n - 1) (binomial m n)) t)[m * nc + j]?
      = some (binomial m (j + 1))) ∧
    (∀ q, q < m * nc → ((List.range' 1 n).foldl (fun t n => t.set (m * nc + n - 1) (binomial m n)) t)[q]? = t[q]?) := by
  induction n with
  | zero => simp
  | succ n ih =>
    obtain ⟨h1, h2, h3⟩ := ih (by omega)
    have hr : List.range' 1 (n + 1) = List.range' 1 n ++ [n + 1] := by
      rw [List.range'_concat]; simp; omega
    rw [hr, List.foldl_append]
    simp only [List.foldl_cons, List.foldl_nil]
    have e : m * nc + (n + 1) - 1 = m * nc + n := by omega
    rw [e]
    refine ⟨by rw [List.length_set, h1], ?_, ?_⟩
    · intro j hj
      rw [List.getElem?_set]
      by_cases hjn : j = n
      · subst hjn; rw [if_pos rfl, if_pos (by rw [h1]; omega)]
      · rw [if_neg (by omega)]; exact h2 j (by omega)
    · intro q hq
      rw [List.getElem?_set, if_neg (by omega)]; exact h3 q hq

theorem combTable_spec (M nc : Nat) (K : Nat) (hK : K ≤ M) :
    let t := (List.range K).foldl (fun t m =>
      (List.range' 1 nc).foldl (fun t n => t.set (m * nc + n - 1) (binomial m n)) t) (List.replicate (M * nc) 0)
    t.length = M * nc ∧ ∀ m < K, ∀ j < nc, t[m * nc + j]? = some (binomial m (j + 1)) := by
  induction K with
  | zero => simp
  | succ K ih =>
    obtain ⟨h1, h2⟩ := ih (by omega)
    rw [List.range_succ, List.foldl_append]
    simp only [List.foldl_cons, List.foldl_nil]
    have hle : K * nc + nc ≤ M * nc := by
      calc K * nc + nc = (K + 1) * nc := by ring
        _ ≤ M * nc := Nat.mul_le_mul_right _ hK
    obtain ⟨g1, g2, g3⟩ := combRow_spec K nc nc le_rfl _ (by rw [h1]; exact hle)
    refine ⟨by rw [g1, h1], ?_⟩
    intro m hm j hj
    by_cases hmK : m = K
    · subst hmK; exact g2 j hj
    · rw [g3]
      · exact h2 m (by omega) j hj
      · calc m * nc + j < m * nc + nc := by omega
          _ = (m + 1) * nc := by ring
          _ ≤ K * nc := Nat.mul_le_mul_right _ (by omega)

/-- The loop accumulates the combinatorial rank. -/
theorem combRankLoop_eq (M nc : Nat) (hM : M ≤ 63) (tbl : List Nat)
    (htbl : ∀ m < M, ∀ j < nc, tbl[m * nc + j]? = some (binomial m (j + 1)))
    (x i k : Nat) (hx : x < 2 ^ M) (hk : k + bitCount x ≤ nc)
    (hb : i + colex k (bitPositions x) < W64) :
    combRankLoop nc tbl x i k = some (i + colex k (bitPositions x)) := by
  have hxW : x < W64 := hx.trans_le (Nat.pow_le_pow_right (by decide) (by omega))
  induction x using Nat.strongRecOn generalizing i k with
  | _ x ih =>
    rw [combRankLoop]
    split
    · next h => subst h; simp [bitPositions_zero, colex]
    · next h =>
      obtain ⟨h1, h2, h3, h4, h5⟩ := bitPositions_peel h hxW
      have hcM : ctz x < M := by
        by_contra hc
        rw [testBit_of_lt hx (by omega)] at h3; cases h3
      rw [bitCount, h1, List.length_cons] at hk
      rw [h1] at hb ⊢
      simp only [colex] at hb ⊢
      rw [htbl _ hcM k (by omega)]
      simp only
      rw [binomial_eq_choose _ _ (by omega), add64, Nat.mod_eq_of_lt (by omega)]
      rw [ih _ (land_pred_lt h) _ _ ((land_pred_lt h).trans hx) (by rw [bitCount]; omega) (by omega) h5]
      congr 1; omega

theorem choose_lt_W64 {M N : Nat} (hM : M ≤ 63) : Nat.choose M N < W64 := by
  have h1 : Nat.choose M N ≤ 2 ^ M := Nat.choose_le_two_pow M N
  exact h1.trans_lt (Nat.pow_lt_pow_right (by decide) (by omega))

theorem ones_eq {n : Nat} (h : n < 64) : sub64 (pow2 n) 1 = 2 ^ n - 1 := by
  rw [pow2_eq h, sub64_one Nat.one_le_two_pow (Nat.pow_lt_pow_right (by decide) h)]

/-- Validity of sector parameters as guaranteed by the constructors of `n_fermion_sector_params_t`
(`validated_n`, at most 63 bits in a Hilbert space). -/
structure SectorParams.Valid (p : SectorParams) : Prop where
  M_le : p.M ≤ 63
  N_le : p.N ≤ p.M

theorem countedModes_le (p : SectorParams) (h : p.Valid) : countedModes p ≤ p.M := by
  unfold countedModes; have := h.2; split <;> omega

/-- What the XOR mask does to a state of the sector. -/
theorem xorMask_eq (p : SectorParams) (h : p.Valid) (s : Nat) (hs : s < 2 ^ p.M) :
    s ^^^ xorMask p = if p.N ≤ p.M / 2 then s else 2 ^ p.M - 1 - s := by
  have h1 := h.1
  have h2 := h.2
  unfold xorMask countedModes
  by_cases hN : p.N ≤ p.M / 2
  · simp [hN]
  · rw [if_neg hN, if_neg hN, if_neg (by omega), ones_eq (by omega), xor_ones hs]

theorem masked_lt (p : SectorParams) (h : p.Valid) (s : Nat) (hs : s < 2 ^ p.M) : s ^^^ xorMask p < 2 ^ p.M := by
  rw [xorMask_eq p h s hs]; split <;> omega

theorem masked_count (p : SectorParams) (h : p.Valid) (s : Nat) (hs : s < 2 ^ p.M) (hN : bitCount s = p.N) :
    bitCount (s ^^^ xorMask p) = countedModes p := by
  rw [xorMask_eq p h s hs]
  have := h.1
  unfold countedModes
  split
  · exact hN
  · rw [bitCount_compl hs (by omega), hN]

theorem masked_invol (p : SectorParams) (s : Nat) : s ^^^ xorMask p ^^^ xorMask p = s := by
  rw [Nat.xor_assoc, Nat.xor_self, Nat.xor_zero]

theorem unmasked_count (p : SectorParams) (h : p.Valid) (s : Nat) (hs : s < 2 ^ p.M) (hN : bitCount s = countedModes p) :
    bitCount (s ^^^ xorMask p) = p.N := by
  rw [xorMask_eq p h s hs]
  have := h.1
  have := h.2
  unfold countedModes at hN
  split
  · next h' => rw [if_pos h'] at hN; exact hN
  · next h' => rw [if_neg h'] at hN; rw [bitCount_compl hs (by omega), hN]; omega

/-- `combination_ranking` returns the combinatorial rank of the masked state. -/
theorem combRank_eq (p : SectorParams) (h : p.Valid) (s : Nat) (hs : s < 2 ^ p.M) (hN : bitCount s = p.N) :
    (CombRanking.make p).rank s = some (cnsRank (s ^^^ xorMask p)) := by
  have hM := h.1
  have hlt := masked_lt p h s hs
  have hc := masked_count p h s hs hN
  have hb : cnsRank (s ^^^ xorMask p) < W64 := (cnsRank_lt hlt (by omega)).trans (choose_lt_W64 hM)
  unfold CombRanking.rank CombRanking.make
  simp only
  rw [combRankLoop_eq p.M (countedModes p) hM _ (combTable_spec p.M (countedModes p) p.M le_rfl).2 _ _ _ hlt (by omega)
    (by simpa [cnsRank] using hb)]
  simp [cnsRank]

/-! ### Next state -/

theorem exists_run_decomp {s : Nat} (h : s ≠ 0) :
    ∃ c r g, 1 ≤ r ∧ s = 2 ^ c * (2 ^ r - 1) + 2 ^ (c + r + 1) * g := by
  obtain ⟨c, q, rfl⟩ := exists_odd_decomp h
  obtain ⟨r, g, hr⟩ := exists_odd_decomp (by omega : q + 1 ≠ 0)
  refine ⟨c, r + 1, g, by omega, ?_⟩
  have hp := Nat.two_pow_pos r
  have h1 : 2 * q + 1 = (2 ^ (r + 1) - 1) + 2 ^ (r + 2) * g := by
    have : 2 * (q + 1) = 2 ^ (r + 1) + 2 ^ (r + 2) * g := by rw [hr]; ring
    have h2 : 1 ≤ 2 ^ (r + 1) := Nat.one_le_two_pow
    omega
  rw [h1, mul_add, ← mul_assoc, ← pow_add, show c + (r + 2) = c + (r + 1) + 1 by omega]

theorem bitPositions_ones {r : Nat} (h : r ≤ 64) : bitPositions (2 ^ r - 1) = List.range r := by
  apply eq_of_sorted (bitPositions_sorted _) List.pairwise_lt_range
  intro j
  rw [mem_bitPositions, Nat.testBit_two_pow_sub_one, List.mem_range]
  simp; omega

theorem colex_range_zero (r : Nat) : colex 0 (List.range r) = 0 := by
  induction r with
  | zero => rfl
  | succ r ih => rw [List.range_succ, colex_append, ih]; simp [colex]

theorem colex_range' (c r : Nat) : colex 0 ((List.range r).map (· + c)) + 1 = Nat.choose (c + r) r := by
  induction r with
  | zero => simp [colex]
  | succ r ih =>
    rw [List.range_succ, List.map_append, colex_append]
    simp only [List.map_cons, List.map_nil, colex, List.length_map, List.length_range, Nat.zero_add, Nat.add_zero]
    rw [show c + (r + 1) = (c + r) + 1 by omega, Nat.choose_succ_succ', ← ih, Nat.add_comm r c]
    omega

theorem testBit_run (c r g j : Nat) : (2 ^ c * (2 ^ r - 1) + 2 ^ (c + r + 1) * g).testBit j
    = if j < c + r + 1 then decide (c ≤ j ∧ j < c + r) else g.testBit (j - (c + r + 1)) := by
  have hlt : 2 ^ c * (2 ^ r - 1) < 2 ^ (c + r + 1) := by
    have : 2 ^ c * (2 ^ r - 1) < 2 ^ c * 2 ^ r := Nat.mul_lt_mul_of_pos_left (by have := Nat.two_pow_pos r; omega) (Nat.two_pow_pos c)
    rw [← pow_add] at this
    exact this.trans (Nat.pow_lt_pow_right (by decide) (by omega))
  rw [Nat.add_comm, Nat.testBit_two_pow_mul_add _ hlt]
  split
  · rw [Nat.testBit_two_pow_mul, Nat.testBit_two_pow_sub_one]
    rw [Bool.eq_iff_iff]; simp; omega
  · rfl

theorem nextState_eq (c r g : Nat) (hr : 1 ≤ r) (hlt : 2 ^ c * (2 ^ r - 1) + 2 ^ (c + r + 1) * g < 2 ^ 63) :
    nextState (2 ^ c * (2 ^ r - 1) + 2 ^ (c + r + 1) * g) = (2 ^ (r - 1) - 1) + 2 ^ (c + r) * (2 * g + 1) ∧
    (2 ^ (r - 1) - 1) + 2 ^ (c + r) * (2 * g + 1) < W64 := by
  set s := 2 ^ c * (2 ^ r - 1) + 2 ^ (c + r + 1) * g with hs
  obtain ⟨r, rfl⟩ : ∃ r', r = r' + 1 := ⟨r - 1, by omega⟩
  simp only [Nat.add_sub_cancel]
  have hpc := Nat.two_pow_pos c
  have hpr := Nat.two_pow_pos r
  have e2 : (2 : Nat) ^ (r + 1) = 2 * 2 ^ r := by rw [pow_succ]; ring
  have e3 : (2 : Nat) ^ (c + (r + 1)) = 2 * (2 ^ c * 2 ^ r) := by rw [pow_add, e2]; ring
  have e4 : (2 : Nat) ^ (c + (r + 1) + 1) = 4 * (2 ^ c * 2 ^ r) := by rw [pow_succ, e3]; ring
  have hcr : 2 ^ r ≤ 2 ^ c * 2 ^ r := Nat.le_mul_of_pos_left _ hpc
  have hcc : 2 ^ c ≤ 2 ^ c * 2 ^ r := Nat.le_mul_of_pos_right _ hpr
  have hsodd : s = 2 ^ c * (2 * ((2 ^ r - 1) + 2 ^ (r + 1) * g) + 1) := by
    rw [hs, e4, e2]
    have : 2 * 2 ^ r - 1 = 2 * (2 ^ r - 1) + 1 := by omega
    rw [this]; ring
  have hctz : ctz s = c := by rw [hsodd]; exact ctz_decomp (by rw [← hsodd]; exact hlt.trans (by decide))
  have hs0 : 1 ≤ s := by rw [hsodd]; exact Nat.mul_pos hpc (by omega)
  have hmul : 2 ^ c * (2 ^ (r + 1) - 1) = 2 * (2 ^ c * 2 ^ r) - 2 ^ c := by
    rw [e2, Nat.mul_sub, mul_one]; ring_nf
  set b := 2 ^ (c + (r + 1)) * (2 * g + 1) with hbdef
  have hb2 : b = 2 * (2 ^ c * 2 ^ r) + 2 ^ (c + (r + 1) + 1) * g := by rw [hbdef, e4, e3]; ring
  have hbs : b = s + 2 ^ c := by rw [hb2, hs, hmul]; omega
  -- bounds
  have hcs : 2 ^ c ≤ s := by
    rw [hsodd]; exact Nat.le_mul_of_pos_right _ (by omega)
  have hbW : b + 2 ^ r ≤ W64 := by
    have h63 : (2:Nat)^63 * 2 = W64 := by decide
    rcases Nat.eq_zero_or_pos g with rfl | hg
    · rw [mul_zero, add_zero] at hb2 hs
      have hlt' : 2 ^ c * 2 ^ r < 2 ^ 63 := by
        rw [hs, hmul] at hlt; omega
      have : 2 ^ (c + r) < 2 ^ 63 := by rw [pow_add]; exact hlt'
      have h1 : c + r < 63 := (Nat.pow_lt_pow_iff_right (by decide)).1 this
      have h2 : 2 ^ (c + r) ≤ 2 ^ 62 := Nat.pow_le_pow_right (by decide) (by omega)
      rw [pow_add] at h2
      have h3 : (2:Nat)^62 * 4 = W64 := by decide
      omega
    · have h4 : 4 * (2 ^ c * 2 ^ r) ≤ 2 ^ (c + (r + 1) + 1) * g := by rw [e4]; exact Nat.le_mul_of_pos_right _ hg
      have h5 : 2 ^ (c + (r + 1) + 1) * g ≤ s := by rw [hs]; omega
      omega
  -- s ||| (s - 1) + 1 = b
  have hor : s ||| sub64 s 1 = b - 1 := by
    rw [sub64_one hs0 (hlt.trans (by decide))]
    have h1 : s - 1 = 2 ^ c * (2 * ((2 ^ r - 1) + 2 ^ (r + 1) * g)) + (2 ^ c - 1) := by
      rw [hsodd, decomp_pred]
    have h2 : b - 1 = s + (2 ^ c - 1) := by omega
    have h3 : s + (2 ^ c - 1) = s ||| (2 ^ c - 1) := by
      conv_lhs => rw [hsodd]
      conv_rhs => rw [hsodd]
      exact Nat.two_pow_add_eq_or_of_lt (by omega) _
    rw [h2, h3]
    apply Nat.eq_of_testBit_eq
    intro j
    rw [Nat.testBit_or, Nat.testBit_or, hsodd, testBit_decomp_pred, testBit_decomp, Nat.testBit_two_pow_sub_one]
    by_cases hj : j < c
    · have : ¬ c ≤ j := by omega
      simp [hj, this]
    · by_cases hj2 : j = c
      · simp [hj2]
      · have : c ≤ j := by omega
        simp [hj, hj2, this]
  have hb1 : add64 (s ||| sub64 s 1) 1 = b := by
    rw [hor, add64, Nat.mod_eq_of_lt (by omega)]; omega
  have hl : s &&& not64 b = 2 ^ c * (2 ^ (r + 1) - 1) := by
    apply Nat.eq_of_testBit_eq
    intro j
    have hb' : b.testBit j = if j < c + (r + 1) + 1 then decide (j = c + (r + 1)) else g.testBit (j - (c + (r + 1) + 1)) := by
      rw [hbdef, testBit_decomp]
      split
      · rw [Bool.eq_iff_iff]; simp; omega
      · have h1 : c + (r + 1) ≤ j := by omega
        have h2 : j ≠ c + (r + 1) := by omega
        rw [show j - (c + (r + 1)) - 1 = j - (c + (r + 1) + 1) by omega]
        simp [h1, h2]
    have hg : ∀ k, (c + (r + 1) + 1) + k ≥ 64 → g.testBit k = false := by
      intro k hk
      have := testBit_of_lt (hlt.trans (by decide : (2:Nat)^63 < 2^64)) (j := c + (r + 1) + 1 + k) (by omega)
      rw [hs, testBit_run, if_neg (by omega)] at this
      rwa [Nat.add_sub_cancel_left] at this
    rw [Nat.testBit_and, not64, Nat.testBit_xor, hb', hs, testBit_run, Nat.testBit_two_pow_sub_one, Nat.testBit_two_pow_mul,
      Nat.testBit_two_pow_sub_one]
    by_cases hj : j < c + (r + 1) + 1
    · simp only [hj, if_true]
      have h64 : c ≤ j ∧ j < c + (r + 1) → j < 64 := by
        intro ⟨_, h2⟩
        have : 2 ^ (c + r) < 2 ^ 63 := by
          have : 2 ^ c * 2 ^ r < 2 ^ 63 := by
            have := hlt; rw [hs, hmul] at this; omega
          rwa [pow_add]
        have := (Nat.pow_lt_pow_iff_right (by decide : 1 < 2)).1 this
        omega
      rw [Bool.eq_iff_iff]; simp; omega
    · simp only [hj, if_false]
      have hj2 : ¬ (j - c < r + 1) := by omega
      by_cases h64 : j < 64
      · simp [h64, hj2]
      · rw [hg (j - (c + (r + 1) + 1)) (by omega)]; simp [h64, hj2]
  constructor
  · unfold nextState
    simp only [hb1, hl, hctz]
    have hsh : (2 ^ c * (2 ^ (r + 1) - 1)) >>> (c + 1) = 2 ^ r - 1 := by
      rw [Nat.shiftRight_eq_div_pow, pow_succ 2 c, ← Nat.div_div_eq_div_mul, Nat.mul_div_cancel_left _ hpc]; omega
    rw [hsh, hbdef, ← Nat.two_pow_add_eq_or_of_lt (by omega), Nat.add_comm]
  · omega

/-- The successor keeps the number of set bits and increases the rank by one. -/
theorem nextState_spec {s : Nat} (h0 : s ≠ 0) (hlt : s < 2 ^ 63) :
    bitCount (nextState s) = bitCount s ∧ cnsRank (nextState s) = cnsRank s + 1 ∧ nextState s < W64 := by
  obtain ⟨c, r, g, hr, rfl⟩ := exists_run_decomp h0
  obtain ⟨h1, h2⟩ := nextState_eq c r g hr hlt
  rw [h1]
  have hpc := Nat.two_pow_pos c
  have hpr := Nat.two_pow_pos (r - 1)
  have er : (2 : Nat) ^ r = 2 * 2 ^ (r - 1) := by
    obtain ⟨k, rfl⟩ : ∃ k, r = k + 1 := ⟨r - 1, by omega⟩
    simp [pow_succ]; ring
  have hr64 : c + r ≤ 63 := by
    have : 2 ^ c * (2 ^ r - 1) < 2 ^ 63 := by omega
    have h3 : 2 ^ (c + (r - 1)) < 2 ^ 63 := by
      rw [pow_add]; refine lt_of_le_of_lt (Nat.mul_le_mul_left _ ?_) this; omega
    have := (Nat.pow_lt_pow_iff_right (by decide : 1 < 2)).1 h3
    omega
  have hlow : 2 ^ c * (2 ^ r - 1) < 2 ^ (c + r + 1) := by
    have : 2 ^ c * (2 ^ r - 1) < 2 ^ c * 2 ^ r := Nat.mul_lt_mul_of_pos_left (by omega) hpc
    rw [← pow_add] at this
    exact this.trans (Nat.pow_lt_pow_right (by decide) (by omega))
  have p1 : bitPositions (2 ^ c * (2 ^ r - 1) + 2 ^ (c + r + 1) * g)
      = (List.range r).map (· + c) ++ (bitPositions g).map (· + (c + r + 1)) := by
    rw [bitPositions_add hlow (hlt.trans (by decide))]
    congr 1
    have := bitPositions_add (s := 0) (M := c) (r := 2 ^ r - 1) hpc (by
      rw [Nat.zero_add]; exact hlow.trans_le (Nat.pow_le_pow_right (by decide) (by omega)))
    rw [Nat.zero_add] at this
    rw [this, bitPositions_zero, bitPositions_ones (by omega)]; rfl
  have hlow2 : 2 ^ (r - 1) - 1 + 2 ^ (c + r) < 2 ^ (c + r + 1) := by
    have h5 : 2 ^ (r - 1) ≤ 2 ^ (c + r) := Nat.pow_le_pow_right (by decide) (by omega)
    rw [pow_succ]; omega
  have e5 : (2 ^ (r - 1) - 1) + 2 ^ (c + r) * (2 * g + 1) = (2 ^ (r - 1) - 1 + 2 ^ (c + r)) + 2 ^ (c + r + 1) * g := by
    rw [pow_succ]; ring
  have p2 : bitPositions ((2 ^ (r - 1) - 1) + 2 ^ (c + r) * (2 * g + 1))
      = List.range (r - 1) ++ [c + r] ++ (bitPositions g).map (· + (c + r + 1)) := by
    rw [e5] at h2 ⊢
    rw [bitPositions_add hlow2 h2, bitPositions_top _ (by omega), bitPositions_ones (by omega)]
    have h5 : 2 ^ (r - 1) ≤ 2 ^ (c + r) := Nat.pow_le_pow_right (by decide) (by omega)
    omega
  refine ⟨?_, ?_, h2⟩
  · simp only [bitCount, p1, p2, List.length_append, List.length_map, List.length_range, List.length_singleton]
    omega
  · simp only [cnsRank, p1, p2]
    rw [colex_append, colex_append, colex_append, colex_range_zero]
    simp only [List.length_append, List.length_map, List.length_range, List.length_singleton, colex, Nat.zero_add,
      Nat.add_zero]
    have := colex_range' c r
    rw [show r - 1 + 1 = r by omega]; omega

end LC
