import Verif.Proof.Ranking
/-
Unranking generator and staggered ranking.
-/
set_option linter.unusedSimpArgs false
namespace LC

theorem cnsRank_inj {s t : Nat} (hs : s < W64) (ht : t < W64) (hc : bitCount s = bitCount t) (hr : cnsRank s = cnsRank t) :
    s = t := by
  rcases Nat.lt_trichotomy s t with h | h | h
  · have := cnsRank_lt_cnsRank (M := 64) ht le_rfl h hc; omega
  · exact h
  · have := cnsRank_lt_cnsRank (M := 64) hs le_rfl h hc.symm; omega

theorem two_pow_le_W64 {M : Nat} (h : M ≤ 64) : 2 ^ M ≤ W64 := Nat.pow_le_pow_right (by decide) h

/-- The successor of a non-last state of a sector stays in the sector. -/
theorem nextState_lt {M s : Nat} (hM : M ≤ 63) (hs : s < 2 ^ M) (h0 : s ≠ 0)
    (hr : cnsRank s + 1 < Nat.choose M (bitCount s)) : nextState s < 2 ^ M := by
  obtain ⟨h1, h2, h3⟩ := nextState_spec h0 (hs.trans_le (Nat.pow_le_pow_right (by decide) hM))
  obtain ⟨t, ht, h4, h5⟩ := cnsRank_surj M (by omega) (bitCount s) (cnsRank s + 1) hr
  have : nextState s = t := cnsRank_inj h3 (ht.trans_le (two_pow_le_W64 (by omega))) (by omega) (by omega)
  rw [this]; exact ht

theorem bitCount_ones {r : Nat} (h : r ≤ 64) : bitCount (2 ^ r - 1) = r := by
  rw [bitCount, bitPositions_ones h, List.length_range]
theorem cnsRank_ones {r : Nat} (h : r ≤ 64) : cnsRank (2 ^ r - 1) = 0 := by
  rw [cnsRank, bitPositions_ones h, colex_range_zero]

/-- Invariant of the generator after `k` calls of `next()`. -/
structure UnrankGen.At (p : SectorParams) (k : Nat) (g : UnrankGen) : Prop where
  nc : g.nCounted = countedModes p
  total : g.total = Nat.choose p.M (countedModes p)
  mask : g.mask = xorMask p
  i : g.i = k
  le : k ≤ Nat.choose p.M (countedModes p)
  lt : g.unranked < 2 ^ p.M
  count : bitCount g.unranked = countedModes p
  rank : cnsRank g.unranked = k - 1

theorem UnrankGen.make_at (p : SectorParams) (h : p.Valid) (hM : binomial p.M (countedModes p) = Nat.choose p.M (countedModes p)) : (UnrankGen.make p).At p 0 := by
  have h63 := h.1
  have hc := countedModes_le p h
  have e : sub64 (pow2 (countedModes p)) 1 = 2 ^ countedModes p - 1 := ones_eq (by omega)
  refine ⟨rfl, ?_, rfl, rfl, by omega, ?_, ?_, ?_⟩
  · simp only [make]; exact hM
  · simp only [make, e]
    have := Nat.pow_le_pow_right (n := 2) (by decide) hc
    have := Nat.two_pow_pos (countedModes p)
    omega
  · simp only [make, e]; exact bitCount_ones (by omega)
  · simp only [make, e]; exact cnsRank_ones (by omega)

theorem UnrankGen.init_at (p : SectorParams) (h : p.Valid) (hM : binomial p.M (countedModes p) = Nat.choose p.M (countedModes p)) {k : Nat} {g : UnrankGen} (hg : g.At p k) :
    g.init.At p 0 := by
  have := UnrankGen.make_at p h hM
  have e : g.init = UnrankGen.make p := by
    unfold UnrankGen.init UnrankGen.make
    rw [hg.nc, hg.total, hg.mask, hM]
  rw [e]; exact this

/-- One call of `next()`. -/
theorem UnrankGen.next_at (p : SectorParams) (h : p.Valid) (_hM : binomial p.M (countedModes p) = Nat.choose p.M (countedModes p)) {k : Nat} {g : UnrankGen} (hg : g.At p k)
    (hk : k < Nat.choose p.M (countedModes p)) :
    g.next.2.At p (k + 1) ∧ g.next.1 ^^^ xorMask p < 2 ^ p.M ∧ bitCount (g.next.1 ^^^ xorMask p) = countedModes p ∧
      cnsRank (g.next.1 ^^^ xorMask p) = k := by
  have hW : k + 1 < W64 := by
    have := choose_lt_W64 (N := countedModes p) h.1; omega
  have hadd : add64 k 1 = k + 1 := Nat.mod_eq_of_lt hW
  unfold UnrankGen.next
  by_cases h0 : k = 0
  · subst h0
    simp only [hg.i, if_true, hadd]
    rw [hg.mask, masked_invol]
    have hr := hg.rank
    exact ⟨⟨hg.nc, hg.total, rfl, rfl, hk, hg.lt, hg.count, hg.rank⟩, hg.lt, hg.count, hr⟩
  · simp only [hg.i, h0, if_false, hadd]
    rw [hg.mask, masked_invol]
    have hne : g.unranked ≠ 0 := by
      intro e
      have hcount := hg.count
      rw [e, bitCount_zero] at hcount
      rw [← hcount, Nat.choose_zero_right] at hk
      omega
    have hlt : g.unranked < 2 ^ 63 := hg.lt.trans_le (Nat.pow_le_pow_right (by decide) h.1)
    obtain ⟨h1, h2, h3⟩ := nextState_spec hne hlt
    have h4 := nextState_lt h.1 hg.lt hne (by rw [hg.rank, hg.count]; omega)
    have hr := hg.rank
    refine ⟨⟨hg.nc, hg.total, rfl, rfl, hk, h4, ?_, ?_⟩, h4, ?_, ?_⟩
    · rw [h1, hg.count]
    · simp only; omega
    · rw [h1, hg.count]
    · omega

/-- Draining the generator. -/
theorem UnrankGen.drain_at (p : SectorParams) (h : p.Valid) (hM : binomial p.M (countedModes p) = Nat.choose p.M (countedModes p)) (fuel : Nat) {k : Nat} {g : UnrankGen}
    (hg : g.At p k) (hf : Nat.choose p.M (countedModes p) - k ≤ fuel) :
    ∃ l g', UnrankGen.drain fuel g = some (l, g') ∧ g'.At p (Nat.choose p.M (countedModes p)) ∧
      l.length = Nat.choose p.M (countedModes p) - k ∧
      ∀ j s, l[j]? = some s → s ^^^ xorMask p < 2 ^ p.M ∧ bitCount (s ^^^ xorMask p) = countedModes p ∧
        cnsRank (s ^^^ xorMask p) = k + j := by
  induction fuel generalizing k g with
  | zero =>
    have hk : k = Nat.choose p.M (countedModes p) := by have := hg.le; omega
    refine ⟨[], g, ?_, hk ▸ hg, by simp; omega, by simp⟩
    simp [drain, done, hg.i, hg.total, hk]
  | succ fuel ih =>
    by_cases hk : k = Nat.choose p.M (countedModes p)
    · refine ⟨[], g, ?_, hk ▸ hg, by simp; omega, by simp⟩
      simp [drain, done, hg.i, hg.total, hk]
    · have hlt : k < Nat.choose p.M (countedModes p) := by have := hg.le; omega
      obtain ⟨h1, h2, h3, h4⟩ := UnrankGen.next_at p h hM hg hlt
      obtain ⟨l, g', e, h5, h6, h7⟩ := ih h1 (by omega)
      refine ⟨g.next.1 :: l, g', ?_, h5, by simp only [List.length_cons]; omega, ?_⟩
      · rw [drain]
        have : g.done = false := by simp [done, hg.i, hg.total, hk]
        simp only [this, Bool.false_eq_true, if_false, e, Option.map_some]
      · intro j s hs
        cases j with
        | zero => simp at hs; subst hs; exact ⟨h2, h3, h4⟩
        | succ j =>
          rw [List.getElem?_cons_succ] at hs
          obtain ⟨a, b, c⟩ := h7 j s hs
          exact ⟨a, b, by omega⟩

/-! ### Staggered ranking -/

theorem flatMap_range_getElem? {α : Type _} (f : Nat → List α) (K m j : Nat) (hm : m < K) (hj : j < (f m).length) :
    ((List.range K).flatMap f)[((List.range m).map fun q => (f q).length).sum + j]? = (f m)[j]? := by
  induction K with
  | zero => omega
  | succ K ih =>
    rw [List.range_succ, List.flatMap_append]
    by_cases hmK : m = K
    · subst hmK
      have hl : ((List.range m).flatMap f).length = ((List.range m).map fun q => (f q).length).sum := by
        rw [List.length_flatMap]
      rw [List.getElem?_append_right (by omega), hl, Nat.add_sub_cancel_left]
      simp
    · have hlen : ((List.range m).map fun q => (f q).length).sum + (f m).length ≤ ((List.range K).flatMap f).length := by
        rw [List.length_flatMap]
        have : (List.range K) = List.range (m + 1) ++ List.range' (m + 1) (K - (m + 1)) := by
          rw [List.range_eq_range', List.range_eq_range']
          have := List.range'_append_1 (s := 0) (m := m + 1) (n := K - (m + 1))
          rw [Nat.zero_add] at this
          rw [this]; congr 1; omega
        rw [this, List.map_append, List.sum_append, List.range_succ, List.map_append, List.sum_append]
        simp
      rw [List.getElem?_append_left (by omega)]
      exact ih (by omega)

theorem stagRankLoop_eq (Mp Np r i k : Nat) (hr : r < W64) (hk : 1 ≤ k)
    (hb : ∀ c ∈ bitPositions r, Mp + c ≤ 62)
    (hs : i + colex (Np + k - 1) ((bitPositions r).map (· + Mp)) < W64) :
    stagRankLoop Mp Np r i k = i + colex (Np + k - 1) ((bitPositions r).map (· + Mp)) := by
  induction r using Nat.strongRecOn generalizing i k with
  | _ r ih =>
    rw [stagRankLoop]
    split
    · next h => subst h; simp [bitPositions_zero, colex]
    · next h =>
      obtain ⟨h1, h2, h3, h4, h5⟩ := bitPositions_peel h hr
      rw [h1] at hb hs ⊢
      simp only [List.map_cons, colex] at hs ⊢
      rw [binomial_eq_choose _ _ (hb _ (by simp)), add64]
      have e : Np + k - 1 + 1 = Np + k := by omega
      rw [e] at hs ⊢
      rw [Nat.add_comm (ctz r) Mp] at hs ⊢
      rw [Nat.mod_eq_of_lt (by omega), ih _ (land_pred_lt h) _ _ h5 (by omega) (fun c hc => hb c (by simp [hc]))
        (by rw [show Np + (k + 1) - 1 = Np + k by omega]; omega)]
      rw [show Np + (k + 1) - 1 = Np + k by omega]; omega

theorem heads_eq (R mp : Nat) : ((List.range mp).map fun q => (q * R + 1) * 2 ^ R).sum
    = (mp + R * (mp * mp - mp) / 2) * 2 ^ R := by
  have h : ∀ mp, 2 * ((List.range mp).map fun q => (q * R + 1)).sum = 2 * mp + R * (mp * mp - mp) := by
    intro mp
    induction mp with
    | zero => simp
    | succ mp ih =>
      rw [List.range_succ, List.map_append, List.sum_append, Nat.mul_add, ih]
      have : (mp + 1) * (mp + 1) - (mp + 1) = (mp * mp - mp) + 2 * mp := by
        have h1 : mp ≤ mp * mp := Nat.le_mul_self mp
        have h2 : (mp + 1) * (mp + 1) = mp * mp + 2 * mp + 1 := by ring
        omega
      rw [this, Nat.mul_add]
      simp only [List.map_cons, List.map_nil, List.sum_cons, List.sum_nil]
      ring
  have h2 : ((List.range mp).map fun q => (q * R + 1) * 2 ^ R).sum = ((List.range mp).map fun q => (q * R + 1)).sum * 2 ^ R := by
    induction mp with
    | zero => simp
    | succ mp ih =>
      rw [List.range_succ, List.map_append, List.sum_append, List.map_append, List.sum_append, ih, Nat.add_mul]
      simp
  rw [h2]
  congr 1
  have := h mp
  omega

theorem stagTable_lookup (R : Nat) (p : SectorParams) (mp Np r : Nat) (hmp : mp ≤ p.M / R) (hNp : Np ≤ mp * R)
    (hr : r < 2 ^ R) :
    (StagRanking.make R p).table[(mp + R * (mp * mp - mp) / 2) * 2 ^ R + Np * 2 ^ R + r]?
      = some (stagRankLoop (mp * R) Np r 0 1) := by
  unfold StagRanking.make
  simp only
  set f : Nat → List Nat := fun mp => (List.range (mp * R + 1)).flatMap fun Np =>
      (List.range (2 ^ R)).map fun r => stagRankLoop (mp * R) Np r 0 1 with hf
  have hlen : ∀ q, (f q).length = (q * R + 1) * 2 ^ R := by
    intro q; simp [hf, List.length_flatMap]
  have hj : Np * 2 ^ R + r < (f mp).length := by
    rw [hlen]
    calc Np * 2 ^ R + r < Np * 2 ^ R + 2 ^ R := by omega
      _ = (Np + 1) * 2 ^ R := by ring
      _ ≤ (mp * R + 1) * 2 ^ R := Nat.mul_le_mul_right _ (by omega)
  have h1 := flatMap_range_getElem? f (p.M / R + 1) mp (Np * 2 ^ R + r) (by omega) hj
  have h2 : ((List.range mp).map fun q => (f q).length).sum = (mp + R * (mp * mp - mp) / 2) * 2 ^ R := by
    rw [← heads_eq]; congr 1; apply List.map_congr_left; intro q _; exact hlen q
  rw [h2] at h1
  rw [Nat.add_assoc, h1]
  have h3 := flatMap_range_getElem? (fun Np => (List.range (2 ^ R)).map fun r => stagRankLoop (mp * R) Np r 0 1)
    (mp * R + 1) Np r (by omega) (by simpa using hr)
  have h4 : ((List.range Np).map fun q => ((List.range (2 ^ R)).map fun r => stagRankLoop (mp * R) q r 0 1).length).sum
      = Np * 2 ^ R := by simp
  rw [h4] at h3
  rw [hf]
  simp only
  rw [h3]
  simp [hr]

/-- The loop of the staggered ranking computes the combinatorial rank. -/
theorem stagLoop_eq (R : Nat) (hR : 0 < R) (p : SectorParams) (hM : p.M ≤ 63) (x s mp : Nat)
    (hs : s < 2 ^ (mp * R)) (hx : s + 2 ^ (mp * R) * x < 2 ^ p.M) :
    stagLoop R (StagRanking.make R p) x (cnsRank s) (bitCount s) mp = some (cnsRank (s + 2 ^ (mp * R) * x)) := by
  induction x using Nat.strongRecOn generalizing s mp with
  | _ x ih =>
    rw [stagLoop]
    split
    · next h => subst h; simp
    · next h =>
      have hxpos : 0 < x := Nat.pos_of_ne_zero h
      rw [dif_neg (by omega)]
      have hMW := two_pow_le_W64 (by omega : p.M ≤ 64)
      have hmp : mp * R < p.M := by
        have : 2 ^ (mp * R) < 2 ^ p.M := by
          refine lt_of_le_of_lt ?_ hx
          calc 2 ^ (mp * R) ≤ 2 ^ (mp * R) * x := Nat.le_mul_of_pos_right _ hxpos
            _ ≤ _ := by omega
        exact (Nat.pow_lt_pow_iff_right (by decide)).1 this
      have hmpmax : mp ≤ p.M / R := (Nat.le_div_iff_mul_le hR).2 hmp.le
      have hand : x &&& (2 ^ R - 1) = x % 2 ^ R := Nat.and_two_pow_sub_one_eq_mod x R
      have hrlt : x % 2 ^ R < 2 ^ R := Nat.mod_lt _ (Nat.two_pow_pos R)
      have hheads : (StagRanking.make R p).heads[mp]? = some ((mp + R * (mp * mp - mp) / 2) * 2 ^ R) := by
        simp [StagRanking.make, (by omega : mp < p.M / R + 1)]
      have hpop : (StagRanking.make R p).popTable[x % 2 ^ R]? = some (bitCount (x % 2 ^ R)) := by
        simp [StagRanking.make, hrlt, popcount, builtinPopcount, bitCount, bitPositions]
      have hNp : bitCount s ≤ mp * R := bitCount_le hs (by omega)
      have hsplit : x = x % 2 ^ R + 2 ^ R * (x / 2 ^ R) := (Nat.mod_add_div x (2 ^ R)).symm
      have hfull : s + 2 ^ (mp * R) * x = (s + 2 ^ (mp * R) * (x % 2 ^ R)) + 2 ^ ((mp + 1) * R) * (x / 2 ^ R) := by
        conv_lhs => rw [hsplit]
        rw [Nat.add_mul, Nat.one_mul, pow_add]; ring
      have hs' : s + 2 ^ (mp * R) * (x % 2 ^ R) < 2 ^ ((mp + 1) * R) := by
        calc s + 2 ^ (mp * R) * (x % 2 ^ R) < 2 ^ (mp * R) + 2 ^ (mp * R) * (x % 2 ^ R) := by omega
          _ = 2 ^ (mp * R) * (x % 2 ^ R + 1) := by ring
          _ ≤ 2 ^ (mp * R) * 2 ^ R := Nat.mul_le_mul_left _ hrlt
          _ = 2 ^ ((mp + 1) * R) := by rw [← pow_add]; congr 1; ring
      have hs'M : s + 2 ^ (mp * R) * (x % 2 ^ R) < 2 ^ p.M := by
        refine lt_of_le_of_lt ?_ hx; rw [hfull]; omega
      have hpos := bitPositions_add (M := mp * R) (r := x % 2 ^ R) hs (hs'M.trans_le hMW)
      have hrank : cnsRank (s + 2 ^ (mp * R) * (x % 2 ^ R))
          = cnsRank s + colex (bitCount s) ((bitPositions (x % 2 ^ R)).map (· + mp * R)) := by
        rw [cnsRank, hpos, colex_append]; simp [cnsRank, bitCount]
      have hcount : bitCount (s + 2 ^ (mp * R) * (x % 2 ^ R)) = bitCount s + bitCount (x % 2 ^ R) := by
        rw [bitCount, hpos]; simp [bitCount]
      have hrW : x % 2 ^ R < W64 := by
        refine lt_of_le_of_lt (Nat.mod_le _ _) ?_
        refine lt_of_le_of_lt ?_ (hx.trans_le hMW)
        calc x ≤ 2 ^ (mp * R) * x := Nat.le_mul_of_pos_left _ (Nat.two_pow_pos _)
          _ ≤ _ := by omega
      have hcW : cnsRank (s + 2 ^ (mp * R) * (x % 2 ^ R)) < W64 :=
        (cnsRank_lt hs'M (by omega)).trans (choose_lt_W64 hM)
      have hbnd : ∀ c ∈ bitPositions (x % 2 ^ R), mp * R + c ≤ 62 := by
        intro c hc
        have : c + mp * R ∈ bitPositions (s + 2 ^ (mp * R) * (x % 2 ^ R)) := by
          rw [hpos]; exact List.mem_append_right _ (List.mem_map.2 ⟨c, hc, rfl⟩)
        have h2 := (mem_bitPositions.1 this).2
        by_contra hcon
        rw [testBit_of_lt hs'M (by omega)] at h2; cases h2
      have hval : stagRankLoop (mp * R) (bitCount s) (x % 2 ^ R) 0 1
          = colex (bitCount s) ((bitPositions (x % 2 ^ R)).map (· + mp * R)) := by
        rw [stagRankLoop_eq _ _ _ _ _ hrW le_rfl hbnd]
        · simp
        · simp only [Nat.add_sub_cancel, Nat.zero_add]; omega
      simp only [hand, hheads, stagTable_lookup R p mp (bitCount s) (x % 2 ^ R) hmpmax hNp hrlt, hpop, hval]
      rw [add64, ← hrank, Nat.mod_eq_of_lt hcW, ← hcount, Nat.shiftRight_eq_div_pow, hfull]
      exact ih _ (Nat.div_lt_self hxpos (Nat.one_lt_two_pow (by omega))) _ _ hs' (by rw [← hfull]; exact hx)

theorem stagRank_eq (R : Nat) (hR : 0 < R) (p : SectorParams) (h : p.Valid) (s : Nat) (hs : s < 2 ^ p.M) :
    (StagRanking.make R p).rank R s = some (cnsRank (s ^^^ xorMask p)) := by
  have hmask : (StagRanking.make R p).mask = xorMask p := by
    have h1 := h.1
    have h2 := h.2
    unfold StagRanking.make xorMask countedModes
    simp only
    by_cases hN : p.N ≤ p.M / 2
    · simp [hN]
    · rw [if_neg hN, if_neg hN, if_neg (by omega)]
  unfold StagRanking.rank
  rw [hmask]
  have := stagLoop_eq R hR p h.1 (s ^^^ xorMask p) 0 0 (by simp) (by
    simp only [Nat.zero_mul, pow_zero, one_mul, Nat.zero_add]; exact masked_lt p h s hs)
  rw [cnsRank_zero, bitCount_zero] at this
  simpa using this

end LC
