import Verif.Proof.TrieBuild
import Verif.Props.Ranking
/-
C50: `trie_ranking`.
-/
set_option linter.unusedVariables false
set_option linter.unusedSimpArgs false
namespace LC

theorem chunkSizes_sum {R : Nat} (hR : 0 < R) (M : Nat) : (chunkSizes R M).sum = M := by
  unfold chunkSizes
  rw [List.sum_append, List.sum_replicate, smul_eq_mul]
  have := Nat.div_add_mod' M R
  split
  · simpa using this
  · next h => simp at h ⊢; omega

theorem chunkSizes_mem {R : Nat} (hR : 0 < R) {M a : Nat} (h : a ∈ chunkSizes R M) : 0 < a ∧ a ≤ R := by
  unfold chunkSizes at h
  rw [List.mem_append] at h
  rcases h with h | h
  · rw [List.mem_replicate] at h; omega
  · split at h
    · next hm =>
      have := Nat.mod_lt M hR
      simp at h; omega
    · simp at h

theorem chunkSizes_sorted {R : Nat} (hR : 0 < R) (M : Nat) : (chunkSizes R M).Pairwise (fun a b => b ≤ a) := by
  unfold chunkSizes
  rw [List.pairwise_append]
  refine ⟨?_, ?_, ?_⟩
  · rw [List.pairwise_replicate]; right; exact le_rfl
  · split <;> simp
  · intro a ha b hb
    rw [List.mem_replicate] at ha
    split at hb
    · have := Nat.mod_lt M hR
      simp at hb; omega
    · simp at hb

theorem trieSize_le : ∀ (ch : List Nat), (∀ a ∈ ch, 0 < a) → trieSize ch + 2 ≤ 2 ^ (ch.sum + 1) := by
  intro ch
  induction ch with
  | nil => intro _; simp [trieSize]
  | cons a rest ih =>
    intro h
    have h1 := ih fun b hb => h b (by simp [hb])
    have h2 : 2 ≤ 2 ^ a := by
      have := h a (by simp)
      calc 2 = 2 ^ 1 := rfl
        _ ≤ 2 ^ a := Nat.pow_le_pow_right (by decide) this
    rw [trieSize, List.sum_cons, Nat.add_assoc, pow_add]
    have h3 : 2 ^ a * (1 + trieSize rest) + 2 ^ a ≤ 2 ^ a * 2 ^ (rest.sum + 1) := by
      rw [← Nat.mul_succ]; exact Nat.mul_le_mul_left _ (by omega)
    omega

theorem lookup_path (d : Nat → Int) (lo hi x : Nat) : ∀ (ch : List Nat) (node v : Nat), ch.sum ≤ 63 → Path d lo hi ch node x v →
    trieLookup x ⟨hi, fun j => if d j < 0 then -d j else d j⟩ (pextMaskLoop ch ch.sum) node = some v := by
  intro ch
  induction ch with
  | nil => intro node v _ h; exact h.elim
  | cons cs rest ih =>
    intro node v hs h
    rw [List.sum_cons] at hs
    obtain ⟨h1, h2, h3⟩ := h
    rw [pextMaskLoop, trieLookup]
    have em : (sub64 (pow2 cs) 1 <<< ((cs :: rest).sum - cs)) % W64 = (2 ^ cs - 1) * 2 ^ rest.sum := by
      rw [ones_eq (by omega), List.sum_cons, show cs + rest.sum - cs = rest.sum by omega, Nat.shiftLeft_eq, Nat.mod_eq_of_lt]
      exact block_lt (by omega)
    rw [em, extractBits_block (by omega), TrieMem.get_of_lt (by exact h2)]
    dsimp only
    rw [List.sum_cons, show cs + rest.sum - cs = rest.sum by omega]
    rcases h3 with ⟨hr, hv⟩ | ⟨hr, q, hv, hq, hp⟩
    · rw [hv]
      subst hr
      rw [show (if -(v : Int) < 0 then -(-(v : Int)) else -(v : Int)) = v by split <;> omega]
      simp [pextMaskLoop, trieLookup]
    · rw [hv, if_neg (by omega), Int.toNat_natCast]
      exact ih q v (by omega) hp

theorem least_ones {N : Nat} (hN : N ≤ 62) : Least N 0 (2 ^ N - 1) := by
  have h1 : (2 : Nat) ^ N ≤ 2 ^ 62 := Nat.pow_le_pow_right (by decide) hN
  have h2 : (2 : Nat) ^ N - 1 < W64 := lt_of_le_of_lt ((Nat.sub_le _ _).trans h1) (by decide)
  refine ⟨h2, bitCount_ones (by omega), Nat.zero_le _, ?_⟩
  intro x hx hc _
  by_contra hcon
  have := cnsRank_lt_cnsRank (M := 64) h2 le_rfl (by omega : x < 2 ^ N - 1) (by rw [hc, bitCount_ones (by omega)])
  rw [cnsRank_ones (by omega)] at this
  omega

/-- **C50** (partial: 63 modes are excluded, see F19) For every chunk size `R > 0` and every sector of at most 62 modes, the constructor of the trie ranking succeeds (no access
outside the vector, no failed assertion, no wrap-around of an index), every lookup of a state of the sector stays inside the final vector and it
returns the rank of the combination ranking. -/
theorem C50_trie_ranking_partial (R : Nat) (hR : 0 < R) (p : SectorParams) (h : p.Valid) (hM : p.M ≤ 62) :
    ∃ t, TrieRanking.make R p = some t ∧
      ∀ s, InSector p.M p.N s → t.rank s = (CombRanking.make p).rank s ∧ (t.rank s).isSome := by
  have hpow : (2 : Nat) ^ (p.M + 1) < W64 := Nat.pow_lt_pow_right (by decide) (by omega)
  have hpow2 : pow2? (p.M + 1) = some (2 ^ (p.M + 1)) := by
    unfold pow2? shl64?
    rw [if_pos (by omega), Nat.one_shiftLeft, Nat.mod_eq_of_lt hpow]
  have hmask : (if p.N ≤ p.M / 2 then 0 else sub64 (pow2 p.M) 1) = xorMask p := by
    have := h.2
    unfold xorMask countedModes
    by_cases hN : p.N ≤ p.M / 2
    · simp [hN]
    · rw [if_neg hN, if_neg hN, if_neg (by omega)]
  have hNc := countedModes_le p h
  unfold TrieRanking.make
  rw [hpow2]
  dsimp only
  rw [hmask]
  by_cases hM0 : p.M > 0
  · rw [if_pos hM0, ones_eq (by omega)]
    have hne : chunkSizes R p.M ≠ [] := by
      intro he
      have := chunkSizes_sum hR p.M
      rw [he] at this; simp at this; omega
    have hsum := chunkSizes_sum hR p.M
    have hsz := trieSize_le (chunkSizes R p.M) (fun a ha => (chunkSizes_mem hR ha).1)
    have hones : (2 : Nat) ^ countedModes p - 1 < 2 ^ p.M := by
      have h1 : (2 : Nat) ^ countedModes p ≤ 2 ^ p.M := Nat.pow_le_pow_right (by decide) hNc
      have := Nat.two_pow_pos (countedModes p)
      omega
    have hmk := make_spec (countedModes p) (chunkSizes R p.M) hne (chunkSizes_sorted hR p.M) (by omega) 0
      ⟨0, 2 ^ countedModes p - 1, 0, ⟨2 ^ (p.M + 1), fun _ => 0⟩⟩
    rw [hsum] at hmk hsz
    obtain ⟨s, m1, m2, m3, m4, m5, m6, m7⟩ := hmk (by
        rw [Nat.zero_add, Nat.one_mul]; exact Nat.pow_le_pow_right (by decide) hM) (by
        rw [Nat.zero_mul]; exact least_ones (by omega)) (Nat.div_eq_of_lt hones) (by rw [cnsRank_ones (by omega)]) (by
        dsimp only; omega) (Nat.pow_le_pow_right (by decide) (by omega))
    rw [m1]
    refine ⟨_, rfl, ?_⟩
    intro x hx
    rw [combRank_eq p h x hx.1 hx.2]
    suffices hgoal : TrieRanking.rank ⟨pextMaskLoop (chunkSizes R p.M) p.M, ⟨(s.mem.resize s.k).size,
        fun j => if (s.mem.resize s.k).data j < 0 then -(s.mem.resize s.k).data j else (s.mem.resize s.k).data j⟩, xorMask p⟩ x
          = some (cnsRank (x ^^^ xorMask p)) by
      rw [hgoal]; exact ⟨rfl, rfl⟩
    unfold TrieRanking.rank
    dsimp only
    have hin : InSub (countedModes p) 0 p.M (x ^^^ xorMask p) :=
      ⟨Nat.div_eq_of_lt (masked_lt p h x hx.1), masked_count p h x hx.1 hx.2⟩
    have hpath := m7 _ hin
    dsimp only at m2 m4
    have hpath' := path_congr (d' := (s.mem.resize s.k).data) (hi' := s.k) (fun j _ hj => by
      unfold TrieMem.resize; dsimp only; rw [if_pos (by omega)]) le_rfl le_rfl _ _ _ _ hpath
    have := lookup_path _ _ _ _ _ _ _ (by omega) hpath'
    rw [hsum] at this
    exact this
  · rw [if_neg hM0]
    have hM0 : p.M = 0 := by omega
    refine ⟨_, rfl, ?_⟩
    intro x hx
    rw [combRank_eq p h x hx.1 hx.2]
    have hx0 : x = 0 := by have := hx.1; rw [hM0] at this; simpa using this
    have hN : p.N = 0 := by have := h.2; omega
    have hch : chunkSizes R p.M = [] := by simp [chunkSizes, hM0]
    have hm0 : xorMask p = 0 := by rw [← hmask, if_pos (by omega)]
    rw [hx0, hm0, hch]
    simp [TrieRanking.rank, pextMaskLoop, trieLookup, cnsRank_zero]

/-- **C50 (finding F19)** With 63 modes the constructor shifts by 64, which is undefined. -/
theorem C50_F19_63_modes (R : Nat) (p : SectorParams) (hM : p.M = 63) : TrieRanking.make R p = none := by
  unfold TrieRanking.make pow2? shl64?
  rw [if_neg (by omega)]

example : (⟨6, 0b111111, 4⟩ : SectorParams).Valid ∧ (⟨6, 0b111111, 4⟩ : SectorParams).M ≤ 62 ∧ InSector 6 4 0b101101 ∧
    ∃ t, TrieRanking.make 4 ⟨6, 0b111111, 4⟩ = some t ∧ t.rank 0b101101 = some 7 := by
  have hv : (⟨6, 0b111111, 4⟩ : SectorParams).Valid := ⟨by decide, by decide⟩
  have hs : InSector 6 4 0b101101 := by decide +kernel
  obtain ⟨t, h1, h2⟩ := C50_trie_ranking_partial 4 (by decide) ⟨6, 0b111111, 4⟩ hv (by decide)
  refine ⟨hv, by decide, hs, t, h1, ?_⟩
  rw [(h2 _ hs).1, combRank_eq _ hv _ hs.1 hs.2]
  decide +kernel

/-- The trie ranking can be used with the sector views of at most 62 modes. -/
instance (K : Nat) [NeZero K] : LawfulRanking (Trie K) :=
  ⟨fun p => p.M ≤ 62, fun p hp hM s hs => by
    obtain ⟨t, h1, h2⟩ := C50_trie_ranking_partial K (Nat.pos_of_ne_zero (NeZero.ne K)) p hp hM
    change (TrieRanking.make K p).bind _ = _
    rw [h1]
    exact (h2 s hs).1⟩

end LC
