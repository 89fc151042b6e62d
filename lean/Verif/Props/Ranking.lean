import Verif.Proof.Unranking
/-
C46–C49: binomials, combination ranking, unranking, staggered ranking. A sector is `InSector M N s` (Spec/Bits.lean).
`SectorParams.Valid` says `M ≤ 63`, `N ≤ M`.
-/
namespace LC

/-- **C46** (partial: `n = 63` is excluded, see F9) `binomial` computes binomial coefficients, without overflow. -/
theorem C46_binomial_partial (n k : Nat) (hn : n ≤ 62) : binomial n k = Nat.choose n k := binomial_eq_choose n k hn

/-- **C46 (finding F9)** For 63 modes the intermediate products overflow: `binomial(63, 31)` is wrong. -/
theorem C46_F9_overflow : binomial 63 31 ≠ Nat.choose 63 31 := by decide +kernel

/-- **C46** Exactly which coefficients of 63 modes are right. -/
theorem C46_binomial_63 (k : Nat) : binomial 63 k = Nat.choose 63 k ↔ k ≤ 28 ∨ 35 ≤ k := by
  by_cases h : k ≤ 63
  · have h63 : ∀ k < 64, (decide (binomial 63 k = Nat.choose 63 k) = decide (k ≤ 28 ∨ 35 ≤ k)) := by decide +kernel
    have := h63 k (by omega)
    exact decide_eq_decide.1 this
  · have h1 : binomial 63 k = 0 := by unfold binomial; rw [if_pos (by omega)]
    rw [h1, Nat.choose_eq_zero_of_lt (by omega)]
    simp; omega

example : binomial 62 31 = 465428353255261088 ∧ Nat.choose 62 31 = 465428353255261088 := by
  constructor
  · decide +kernel
  · rw [← C46_binomial_partial 62 31 le_rfl]; decide +kernel

/-- **C47** The combination ranking is defined on every state of the sector (no access outside its table), its values are
`0, …, C(M,N) - 1`, different states have different ranks, every rank is taken, and it is increasing at up to half filling
and decreasing above. -/
theorem C47_combination_ranking (p : SectorParams) (h : p.Valid) :
    (∀ s, InSector p.M p.N s → ∃ r, (CombRanking.make p).rank s = some r ∧ r < Nat.choose p.M p.N) ∧
    (∀ r < Nat.choose p.M p.N, ∃ s, InSector p.M p.N s ∧ (CombRanking.make p).rank s = some r) ∧
    (∀ s t r r', InSector p.M p.N s → InSector p.M p.N t → s < t → (CombRanking.make p).rank s = some r →
      (CombRanking.make p).rank t = some r' → if p.N ≤ p.M / 2 then r < r' else r' < r) := by
  have hM := h.1
  have hNM := h.2
  have hch : Nat.choose p.M (countedModes p) = Nat.choose p.M p.N := by
    unfold countedModes; split
    · rfl
    · exact Nat.choose_symm hNM
  refine ⟨?_, ?_, ?_⟩
  · intro s hs
    refine ⟨_, combRank_eq p h s hs.1 hs.2, ?_⟩
    have := cnsRank_lt (masked_lt p h s hs.1) (by omega)
    rwa [masked_count p h s hs.1 hs.2, hch] at this
  · intro r hr
    obtain ⟨s, hs, hc, he⟩ := cnsRank_surj p.M (by omega) (countedModes p) r (by rw [hch]; exact hr)
    have hs' := masked_lt p h s hs
    have hc' := unmasked_count p h s hs hc
    refine ⟨s ^^^ xorMask p, ⟨hs', hc'⟩, ?_⟩
    rw [combRank_eq p h _ hs' hc', masked_invol, he]
  · intro s t r r' hs ht hst hr hr'
    rw [combRank_eq p h s hs.1 hs.2] at hr
    rw [combRank_eq p h t ht.1 ht.2] at hr'
    have hcs := masked_count p h s hs.1 hs.2
    have hct := masked_count p h t ht.1 ht.2
    have hls := masked_lt p h s hs.1
    have hlt := masked_lt p h t ht.1
    cases hr; cases hr'
    have hs1 := hs.1
    have ht1 := ht.1
    split
    · next hN =>
      refine cnsRank_lt_cnsRank hlt (by omega) ?_ (hcs.trans hct.symm)
      rw [xorMask_eq p h s hs1, xorMask_eq p h t ht1, if_pos hN, if_pos hN]; exact hst
    · next hN =>
      refine cnsRank_lt_cnsRank hls (by omega) ?_ (hct.trans hcs.symm)
      rw [xorMask_eq p h s hs1, xorMask_eq p h t ht1, if_neg hN, if_neg hN]; omega

example : (⟨6, 0b111111, 2⟩ : SectorParams).Valid ∧ InSector 6 2 0b010010 ∧
    (CombRanking.make ⟨6, 0b111111, 2⟩).rank 0b010010 = some 7 := ⟨⟨by decide, by decide⟩, by decide +kernel⟩
example : (⟨6, 0b111111, 4⟩ : SectorParams).Valid ∧ InSector 6 4 0b101101 ∧
    (CombRanking.make ⟨6, 0b111111, 4⟩).rank 0b101101 = some 7 := ⟨⟨by decide, by decide⟩, by decide +kernel⟩

/-- **C48** A generator that is fresh, or re-initialised with `init()` at any point, returns after `size()` steps exactly
the states of the sector, each once, state `i` having rank `i` in the combination ranking; then it is done. (63 modes with
29 to 34 particles are excluded because of F9.) -/
theorem C48_unranking (p : SectorParams) (h : p.Valid)
    (hM : p.M ≤ 62 ∨ p.N ≤ 28 ∨ 35 ≤ p.N) (n : Nat) (g : UnrankGen)
    (hg : g = UnrankGen.make p ∨ ∃ k ≤ Nat.choose p.M p.N, g = (Nat.iterate (fun g => g.next.2) k (UnrankGen.make p)).init)
    (hn : Nat.choose p.M p.N ≤ n) :
    g.size = Nat.choose p.M p.N ∧
    ∃ l g', UnrankGen.drain n g = some (l, g') ∧ g'.done = true ∧ l.length = Nat.choose p.M p.N ∧ l.Nodup ∧
      (∀ s, s ∈ l ↔ InSector p.M p.N s) ∧
      (∀ i s, l[i]? = some s → (CombRanking.make p).rank s = some i) := by
  have hNM := h.2
  have hch : Nat.choose p.M (countedModes p) = Nat.choose p.M p.N := by
    unfold countedModes; split
    · rfl
    · exact Nat.choose_symm hNM
  have h63 := h.1
  have hM : binomial p.M (countedModes p) = Nat.choose p.M (countedModes p) := by
    by_cases hlt : p.M ≤ 62
    · exact binomial_eq_choose _ _ hlt
    · have e : p.M = 63 := by omega
      rw [e, C46_binomial_63]
      unfold countedModes
      split <;> omega
  have hat : g.At p 0 := by
    rcases hg with rfl | ⟨k, hk, rfl⟩
    · exact UnrankGen.make_at p h hM
    · have hkat : ∀ k ≤ Nat.choose p.M p.N, (Nat.iterate (fun g : UnrankGen => g.next.2) k (UnrankGen.make p)).At p k := by
        intro k
        induction k with
        | zero => intro _; exact UnrankGen.make_at p h hM
        | succ k ih =>
          intro hk
          rw [Function.iterate_succ_apply']
          exact (UnrankGen.next_at p h hM (ih (by omega)) (by rw [hch]; omega)).1
      exact UnrankGen.init_at p h hM (hkat k hk)
  refine ⟨by rw [UnrankGen.size, hat.total, hch], ?_⟩
  obtain ⟨l, g', hd, hat', hlen, hl⟩ := UnrankGen.drain_at p h hM n hat (by rw [hch]; omega)
  have hst : ∀ j s, l[j]? = some s → InSector p.M p.N s ∧ cnsRank (s ^^^ xorMask p) = j := by
    intro j s hj
    obtain ⟨h1, h2, h3⟩ := hl j s hj
    have h4 := masked_lt p h _ h1
    have h5 := unmasked_count p h _ h1 h2
    rw [masked_invol] at h4 h5
    exact ⟨⟨h4, h5⟩, by omega⟩
  have hrk : ∀ i s, l[i]? = some s → (CombRanking.make p).rank s = some i := by
    intro i s hi
    obtain ⟨h1, h2⟩ := hst i s hi
    rw [combRank_eq p h s h1.1 h1.2, h2]
  refine ⟨l, g', hd, ?_, by rw [hlen, hch]; rfl, ?_, ?_, hrk⟩
  · rw [UnrankGen.done, hat'.i, hat'.total]; simp
  · rw [List.nodup_iff_getElem?_ne_getElem?]
    intro i j hij hj he
    have hi : i < l.length := by omega
    have e1 := hrk i l[i] (by simp)
    have e2 := hrk j l[j] (by simp)
    have : l[i] = l[j] := by simpa [hi, hj] using he
    rw [this, e2] at e1
    simp at e1; omega
  · intro s
    constructor
    · intro hs
      obtain ⟨j, hj⟩ := List.mem_iff_getElem?.1 hs
      exact (hst j s hj).1
    · intro hs
      have hr := cnsRank_lt (masked_lt p h s hs.1) (by omega)
      rw [masked_count p h s hs.1 hs.2] at hr
      have hlt : cnsRank (s ^^^ xorMask p) < l.length := by rw [hlen]; omega
      obtain ⟨h1, h2, h3⟩ := hl (cnsRank (s ^^^ xorMask p)) l[cnsRank (s ^^^ xorMask p)] (List.getElem?_eq_getElem hlt)
      have hM' := two_pow_le_W64 (M := p.M) (by omega)
      have he : l[cnsRank (s ^^^ xorMask p)] ^^^ xorMask p = s ^^^ xorMask p := by
        refine cnsRank_inj (h1.trans_le hM') ((masked_lt p h s hs.1).trans_le hM') ?_ (by omega)
        rw [h2, masked_count p h s hs.1 hs.2]
      have he2 := congrArg (· ^^^ xorMask p) he
      simp only [masked_invol] at he2
      rw [← he2]
      exact List.getElem_mem _

example : (⟨5, 0b11111, 3⟩ : SectorParams).Valid ∧
    ((UnrankGen.make ⟨5, 0b11111, 3⟩).drain 10).map Prod.fst = some [28, 26, 25, 22, 21, 19, 14, 13, 11, 7] :=
  ⟨⟨by decide, by decide⟩, by decide +kernel⟩

/-- **C48 (finding F9)** 63 modes, 31 particles: the generator announces a wrong number of states. -/
theorem C48_F9_wrong_size : (⟨63, 2 ^ 63 - 1, 31⟩ : SectorParams).Valid ∧
    (UnrankGen.make ⟨63, 2 ^ 63 - 1, 31⟩).size ≠ Nat.choose 63 31 := ⟨⟨by decide, by decide⟩, by decide +kernel⟩

/-- **C49** For every chunk size `R > 0` the staggered ranking is defined on every state of the sector (no access outside
its tables) and equals the combination ranking. -/
theorem C49_staggered_ranking (R : Nat) (hR : 0 < R) (p : SectorParams) (h : p.Valid) (s : Nat)
    (hs : InSector p.M p.N s) :
    (StagRanking.make R p).rank R s = (CombRanking.make p).rank s ∧ ((StagRanking.make R p).rank R s).isSome := by
  rw [stagRank_eq R hR p h s hs.1, combRank_eq p h s hs.1 hs.2]
  exact ⟨rfl, rfl⟩

example : (StagRanking.make 2 ⟨6, 0b111111, 2⟩).rank 2 0b010010 = some 7 := by decide +kernel

end LC
