import Verif.Spec.Sector
import Verif.Proof.Lex
import Verif.Proof.Views
import Verif.Props.CompView
/-
Sectors of a Hilbert space: counting fermions by counting bits, and the enumeration of the states of a sector.
-/
set_option linter.unusedSimpArgs false
set_option linter.unusedSectionVars false
namespace LC
open HilbertSpace
variable {ι T V R : Type _} [LinearOrder ι]

theorem bitCount_or {x y : Nat} (h : x &&& y = 0) : bitCount (x ||| y) = bitCount x + bitCount y := by
  unfold bitCount
  rw [bitPositions_card, bitPositions_card, bitPositions_card, ← Finset.card_union_of_disjoint, ← Finset.filter_or]
  · congr 1
    apply Finset.filter_congr
    intro b _
    rw [Nat.testBit_or, Bool.or_eq_true]
  · rw [Finset.disjoint_filter]
    intro b _ hx hy
    rw [and_zero_testBit.1 h b hx] at hy
    cases hy

theorem bitCount_and_two_pow (s b : Nat) (hb : b < 64) : bitCount (s &&& 2 ^ b) = s / 2 ^ b % 2 := by
  unfold bitCount
  rw [bitPositions_card]
  have : ((Finset.range 64).filter fun j => (s &&& 2 ^ b).testBit j = true) = if s.testBit b = true then {b} else ∅ := by
    ext j
    rw [Finset.mem_filter, Finset.mem_range, Nat.testBit_and, Nat.testBit_two_pow]
    split
    · next h =>
      simp only [Finset.mem_singleton, Bool.and_eq_true, decide_eq_true_eq]
      constructor
      · rintro ⟨_, _, rfl⟩; rfl
      · rintro rfl; exact ⟨hb, h, rfl⟩
    · next h =>
      simp only [Finset.notMem_empty, Bool.and_eq_true, decide_eq_true_eq, iff_false]
      rintro ⟨_, h1, rfl⟩; exact h h1
  rw [this]
  have ht : s.testBit b = decide (s / 2 ^ b % 2 = 1) := Nat.testBit_eq_decide_div_mod_eq
  rcases Nat.mod_two_eq_zero_or_one (s / 2 ^ b) with h | h
  · rw [if_neg (by rw [ht, h]; decide), h]; rfl
  · rw [if_pos (by rw [ht, h]; decide), h]; rfl

theorem bitCount_and_maskOf (s : Nat) (bs : List Nat) (hb : ∀ b ∈ bs, b < 64) (hn : bs.Nodup) :
    bitCount (s &&& maskOf bs) = (bs.map fun b => s / 2 ^ b % 2).sum := by
  induction bs with
  | nil => simp [maskOf, bitCount, bitPositions_zero]
  | cons b bs ih =>
    rw [List.nodup_cons] at hn
    rw [maskOf, Nat.and_or_distrib_left, bitCount_or, bitCount_and_two_pow _ _ (hb b List.mem_cons_self),
      ih (fun c hc => hb c (List.mem_cons_of_mem _ hc)) hn.2, List.map_cons, List.sum_cons]
    rw [and_zero_testBit]
    intro j hj
    rw [Nat.testBit_and, Nat.testBit_two_pow, Bool.and_eq_true, decide_eq_true_iff] at hj
    obtain ⟨_, rfl⟩ := hj
    rw [Nat.testBit_and, maskOf_testBit]
    simp [hn.1]

/-- The bit of a fermionic mode. -/
def fermionBit (hs : HilbertSpace ι) (i : ι) : Nat :=
  match hs.bitRange (ESpace.fermion i) with
  | .ok r => r.first.toNat
  | .error _ => 0

theorem fermionBit_loc {hs : HilbertSpace ι} (h : Constructed hs) (hpre : PredefinedSpaces hs) {i : ι}
    (hi : hs.has (ESpace.fermion i) = true) : Loc hs (ESpace.fermion i) (fermionBit hs i) 1 2 := by
  obtain ⟨f, nb, d, hl⟩ := loc_of_has h hi
  obtain ⟨e, he, hk, hd, hb⟩ := hl.mem
  have hem : e ∈ hs.elementarySpaces := List.mem_map.2 ⟨_, he, rfl⟩
  obtain ⟨j, hj⟩ := (hpre e hem).1 (by rw [(ESpace.key_eq_iff _ _).1 hk |>.1]; rfl)
  have h1 : nb = 1 := by rw [← hb, hj]; rfl
  have h2 : d = 2 := by rw [← hd, hj]; rfl
  subst h1 h2
  have : fermionBit hs i = f := by unfold fermionBit; rw [hl.range]; rfl
  rw [this]; exact hl

theorem occ_fermionBit {hs : HilbertSpace ι} (h : Constructed hs) (hpre : PredefinedSpaces hs) {i : ι}
    (hi : hs.has (ESpace.fermion i) = true) (s : Nat) : occ hs s (ESpace.fermion i) = s / 2 ^ fermionBit hs i % 2 := by
  rw [occ_loc (fermionBit_loc h hpre hi)]; rfl

theorem fermionBit_lt {hs : HilbertSpace ι} (h : Constructed hs) (hpre : PredefinedSpaces hs) {i : ι}
    (hi : hs.has (ESpace.fermion i) = true) : fermionBit hs i < hs.totalNBits.toNat ∧ hs.totalNBits.toNat ≤ 63 := by
  have hl := fermionBit_loc h hpre hi
  have := hl.fits
  exact ⟨by omega, hl.small⟩

theorem fermionBit_inj {hs : HilbertSpace ι} (h : Constructed hs) (hpre : PredefinedSpaces hs) {i j : ι}
    (hi : hs.has (ESpace.fermion i) = true) (hj : hs.has (ESpace.fermion j) = true) (hij : fermionBit hs i = fermionBit hs j) : i = j := by
  by_contra hne
  have := loc_disjoint h (fermionBit_loc h hpre hi) (fermionBit_loc h hpre hj) (by
    rw [Ne, ESpace.key_eq_iff]
    rintro ⟨_, _, e⟩; exact hne e)
  omega

/-- The mask of a list of modes. -/
def modeMask (hs : HilbertSpace ι) (is : List ι) : Nat := maskOf (is.map (fermionBit hs))

theorem modes_nodup {hs : HilbertSpace ι} (h : Constructed hs) (hpre : PredefinedSpaces hs) {is : List ι} (hn : is.Nodup)
    (hh : ∀ i ∈ is, hs.has (ESpace.fermion i) = true) : (is.map (fermionBit hs)).Nodup := by
  rw [List.nodup_map_iff_inj_on hn]
  intro i hi j hj
  exact fermionBit_inj h hpre (hh i hi) (hh j hj)

theorem nFermions_eq {hs : HilbertSpace ι} (h : Constructed hs) (hpre : PredefinedSpaces hs) {is : List ι} (hn : is.Nodup)
    (hh : ∀ i ∈ is, hs.has (ESpace.fermion i) = true) (s : Nat) : nFermions hs s is = bitCount (s &&& modeMask hs is) := by
  have hb : ∀ b ∈ is.map (fermionBit hs), b < 64 := by
    intro b hb
    obtain ⟨i, hi, rfl⟩ := List.mem_map.1 hb
    have := fermionBit_lt h hpre (hh i hi)
    omega
  rw [modeMask, bitCount_and_maskOf s _ hb (modes_nodup h hpre hn hh), nFermions, List.map_map]
  congr 1
  apply List.map_congr_left
  intro i hi
  exact occ_fermionBit h hpre (hh i hi) s

theorem validState_lt {hs : HilbertSpace ι} (h : Constructed hs) (hsp : hs.isSparse = false) (s : Nat) :
    ValidState hs s ↔ s < 2 ^ hs.totalNBits.toNat := by
  refine ⟨fun hv => hv.1, fun hs1 => ?_⟩
  have hc := C27_dim_counts_states hs h
  have hle : hs.vecSize ≤ hs.dim := by simpa [isSparse] using hsp
  have h63 := (C26_bit_ranges hs h).2.2.1
  have hv : hs.vecSize = 2 ^ hs.totalNBits.toNat := by unfold vecSize; rw [pow2_eq (by omega)]
  have hlen : ((List.range hs.vecSize).filter (fun s => decide (ValidState hs s))).length = (List.range hs.vecSize).length := by
    have := List.length_filter_le (fun s => decide (ValidState hs s)) (List.range hs.vecSize)
    rw [List.length_range] at this ⊢
    omega
  have := List.length_filter_eq_length_iff.1 hlen s (by rw [List.mem_range, hv]; exact hs1)
  simpa using this

/-- In a space with documented algebra IDs the fermionic modes occupy the lowest bits. -/
theorem fermion_block {hs : HilbertSpace ι} (h : Constructed hs) (hpre : PredefinedSpaces hs) (hid : DocumentedIds hs) :
    initM hs = .ok (fermionModes hs).length ∧ (fermionModes hs).map (fermionBit hs) = List.range (fermionModes hs).length ∧
    (∀ i, hs.has (ESpace.fermion i) = true ↔ i ∈ fermionModes hs) ∧ (fermionModes hs).Nodup ∧
    (fermionModes hs).length ≤ hs.totalNBits.toNat := by
  have h26 := C26_bit_ranges hs h
  obtain ⟨l, hf, rfl⟩ := h.canon
  have hel : (canon l).elementarySpaces = l := by
    unfold elementarySpaces; rw [canon_spaces, layout_fst]
  obtain ⟨_, hlook⟩ := algOf_spec l hf.sorted
  have hl : (canon l).algRanges = algOf (layout 0 l) [] := rfl
  unfold DocumentedIds at hid
  have hpre' := hpre
  unfold PredefinedSpaces at hpre'
  rw [hel] at h26 hid hpre'
  -- splitting
  have hsplit : ∀ m : List (ESpace ι), SortedES m → (∀ es ∈ m, -3 ≤ es.algebraId) →
      m = (m.filter fun es => decide (es.algebraId = -3)) ++ (m.filter fun es => decide (es.algebraId ≠ -3)) := by
    intro m
    induction m with
    | nil => intros; rfl
    | cons x m ih =>
      intro hs1 hid1
      obtain ⟨s1, s2⟩ := List.pairwise_cons.1 hs1
      have ih := ih s2 fun es hes => hid1 es (List.mem_cons_of_mem _ hes)
      by_cases hx : x.algebraId = -3
      · rw [List.filter_cons_of_pos (by simpa using hx), List.filter_cons_of_neg (by simpa using hx), List.cons_append, ← ih]
      · have hgt : ∀ es ∈ x :: m, es.algebraId ≠ -3 := by
          intro es hes
          have := hid1 x List.mem_cons_self
          rcases List.mem_cons.1 hes with rfl | hes
          · exact hx
          · have := algebraId_le_of_key (s1 es hes)
            omega
        rw [List.filter_eq_nil_iff.2 (by intro es hes; simpa using hgt es hes), List.nil_append, List.filter_eq_self.2]
        intro es hes; simpa using hgt es hes
  have hF := hsplit l hf.sorted hid
  have hmodes : fermionModes (canon l) = (l.filter fun es => decide (es.algebraId = -3)).map ESpace.indices := by
    rw [fermionModes, hel]
  have hFm : ∀ es ∈ l.filter (fun es => decide (es.algebraId = -3)), ∃ i, es = ESpace.fermion i := by
    intro es hes
    obtain ⟨h1, h2⟩ := List.mem_filter.1 hes
    exact (hpre' es h1).1 (by simpa using h2)
  generalize hFe : l.filter (fun es => decide (es.algebraId = -3)) = F at hF hmodes hFm
  generalize l.filter (fun es => decide (es.algebraId ≠ -3)) = G at hF
  have hsum : ∀ k, k ≤ F.length → ((F.take k).map ESpace.nBits).sum = k := by
    intro k hk
    have : (F.take k).map ESpace.nBits = List.replicate k 1 := by
      rw [List.eq_replicate_iff]
      refine ⟨by simp [hk], ?_⟩
      intro b hb
      obtain ⟨es, hes, rfl⟩ := List.mem_map.1 hb
      obtain ⟨i, rfl⟩ := hFm es (List.mem_of_mem_take hes)
      rfl
    rw [this]; simp
  have hM : (fermionModes (canon l)).length = F.length := by rw [hmodes, List.length_map]
  have hbit : (fermionModes (canon l)).map (fermionBit (canon l)) = List.range (fermionModes (canon l)).length := by
    apply List.ext_getElem?
    intro k
    rw [hM]
    by_cases hk : k < F.length
    · rw [List.getElem?_range hk, hmodes, List.getElem?_map, List.getElem?_map, List.getElem?_eq_getElem hk]
      simp only [Option.map_some, Option.some.injEq]
      have hlk : l[k]? = some F[k] := by rw [hF, List.getElem?_append_left hk]; exact List.getElem?_eq_getElem hk
      have hr := h26.1 k F[k] hlk
      obtain ⟨i, hi⟩ := hFm F[k] (List.getElem_mem hk)
      have htk : l.take k = F.take k := by rw [hF, List.take_append_of_le_length hk.le]
      rw [htk, hsum k hk.le] at hr
      unfold fermionBit
      have hidx : ESpace.fermion F[k].indices = F[k] := by rw [hi]; rfl
      rw [hidx, hr]
      simp
    · rw [List.getElem?_eq_none (by simp; omega), List.getElem?_eq_none (by simp [hM]; omega)]
  have hnodup : (fermionModes (canon l)).Nodup := by
    apply List.Nodup.of_map (fermionBit (canon l))
    rw [hbit]; exact List.nodup_range
  have hhas : ∀ i, (canon l).has (ESpace.fermion i) = true ↔ i ∈ fermionModes (canon l) := by
    intro i
    constructor
    · intro hi
      obtain ⟨e, he, hk, _, _⟩ := (fermionBit_loc h hpre hi).mem
      have hem : e ∈ l := by
        rw [← hel]; exact List.mem_map.2 ⟨_, he, rfl⟩
      obtain ⟨k1, _, k3⟩ := (ESpace.key_eq_iff _ _).1 hk
      rw [hmodes, ← hFe]
      exact List.mem_map.2 ⟨e, List.mem_filter.2 ⟨hem, by rw [k1]; rfl⟩, k3⟩
    · intro hi
      rw [hmodes, ← hFe] at hi
      obtain ⟨e, he, rfl⟩ := List.mem_map.1 hi
      obtain ⟨h1, h2⟩ := List.mem_filter.1 he
      obtain ⟨j, hj⟩ := (hpre' e h1).1 (by simpa using h2)
      rw [← hel] at h1
      obtain ⟨p, hp, hpe⟩ := List.mem_map.1 h1
      obtain ⟨_, _, hloc⟩ := loc_of_mem h hp (es := ESpace.fermion e.indices) (by rw [hpe, hj]; rfl)
      exact hloc.has
  refine ⟨?_, hbit, hhas, hnodup, ?_⟩
  · have hiff : (canon l).hasAlgebra (-3) = true ↔ ∃ es ∈ l, es.algebraId = -3 := by
      unfold hasAlgebra
      rw [hl, hlook]
      by_cases hex : ∃ es ∈ l, es.algebraId = -3
      · rw [if_pos hex]; simpa using hex
      · rw [if_neg hex]; simpa using hex
    unfold initM
    by_cases hex : ∃ es ∈ l, es.algebraId = -3
    · rw [if_pos (hiff.2 hex)]
      have hr : (canon l).algebraBitRange (-3) = .ok ⟨bitsBelow (-3) l, (bitsUpTo (-3) l : Int) - 1⟩ := by
        unfold algebraBitRange
        rw [hl, hlook, if_pos hex]
      rw [hr]
      have hb : bitsBelow (-3) l = 0 := by
        unfold bitsBelow
        rw [List.filter_eq_nil_iff.2]
        · rfl
        · intro es hes
          have := hid es hes
          simpa using this
      have hu : bitsUpTo (-3) l = F.length := by
        unfold bitsUpTo
        have : l.filter (fun es => decide (es.algebraId ≤ -3)) = F := by
          rw [← hFe]
          apply List.filter_congr
          intro es hes
          have := hid es hes
          apply decide_eq_decide.2
          omega
        rw [this]
        have := hsum F.length le_rfl
        rw [List.take_length] at this
        exact this
      simp only [hb, hu, hM]
      congr 1
      omega
    · rw [if_neg (by rw [hiff]; exact hex), hM]
      congr 1
      have : F = [] := by
        rw [← hFe, List.filter_eq_nil_iff]
        intro es hes
        have := fun hc => hex ⟨es, hes, hc⟩
        simpa using this
      rw [this]; rfl
  · rw [hM, canon_total, Int.toNat_natCast, hF]
    have := hsum F.length le_rfl
    rw [List.take_length] at this
    rw [bitSum_append]
    have h2 : bitSum F = F.length := this
    omega

theorem maskOf_range (M : Nat) : maskOf (List.range M) = 2 ^ M - 1 := by
  apply Nat.eq_of_testBit_eq
  intro j
  rw [maskOf_testBit, Nat.testBit_two_pow_sub_one]
  simp

/-! ### Ranking algorithms -/

/-- A ranking algorithm is correct if it agrees with the combination ranking on the states of every sector it supports. -/
class LawfulRanking (R : Type _) [RankingAlg R] where
  supports : SectorParams → Prop
  rank_eq : ∀ p : SectorParams, p.Valid → supports p → ∀ s, InSector p.M p.N s →
    RankingAlg.rank (RankingAlg.make p : R) s = (CombRanking.make p).rank s

instance : LawfulRanking CombRanking := ⟨fun _ => True, fun _ _ _ _ _ => rfl⟩

instance (K : Nat) [NeZero K] : LawfulRanking (Staggered K) :=
  ⟨fun _ => True, fun p hp _ s hs => (C49_staggered_ranking K (Nat.pos_of_ne_zero (NeZero.ne K)) p hp s hs).1⟩

theorem rank_enum [RankingAlg R] [LawfulRanking R] (p : SectorParams) (h : p.Valid) (hsup : LawfulRanking.supports R p) {s : Nat}
    (hs : InSector p.M p.N s) : RankingAlg.rank (RankingAlg.make p : R) s = some (combRk p s) := by
  rw [LawfulRanking.rank_eq p h hsup s hs, combRk_eq p h hs]

/-! ### The sector view -/

theorem sectorStates_eq (p : SectorParams) (hp : p.Good) (T : Nat) (hT : T ≤ 63) (hMT : p.M ≤ T) (hmask : p.mask = 2 ^ p.M - 1) :
    ∃ l, sectorStates p.M (T - p.M) (UnrankGen.make p) = some l ∧ l.length = Nat.choose p.M p.N * 2 ^ (T - p.M) ∧
      Enumerates l (fun s => s < 2 ^ T ∧ bitCount (s &&& p.mask) = p.N)
        (fun s => combRk p (extractBits s p.mask) * 2 ^ (T - p.M) + s / 2 ^ p.M) := by
  obtain ⟨l, g', h1, h2, h3⟩ := unranked_enum p hp.valid hp.exact_
  have hM := hp.valid.1
  have hpw : p.mask < W64 := hp.mask
  have hnmb : bitPositions ((2 ^ (T - p.M) - 1) * 2 ^ p.M) = List.range' p.M (T - p.M) := bitPositions_block (by omega)
  have hnmc : bitCount ((2 ^ (T - p.M) - 1) * 2 ^ p.M) = T - p.M := by unfold bitCount; rw [hnmb, List.length_range']
  have hu : unionMask [p] = 2 ^ p.M - 1 := by rw [← hmask]; simp [unionMask]
  have hnm : ∀ j, ((2 ^ (T - p.M) - 1) * 2 ^ p.M).testBit j = decide (p.M ≤ j ∧ j < T) := by
    intro j
    rw [← Nat.shiftLeft_eq, Nat.testBit_shiftLeft, Nat.testBit_two_pow_sub_one]
    by_cases hj : p.M ≤ j
    · simp only [hj, decide_true, Bool.true_and, true_and]
      apply decide_eq_decide.2; omega
    · simp [hj]
  have henum := full_enum [p] (by intro q hq; simp at hq; subst hq; exact hp) (List.pairwise_singleton _ _) T
    ((2 ^ (T - p.M) - 1) * 2 ^ p.M) hT
    (by
      rw [hu, and_zero_testBit]
      intro j hj
      rw [Nat.testBit_two_pow_sub_one] at hj
      rw [hnm]; simp at hj ⊢; omega)
    (by
      rw [hu]
      apply Nat.eq_of_testBit_eq
      intro j
      rw [Nat.testBit_or, Nat.testBit_two_pow_sub_one, Nat.testBit_two_pow_sub_one, hnm]
      rw [Bool.eq_iff_iff]; simp; omega)
  have hw : sectorWords p = l := by
    unfold sectorWords
    rw [h1]
    simp only
    conv_rhs => rw [← List.map_id l]
    apply List.map_congr_left
    intro x hx
    have hxs := ((h3.mem x).1 hx).1
    have he : extractBits x p.mask = x := by
      have := extractBits_block (g := 0) (w := p.M) (by omega) x
      rw [pow_zero, Nat.mul_one, Nat.div_one] at this
      rw [hmask, this, Nat.mod_eq_of_lt hxs]
    have := deposit_extract x p.mask hpw
    rw [he] at this
    rw [this, hmask, Nat.and_two_pow_sub_one_eq_mod, Nat.mod_eq_of_lt hxs]; rfl
  have hlex : lexList ([p].map sectorWords) = l := by
    simp only [List.map_cons, List.map_nil, lexList, hw, Nat.add_zero]
    simp
  rw [hlex, hnmc] at henum
  refine ⟨_, ?_, ?_, henum.congr (fun s => ?_) fun s hs => ?_⟩
  · rw [sectorStates, init_make, h1]
    simp only [Option.some.injEq]
    rw [pow2_eq (by omega)]
    apply List.flatMap_congr
    intro u _
    apply List.map_congr_left
    intro x hx
    rw [List.mem_range] at hx
    have hxl : x <<< p.M < 2 ^ T := by
      rw [Nat.shiftLeft_eq]
      calc x * 2 ^ p.M < 2 ^ (T - p.M) * 2 ^ p.M := Nat.mul_lt_mul_of_pos_right hx (Nat.two_pow_pos _)
        _ = 2 ^ T := by rw [← pow_add]; congr 1; omega
    have hTW : 2 ^ T ≤ W64 := Nat.pow_le_pow_right (by decide) (by omega)
    rw [Nat.mod_eq_of_lt (by omega)]
    have he : extractBits (x <<< p.M) ((2 ^ (T - p.M) - 1) * 2 ^ p.M) = x := by
      rw [extractBits_block (by omega), Nat.shiftLeft_eq, Nat.mul_div_cancel _ (Nat.two_pow_pos _), Nat.mod_eq_of_lt hx]
    have := deposit_extract (x <<< p.M) ((2 ^ (T - p.M) - 1) * 2 ^ p.M) (block_lt (by omega))
    rw [he] at this
    rw [this]
    have hsub : x <<< p.M &&& ((2 ^ (T - p.M) - 1) * 2 ^ p.M) = x <<< p.M := by
      rw [and_self_testBit]
      intro j hj
      rw [hnm, decide_eq_true_iff]
      refine ⟨?_, ?_⟩
      · rw [Nat.testBit_shiftLeft] at hj; simp at hj; exact hj.1
      · by_contra hc
        rw [testBit_of_lt hxl (by omega)] at hj; cases hj
    rw [hsub]
  · simp only [List.length_flatMap, List.length_map, List.length_range, List.map_const', List.sum_replicate, smul_eq_mul, h2]
  · simp
  · rw [multiRk, multiRk]
    have : multiSizeOf ([] : List SectorParams) = 1 := rfl
    rw [this, Nat.mul_one, Nat.add_zero]
    congr 1
    rw [extractBits_block (by omega)]
    apply Nat.mod_eq_of_lt
    rw [Nat.div_lt_iff_lt_mul (Nat.two_pow_pos _), ← pow_add]
    rw [show T - p.M + p.M = T by omega]
    exact hs.1

instance SectorView.viewOf [AddCommMonoid T] [DecidableEq T] [StateVec V T] [RankingAlg R] : ViewOf (SectorView V R) V T where
  base x := x.sv
  put x v := { x with sv := v }
  idx x n := x.mapIndex n
  states x := match x.visit with
    | none => []
    | some l => l.zipIdx
  base_put _ _ := rfl
  put_base _ := rfl
  put_put _ _ _ := rfl
  idx_put _ _ := rfl
  states_put _ _ := rfl
  get_eq x n k h := by simp only [StateVec.getElement, h]
  upd_eq x n k a h := by simp only [StateVec.updateAdd, h]; rfl
  zero_eq _ := rfl

instance MultiView.viewOf [AddCommMonoid T] [DecidableEq T] [StateVec V T] [RankingAlg R] : ViewOf (MultiView V R) V T where
  base x := x.sv
  put x v := { x with sv := v }
  idx x n := x.mapIndex n
  states x := match x.visit with
    | none => []
    | some l => l.zipIdx
  base_put _ _ := rfl
  put_base _ := rfl
  put_put _ _ _ := rfl
  idx_put _ _ := rfl
  states_put _ _ := rfl
  get_eq x n k h := by simp only [StateVec.getElement, h]
  upd_eq x n k a h := by simp only [StateVec.updateAdd, h]; rfl
  zero_eq _ := rfl

/-- A view that stores the amplitude of the `i`-th element of a list at position `i`. -/
theorem view_good {X : Type _} [AddCommMonoid T] [DecidableEq T] [StateVec V T] [LawfulSV V T] [StateVec X T] [ViewOf X V T] (x : X)
    (L : List Nat) (hst : ViewOf.states x = L.zipIdx) (hidx : ∀ i s, L[i]? = some s → ViewOf.idx x s = .ok i) (hn : L.Nodup)
    (hinv : LawfulSV.inv (ViewOf.base x)) (hdom : ∀ i < L.length, i ∈ LawfulSV.dom (ViewOf.base x))
    (each : ∀ v, StateVec.foreach (ViewOf.put x v) = viewForeach v (ViewOf.states x)) :
    LawfulSV.inv x ∧ (∀ n, n ∈ LawfulSV.dom x ↔ n ∈ L) ∧
      ∀ i n, L[i]? = some n → LawfulSV.amp x n = LawfulSV.amp (ViewOf.base x) i := by
  have hmem : ∀ p, p ∈ ViewOf.states x ↔ L[p.2]? = some p.1 := by
    intro p; rw [hst]; exact List.mem_zipIdx_iff_getElem?
  have hfst : (ViewOf.states x).map Prod.fst = L := by rw [hst, List.zipIdx_map_fst]
  have hgood : ViewOf.Good x := by
    refine ⟨hinv, by rw [hfst]; exact hn, fun p hp => hidx _ _ ((hmem p).1 hp), ?_, ?_, each⟩
    · intro p hp q hq hpq
      have a := (hmem p).1 hp
      have b := (hmem q).1 hq
      rw [hpq, b] at a
      exact Prod.ext (Option.some.inj a).symm hpq
    · intro p hp
      exact hdom _ (List.getElem?_eq_some_iff.1 ((hmem p).1 hp)).1
  refine ⟨hgood, fun n => ?_, fun i n hi => ?_⟩
  · show n ∈ (ViewOf.states x).map Prod.fst ↔ _
    rw [hfst]
  · show ViewOf.vamp x n = _
    rw [ViewOf.vamp_of_mem hgood (p := (n, i)) ((hmem _).2 hi)]

end LC
