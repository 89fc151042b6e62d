import Verif.Proof.MultiView
import Verif.Props.Sector
import Mathlib.Data.Nat.Choose.Vandermonde
/-
C52: `n_fermion_multisector_view`, `n_fermion_multisector_size`, `n_fermion_multisector_basis_states`.
-/
set_option linter.unusedSectionVars false
set_option linter.unusedVariables false
namespace LC
open HilbertSpace
variable {ι T V R : Type _} [LinearOrder ι]

theorem low_bits {hs : HilbertSpace ι} (h : Constructed hs) (hpre : PredefinedSpaces hs) {l : List (SectorDesc ι)}
    (hp : ProperSectors hs l) (hlow : LowModes hs l) : ∀ d ∈ l, ∀ i ∈ d.indices, fermionBit hs i < 32 := by
  intro d hd i hi
  obtain ⟨r, h1, h2⟩ := bitRange_fermionBit h hpre (hp.inSpace d hd i hi)
  have := hlow d hd i hi r h1
  omega

theorem len_le {hs : HilbertSpace ι} (h : Constructed hs) (hpre : PredefinedSpaces hs) {l : List (SectorDesc ι)} (hset : SetIndices l)
    (hp : ProperSectors hs l) (hlow : LowModes hs l) : ∀ d ∈ l, d.indices.length ≤ 32 := by
  intro d hd
  have hn := modes_nodup h hpre ((hset d hd).imp fun hab => ne_of_lt hab) (hp.inSpace d hd)
  have : (d.indices.map (fermionBit hs)).Subperm (List.range 32) := by
    apply List.subperm_of_subset hn
    intro b hb
    obtain ⟨i, hi, rfl⟩ := List.mem_map.1 hb
    exact List.mem_range.2 (low_bits h hpre hp hlow d hd i hi)
  have := this.length_le
  rwa [List.length_map, List.length_range] at this

theorem total_modes_lt {hs : HilbertSpace ι} (h : Constructed hs) (hpre : PredefinedSpaces hs) {l : List (SectorDesc ι)} (hset : SetIndices l)
    (hp : ProperSectors hs l) (n : Nat) (hn : ∀ d ∈ l, ∀ i ∈ d.indices, fermionBit hs i < n) : (l.map fun d => d.indices.length).sum ≤ n := by
  have hnd : (l.flatMap fun d => d.indices).Nodup := by
    rw [List.nodup_flatMap]
    exact ⟨fun d hd => (hset d hd).imp fun hab => ne_of_lt hab, hp.disjoint.imp fun {a b} hab i hi hj => hab i hi hj⟩
  have hh : ∀ i ∈ l.flatMap fun d => d.indices, hs.has (ESpace.fermion i) = true := by
    intro i hi
    obtain ⟨d, hd, hi⟩ := List.mem_flatMap.1 hi
    exact hp.inSpace d hd i hi
  have : ((l.flatMap fun d => d.indices).map (fermionBit hs)).Subperm (List.range n) := by
    apply List.subperm_of_subset (modes_nodup h hpre hnd hh)
    intro b hb
    obtain ⟨i, hi, rfl⟩ := List.mem_map.1 hb
    obtain ⟨d, hd, hi⟩ := List.mem_flatMap.1 hi
    exact List.mem_range.2 (hn d hd i hi)
  have := this.length_le
  rwa [List.length_map, List.length_range, List.length_flatMap] at this

theorem total_modes {hs : HilbertSpace ι} (h : Constructed hs) (hpre : PredefinedSpaces hs) {l : List (SectorDesc ι)} (hset : SetIndices l)
    (hp : ProperSectors hs l) : (l.map fun d => d.indices.length).sum ≤ hs.totalNBits.toNat :=
  total_modes_lt h hpre hset hp _ fun d hd i hi => (fermionBit_lt h hpre (hp.inSpace d hd i hi)).1

theorem choose_mul_le (a b c d : Nat) : Nat.choose a b * Nat.choose c d ≤ Nat.choose (a + c) (b + d) := by
  rw [Nat.add_choose_eq]
  exact Finset.single_le_sum (f := fun ij : Nat × Nat => a.choose ij.1 * c.choose ij.2) (fun _ _ => Nat.zero_le _)
    (a := (b, d)) (Finset.mem_antidiagonal.2 rfl)

theorem sectorProduct_le (l : List (SectorDesc ι)) :
    sectorProduct l ≤ Nat.choose (l.map fun d => d.indices.length).sum (l.map SectorDesc.N).sum := by
  induction l with
  | nil => simp [sectorProduct]
  | cons d l ih =>
    rw [List.map_cons, List.sum_cons, List.map_cons, List.sum_cons]
    refine le_trans ?_ (choose_mul_le _ _ _ _)
    unfold sectorProduct at ih ⊢
    rw [List.map_cons, List.prod_cons]
    exact Nat.mul_le_mul_left _ ih

theorem choose_32_16 : Nat.choose 32 (32 / 2) < 2 ^ 31 := by
  rw [Nat.choose_eq_factorial_div_factorial (by decide)]; decide +kernel

/-- With at most 32 bits for all modes, the number of distributions always fits into an `int`. -/
theorem sectorProduct_lt {hs : HilbertSpace ι} (h : Constructed hs) (hpre : PredefinedSpaces hs) {l : List (SectorDesc ι)} (hset : SetIndices l)
    (hp : ProperSectors hs l) (hlow : LowModes hs l) : sectorProduct l < 2 ^ 31 := by
  have h32 := total_modes_lt h hpre hset hp 32 (low_bits h hpre hp hlow)
  exact (((sectorProduct_le l).trans (Nat.choose_le_choose _ h32)).trans (Nat.choose_le_middle _ 32)).trans_lt choose_32_16

theorem multiSizeLoop_eq (l : List (SectorDesc ι)) (hN : ∀ d ∈ l, d.N ≤ d.indices.length) (M size : Nat)
    (hM : M + (l.map fun d => d.indices.length).sum ≤ 62 ∨ (∀ d ∈ l, d.indices.length ≤ 62) ∧ M + (l.map fun d => d.indices.length).sum < 2 ^ 32)
    (hs : size * sectorProduct l < W64) :
    multiSizeLoop l M size = some (M + (l.map fun d => d.indices.length).sum, size * sectorProduct l) := by
  induction l generalizing M size with
  | nil => simp [multiSizeLoop, sectorProduct]
  | cons d l ih =>
    have hd := hN d List.mem_cons_self
    have hpr : sectorProduct (d :: l) = Nat.choose d.indices.length d.N * sectorProduct l := by simp [sectorProduct]
    rw [hpr, ← Nat.mul_assoc] at hs ⊢
    rw [List.map_cons, List.sum_cons] at hM ⊢
    have hlen : d.indices.length ≤ 62 := by
      rcases hM with hM | hM
      · omega
      · exact hM.1 d List.mem_cons_self
    have hpos : 0 < sectorProduct l := by
      unfold sectorProduct
      apply Nat.pos_of_ne_zero
      intro hc
      rw [List.prod_eq_zero_iff] at hc
      obtain ⟨e, he, h0⟩ := List.mem_map.1 hc
      have := Nat.choose_pos (hN e (List.mem_cons_of_mem _ he))
      omega
    have hm : size * Nat.choose d.indices.length d.N < W64 := (Nat.le_mul_of_pos_right _ hpos).trans_lt hs
    have h32 : M + d.indices.length < 2 ^ 32 := by rcases hM with hM | hM <;> omega
    rw [multiSizeLoop, if_neg (by omega), binomial_eq_choose _ _ hlen, mul64, Nat.mod_eq_of_lt hm, Nat.mod_eq_of_lt h32,
      ih (fun e he => hN e (List.mem_cons_of_mem _ he)) _ _ _ hs, Nat.add_assoc]
    rcases hM with hM | hM
    · left; omega
    · right; exact ⟨fun e he => hM.1 e (List.mem_cons_of_mem _ he), by omega⟩

/-- The parameters of the non-empty sectors. -/
def paramsOf (hs : HilbertSpace ι) (l : List (SectorDesc ι)) : List SectorParams :=
  (l.filter fun d => decide (d.indices ≠ [])).map (toParams hs)

theorem multiSizeOf_paramsOf (hs : HilbertSpace ι) (l : List (SectorDesc ι)) (hN : ∀ d ∈ l, d.N ≤ d.indices.length) :
    multiSizeOf (paramsOf hs l) = sectorProduct l ∧ ((paramsOf hs l).map SectorParams.M).sum = (l.map fun d => d.indices.length).sum := by
  induction l with
  | nil => exact ⟨rfl, rfl⟩
  | cons d l ih =>
    obtain ⟨i1, i2⟩ := ih fun e he => hN e (List.mem_cons_of_mem _ he)
    have hd := hN d List.mem_cons_self
    have hpr : sectorProduct (d :: l) = Nat.choose d.indices.length d.N * sectorProduct l := by simp [sectorProduct]
    rw [hpr, List.map_cons, List.sum_cons]
    by_cases he : d.indices = []
    · have : paramsOf hs (d :: l) = paramsOf hs l := by
        unfold paramsOf; rw [List.filter_cons_of_neg (by simpa using he)]
      rw [this, i1, i2]
      rw [he] at hd ⊢
      simp only [List.length_nil, Nat.le_zero] at hd
      simp [hd]
    · have : paramsOf hs (d :: l) = toParams hs d :: paramsOf hs l := by
        unfold paramsOf; rw [List.filter_cons_of_pos (by simpa using he)]; rfl
      rw [this, multiSizeOf_cons, List.map_cons, List.sum_cons, i1, i2]
      exact ⟨rfl, rfl⟩

/-- What the multisector functions compute, in one place. -/
theorem multi_core_all {hs : HilbertSpace ι} (h : Constructed hs) (hpre : PredefinedSpaces hs)
    (hsp : hs.isSparse = false) {l : List (SectorDesc ι)} (hset : SetIndices l) (hp : ProperSectors hs l)
    (hlow : LowModes hs l) (hN : ∀ d ∈ l, d.N ≤ d.indices.length) :
    ∃ (ps : List SectorParams) (T nm : Nat) (st : List Nat), ps = paramsOf hs l ∧ (∀ p ∈ ps, p.Good) ∧ makeSectorParams hs l = .ok ps ∧
      hs.totalNBits = T ∧ T ≤ 63 ∧ nonMultiMask hs ps = (bitCount nm, nm) ∧ nm < W64 ∧
      multiStates (MultiGen.make ps) (bitCount nm) nm = some st ∧
      st.length = sectorProduct l * 2 ^ bitCount nm ∧ T = (l.map fun d => d.indices.length).sum + bitCount nm ∧
      Enumerates st (InMultiSector hs l) (fun s => multiRk ps s * 2 ^ bitCount nm + extractBits s nm) ∧
      (∀ s, InMultiSector hs l s → ∀ p ∈ ps, bitCount (s &&& p.mask) = p.N) ∧
      DisjointMasks ps ∧ (∀ s ∈ lexList (ps.map sectorWords), s < W64) ∧ multiSizeOf ps < 2 ^ 31 := by
  have hsz := sectorProduct_lt h hpre hset hp hlow
  have h26 := C26_bit_ranges hs h
  have h63 := h26.2.2.1
  obtain ⟨T, hT⟩ : ∃ T : Nat, hs.totalNBits = T := ⟨_, h26.2.1⟩
  rw [hT] at h63
  have hlowb := low_bits h hpre hp hlow
  have htm := total_modes h hpre hset hp
  rw [hT, Int.toNat_natCast] at htm
  have hmem : ∀ p ∈ paramsOf hs l, ∃ d ∈ l, d.indices ≠ [] ∧ p = toParams hs d := by
    intro p hpm
    obtain ⟨d, hd, rfl⟩ := List.mem_map.1 hpm
    obtain ⟨h1, h2⟩ := List.mem_filter.1 hd
    exact ⟨d, h1, by simpa using h2, rfl⟩
  have hgood : ∀ p ∈ paramsOf hs l, p.Good := by
    intro p hpm
    obtain ⟨d, hd, _, rfl⟩ := hmem p hpm
    exact toParams_good h hpre d (hset d hd) (hp.inSpace d hd) (hlowb d hd) (hN d hd)
  have hmk : makeSectorParams hs l = .ok (paramsOf hs l) := by
    unfold makeSectorParams
    rw [validateSectors_iff hs l hset (by omega), if_pos hp.inSpace, if_pos hp.disjoint]
    simp only
    rw [paramsLoop_ok h hpre l hset hp.inSpace hlowb hN]
    rfl
  have hdis : DisjointMasks (paramsOf hs l) := by
    unfold DisjointMasks paramsOf
    rw [List.pairwise_map]
    apply (List.Pairwise.sublist List.filter_sublist (List.Pairwise.and_mem.1 hp.disjoint)).imp
    rintro d e ⟨hd, he, hde⟩
    rw [and_zero_testBit]
    intro j hj
    simp only [toParams, modeMask, maskOf_testBit, decide_eq_true_eq, decide_eq_false_iff_not, List.mem_map] at hj ⊢
    obtain ⟨i, hi, rfl⟩ := hj
    rintro ⟨i', hi', hb⟩
    have := fermionBit_inj h hpre (hp.inSpace _ he _ hi') (hp.inSpace _ hd _ hi) hb
    subst this
    exact hde _ hi hi'
  have hsub : unionMask (paramsOf hs l) &&& (2 ^ T - 1) = unionMask (paramsOf hs l) := by
    rw [and_self_testBit]
    intro j hj
    obtain ⟨p, hpm, hb⟩ := (unionMask_testBit _ j).1 hj
    obtain ⟨d, hd, _, rfl⟩ := hmem p hpm
    simp only [toParams, modeMask, maskOf_testBit, decide_eq_true_eq, List.mem_map] at hb
    obtain ⟨i, hi, rfl⟩ := hb
    rw [Nat.testBit_two_pow_sub_one]
    have := fermionBit_lt h hpre (hp.inSpace d hd i hi)
    rw [hT, Int.toNat_natCast] at this
    simpa using this.1
  have hTW : 2 ^ T - 1 < W64 := by
    have : 2 ^ T ≤ 2 ^ 63 := Nat.pow_le_pow_right (by decide) (by omega)
    have : (2 : Nat) ^ 63 < W64 := by decide
    omega
  obtain ⟨nm, n1, n2, n3⟩ := nonMultiMask_fold (paramsOf hs l) hgood hdis T (2 ^ T - 1) (by omega) hTW (by rw [bitCount_ones (by omega)]) hsub
  have hnm : nm < W64 := by
    rw [← n3] at hTW
    exact Nat.right_le_or.trans_lt hTW
  obtain ⟨c1, c2⟩ := multiSizeOf_paramsOf hs l hN
  have hTsum : T = (l.map fun d => d.indices.length).sum + bitCount nm := by
    rw [← c2, ← bitCount_unionMask _ hgood hdis, ← bitCount_or n2, n3, bitCount_ones (by omega)]
  obtain ⟨x1, x2⟩ := lex_enum _ hgood hdis
  have hW : ∀ s ∈ lexList ((paramsOf hs l).map sectorWords), s < W64 := by
    intro s hs1
    have h1 := ((x2.mem s).1 hs1).1
    have h2 : unionMask (paramsOf hs l) < W64 := by
      rw [← n3] at hTW
      exact Nat.left_le_or.trans_lt hTW
    rw [← h1]
    exact Nat.and_le_right.trans_lt h2
  have hdr := MultiGen.drain_after hgood hdis hW (by rw [c1]; exact hsz.trans (by decide)) (multiSizeOf (paramsOf hs l)) 0
    (MultiGen.make (paramsOf hs l)).init W64 (MultiGen.make_after hgood (by rw [c1]; exact hsz)) (by omega)
    (by rw [c1]; exact (hsz.trans (by decide)).le)
  rw [List.drop_zero] at hdr
  have hP : ∀ s, (s < 2 ^ T ∧ ∀ p ∈ paramsOf hs l, bitCount (s &&& p.mask) = p.N) ↔ InMultiSector hs l s := by
    intro s
    unfold InMultiSector
    rw [validState_lt h hsp, hT, Int.toNat_natCast]
    refine and_congr_right fun _ => ⟨fun hall d hd => ?_, fun hall p hpm => ?_⟩
    · by_cases he : d.indices = []
      · have := hN d hd
        rw [he] at this ⊢
        simp only [List.length_nil, Nat.le_zero] at this
        rw [this]; rfl
      · rw [nFermions_eq h hpre ((hset d hd).imp fun hab => ne_of_lt hab) (hp.inSpace d hd)]
        exact hall (toParams hs d) (List.mem_map.2 ⟨d, List.mem_filter.2 ⟨hd, by simpa using he⟩, rfl⟩)
    · obtain ⟨d, hd, _, rfl⟩ := hmem p hpm
      have := hall d hd
      rw [nFermions_eq h hpre ((hset d hd).imp fun hab => ne_of_lt hab) (hp.inSpace d hd)] at this
      exact this
  refine ⟨_, T, nm, _, rfl, hgood, hmk, hT, by omega, ?_, hnm, ?_, ?_, hTsum,
    (full_enum _ hgood hdis T nm (by omega) n2 n3).congr hP fun _ _ => rfl, fun s hs1 => ((hP s).2 hs1).2, hdis, hW, by rw [c1]; exact hsz⟩
  · unfold nonMultiMask
    rw [hT, Int.toNat_natCast, ones_eq (by omega)]
    exact n1
  · unfold multiStates
    rw [hdr, pow2_eq (by omega)]
  · rw [List.length_flatMap]
    simp only [List.length_map, List.length_range, List.map_const', List.sum_replicate, smul_eq_mul, x1, c1]

theorem multi_core {hs : HilbertSpace ι} (h : Constructed hs) (hpre : PredefinedSpaces hs)
    (hsp : hs.isSparse = false) {l : List (SectorDesc ι)} (hset : SetIndices l) (hp : ProperSectors hs l)
    (hlow : LowModes hs l) (hN : ∀ d ∈ l, d.N ≤ d.indices.length) :
    ∃ (ps : List SectorParams) (T nm : Nat) (st : List Nat), ps = paramsOf hs l ∧ (∀ p ∈ ps, p.Good) ∧ makeSectorParams hs l = .ok ps ∧
      hs.totalNBits = T ∧ T ≤ 63 ∧ nonMultiMask hs ps = (bitCount nm, nm) ∧ nm < W64 ∧
      multiStates (MultiGen.make ps) (bitCount nm) nm = some st ∧
      st.length = sectorProduct l * 2 ^ bitCount nm ∧ T = (l.map fun d => d.indices.length).sum + bitCount nm ∧
      Enumerates st (InMultiSector hs l) (fun s => multiRk ps s * 2 ^ bitCount nm + extractBits s nm) ∧
      ∀ s, InMultiSector hs l s → ∀ p ∈ ps, bitCount (s &&& p.mask) = p.N := by
  obtain ⟨ps, T, nm, st, a1, a2, a3, a4, a5, a6, a7, a8, a9, a10, a11, a12, -⟩ := multi_core_all h hpre hsp hset hp hlow hN
  exact ⟨ps, T, nm, st, a1, a2, a3, a4, a5, a6, a7, a8, a9, a10, a11, a12⟩

/-- **C52** For a non-sparse Hilbert space and a list of sectors with disjoint sets of modes: the list returned by
`n_fermion_multisector_basis_states` contains exactly the basis states with the prescribed numbers of fermions in each sector, each
once; its length is `n_fermion_multisector_size`; and for a view made with any ranking algorithm `map_index` sends the `i`-th state of
that list to `i`. The bits of the modes have to be below 32 (F7) and the
dimension of the space larger than one (F14). -/
theorem C52_multisector_partial [RankingAlg R] [LawfulRanking R] (hs : HilbertSpace ι) (h : Constructed hs) (hpre : PredefinedSpaces hs)
    (hsp : hs.isSparse = false) (hbits : hs.totalNBits ≠ 0) (l : List (SectorDesc ι)) (hset : SetIndices l) (hp : ProperSectors hs l)
    (hlow : LowModes hs l) (hN : ∀ d ∈ l, d.N ≤ d.indices.length)
    (hsup : ∀ p : SectorParams, p.M ≤ 32 → LawfulRanking.supports R p) :
    ∃ st, multiBasisStates hs l = .ok st ∧ st.Nodup ∧ (∀ s, s ∈ st ↔ InMultiSector hs l s) ∧ multiSize hs l = .ok st.length ∧
      ∀ sv : V, ∃ v : MultiView V R, MultiView.make sv hs l = .ok v ∧ st.map v.mapIndex = (List.range st.length).map .ok := by
  obtain ⟨ps, T, nm, st, hps, hg, hmk, hT, hT63, hnmm, hnm, e1, e2, e3, e4, e5⟩ := multi_core h hpre hsp hset hp hlow hN
  have hsz := sectorProduct_lt h hpre hset hp hlow
  have hT0 : 0 < T := by omega
  have hlenW : st.length ≤ 2 ^ T := by
    have h1 : ∀ s ∈ st, s < 2 ^ T := by
      intro s hs1
      have := ((e4.mem s).1 hs1).1
      rw [validState_lt h hsp, hT, Int.toNat_natCast] at this
      exact this
    have : st.Subperm (List.range (2 ^ T)) := List.subperm_of_subset e4.nodup fun s hs1 => List.mem_range.2 (h1 s hs1)
    have := this.length_le
    simpa using this
  have h2T : 2 ^ T < W64 := (Nat.pow_le_pow_right (by decide) hT63).trans_lt (by decide : (2 : Nat) ^ 63 < W64)
  have hnz : ¬ (ps.length = 0 ∧ bitCount nm = 0) := by
    rintro ⟨c1, c2⟩
    have : (l.map fun d => d.indices.length).sum = 0 := by
      rw [← (multiSizeOf_paramsOf hs l hN).2, ← hps, List.length_eq_zero_iff.1 c1]; rfl
    omega
  refine ⟨st, ?_, e4.nodup, fun s => e4.mem s, ?_, fun sv => ?_⟩
  · unfold multiBasisStates
    rw [hsp, hmk]
    simp only [Bool.false_eq_true, if_false, hnmm, e1]
    rw [if_neg (by omega)]
  · unfold multiSize
    rw [hsp, validateSectors_iff hs l hset (by omega), if_pos hp.inSpace, if_pos hp.disjoint]
    simp only [Bool.false_eq_true, if_false]
    rw [if_neg hbits]
    have hM : ∀ d ∈ l, d.indices.length ≤ 62 := by
      intro d hd
      have := len_le h hpre hset hp hlow d hd
      omega
    rw [multiSizeLoop_eq l hN 0 1 (Or.inr ⟨hM, by omega⟩) (by rw [Nat.one_mul]; exact hsz.trans (by decide))]
    simp only [hT, Int.toNat_natCast, Nat.zero_add, Nat.one_mul]
    have h32 : sub32 T ((l.map fun d => d.indices.length).sum) = bitCount nm := by
      rw [sub32]; omega
    rw [h32, pow2_eq (by omega), mul64, ← e2, Nat.mod_eq_of_lt (by omega)]
  · refine ⟨⟨sv, ps, ps.map RankingAlg.make, sectorStrides ps, MultiGen.make ps, (nonMultiMask hs ps).1, (nonMultiMask hs ps).2⟩, ?_, ?_⟩
    · unfold MultiView.make
      rw [hmk]
      simp only [hsp, Bool.false_eq_true, if_false]
    · apply List.ext_getElem?
      intro i
      rw [List.getElem?_map, List.getElem?_map]
      by_cases hi : i < st.length
      · rw [List.getElem?_range hi, List.getElem?_eq_getElem hi]
        simp only [Option.map_some, Option.some.injEq]
        obtain ⟨q1, q2⟩ := (e4 i st[i]).1 (List.getElem?_eq_getElem hi)
        have hrk := e4.rk_lt q1
        have hlt : multiRk ps st[i] * 2 ^ bitCount nm < W64 := by omega
        have hlt' : multiRk ps st[i] < W64 := (Nat.le_mul_of_pos_right _ (Nat.two_pow_pos _)).trans_lt hlt
        unfold MultiView.mapIndex
        simp only [hnmm]
        rw [multiMapLoop_eq ps hg (fun p hpm => hsup p ?_) ?_ _ (e5 _ q1) 0 (by omega)]
        · simp only [Nat.zero_add]
          rw [Nat.shiftLeft_eq, Nat.mod_eq_of_lt hlt, add64, Nat.mod_eq_of_lt (by omega)]
          exact congrArg _ q2
        · rw [hps, (multiSizeOf_paramsOf hs l hN).1]; exact hsz.trans (by decide)
        · rw [hps] at hpm
          obtain ⟨d, hd, rfl⟩ := List.mem_map.1 hpm
          exact len_le h hpre hset hp hlow d (List.mem_filter.1 hd).1
      · rw [List.getElem?_eq_none (by omega), List.getElem?_eq_none (by simp; omega)]; rfl

/-- The states visited by `foreach` of a multisector view, and the adapted vector. -/
theorem multi_visit [RankingAlg R] {hs : HilbertSpace ι} (h : Constructed hs) (hpre : PredefinedSpaces hs)
    (hsp : hs.isSparse = false) (hbits : hs.totalNBits ≠ 0) {l : List (SectorDesc ι)} (hset : SetIndices l) (hp : ProperSectors hs l)
    (hlow : LowModes hs l) (hN : ∀ d ∈ l, d.N ≤ d.indices.length) {st : List Nat} (hl : multiBasisStates hs l = .ok st) {sv : V}
    {v : MultiView V R} (v1 : MultiView.make sv hs l = .ok v) : v.visit = some st ∧ v.sv = sv := by
  obtain ⟨ps, T, nm, st', hps, hg, hmk, hT, hT63, hnmm, hnm, e1, e2, e3, e4, e5⟩ := multi_core h hpre hsp hset hp hlow hN
  have hnz : ¬ (ps.length = 0 ∧ bitCount nm = 0) := by
    rintro ⟨c1, c2⟩
    have : (l.map fun d => d.indices.length).sum = 0 := by
      rw [← (multiSizeOf_paramsOf hs l hN).2, ← hps, List.length_eq_zero_iff.1 c1]; rfl
    omega
  unfold MultiView.make at v1
  unfold multiBasisStates at hl
  rw [hsp, hmk] at v1 hl
  simp only [Bool.false_eq_true, if_false, hnmm, e1] at v1 hl
  rw [if_neg (by omega)] at hl
  cases v1
  cases hl
  refine ⟨?_, rfl⟩
  unfold MultiView.visit
  simp only
  rw [if_neg hnz, e1]

variable [AddCommMonoid T] [DecidableEq T] [StateVec V T] [LawfulSV V T]

/-- **C52** `foreach` of a multisector view calls the functor on the states of `n_fermion_multisector_basis_states` in this order, the
`i`-th of them paired with the amplitude stored at position `i`, skipping zero amplitudes. The view behaves as a state vector:
it addresses the states of the multisector, and the amplitude of the `i`-th one is the stored amplitude at position `i`. -/
theorem C52_view_partial [RankingAlg R] [LawfulRanking R] (hs : HilbertSpace ι) (h : Constructed hs) (hpre : PredefinedSpaces hs)
    (hsp : hs.isSparse = false) (hbits : hs.totalNBits ≠ 0) (l : List (SectorDesc ι)) (hset : SetIndices l) (hp : ProperSectors hs l)
    (hlow : LowModes hs l) (hN : ∀ d ∈ l, d.N ≤ d.indices.length) (hsup : ∀ p : SectorParams, p.M ≤ 32 → LawfulRanking.supports R p)
    (st : List Nat) (hl : multiBasisStates hs l = .ok st) (sv : V) (hsv : LawfulSV.inv sv) (hdom : ∀ i < st.length, i ∈ LawfulSV.dom sv) :
    ∃ v : MultiView V R, MultiView.make sv hs l = .ok v ∧
      StateVec.foreach v = .ok ((st.zipIdx.map fun p => (p.1, LawfulSV.amp sv p.2)).filter fun q => decide (q.2 ≠ 0)) ∧
      LawfulSV.inv v ∧ (∀ n, n ∈ LawfulSV.dom v ↔ InMultiSector hs l n) ∧ ∀ i n, st[i]? = some n → LawfulSV.amp v n = LawfulSV.amp sv i := by
  obtain ⟨st', b1, b2, b3, b4, b5⟩ := C52_multisector_partial (R := R) hs h hpre hsp hbits l hset hp hlow hN hsup
  rw [hl] at b1
  cases b1
  obtain ⟨v, v1, v2⟩ := b5 sv
  refine ⟨v, v1, ?_⟩
  obtain ⟨hvis, hbase⟩ := multi_visit h hpre hsp hbits hset hp hlow hN hl v1
  have hst : ViewOf.states v = st.zipIdx := by
    show (match v.visit with | none => [] | some l => l.zipIdx) = _
    rw [hvis]
  have heach : ∀ w, StateVec.foreach (ViewOf.put v w) = viewForeach w (ViewOf.states v) := by
    intro w
    show (match v.visit with | none => Except.error SVError.ub | some l => viewForeach w l.zipIdx) = _
    rw [hst, hvis]
  obtain ⟨g1, g2, g3⟩ := view_good v st hst (fun i s hi => by
      have h1 := congrArg (fun m => m[i]?) v2
      have hlt := (List.getElem?_eq_some_iff.1 hi).1
      simp only [List.getElem?_map, hi, List.getElem?_range hlt, Option.map_some, Option.some.injEq] at h1
      exact h1) b2 (by show LawfulSV.inv v.sv; rw [hbase]; exact hsv) (by intro i hi; show i ∈ LawfulSV.dom v.sv; rw [hbase]; exact hdom i hi) heach
  refine ⟨?_, g1, fun n => (g2 n).trans (b3 n), fun i n hi => by rw [g3 i n hi]; show LawfulSV.amp v.sv i = _; rw [hbase]⟩
  have := heach v.sv
  rw [show ViewOf.put v v.sv = v from rfl] at this
  rw [this, hst, hbase]
  exact viewForeach_spec sv hsv _ fun p hp => hdom _ (List.getElem?_eq_some_iff.1 (List.mem_zipIdx_iff_getElem?.1 hp)).1

/-- **C52** Lists of sectors that refer to a mode outside the Hilbert space, or to the same mode in two sectors, are rejected, also if the
Hilbert space is sparse. -/
theorem C52_improper [RankingAlg R] (hs : HilbertSpace ι) (l : List (SectorDesc ι)) (hset : SetIndices l)
    (hlen : (l.map fun d => d.indices.length).sum < 2 ^ 32) (hbad : ¬ ProperSectors hs l) (sv : V) :
    (∃ e, multiSize hs l = .error e) ∧ (∃ e, multiBasisStates hs l = .error e) ∧
    ∃ e, (MultiView.make sv hs l : Except SectorError (MultiView V R)) = .error e ∧
      ((∀ d ∈ l, ∀ i ∈ d.indices, hs.has (ESpace.fermion i) = true) → e = .overlap) ∧
      ((∃ d ∈ l, ∃ i ∈ d.indices, hs.has (ESpace.fermion i) = false) → e = .notInSpace) := by
  obtain ⟨e, he, he1, he2⟩ : ∃ e, validateSectors hs l = .error e ∧
      ((∀ d ∈ l, ∀ i ∈ d.indices, hs.has (ESpace.fermion i) = true) → e = .overlap) ∧
      ((∃ d ∈ l, ∃ i ∈ d.indices, hs.has (ESpace.fermion i) = false) → e = .notInSpace) := by
    rw [validateSectors_iff hs l hset hlen]
    by_cases hin : ∀ d ∈ l, ∀ i ∈ d.indices, hs.has (ESpace.fermion i) = true
    · rw [if_pos hin]
      by_cases hd : l.Pairwise fun d e => ∀ i ∈ d.indices, i ∉ e.indices
      · exact absurd ⟨hin, hd⟩ hbad
      · rw [if_neg hd]
        refine ⟨_, rfl, fun _ => rfl, ?_⟩
        rintro ⟨d, hd, i, hi, hf⟩
        rw [hin d hd i hi] at hf; cases hf
    · rw [if_neg hin]
      exact ⟨_, rfl, fun hc => absurd hc hin, fun _ => rfl⟩
  refine ⟨?_, ?_, e, ?_, he1, he2⟩
  · unfold multiSize
    split
    · exact ⟨_, rfl⟩
    · rw [he]; exact ⟨_, rfl⟩
  · unfold multiBasisStates makeSectorParams
    split
    · exact ⟨_, rfl⟩
    · rw [he]; exact ⟨_, rfl⟩
  · unfold MultiView.make makeSectorParams
    rw [he]

/-- **C52** If a sector is to contain more fermions than it has modes, there are no states: the size is 0, the list of basis states
and the view are rejected. -/
theorem C52_no_such_sector [RankingAlg R] (hs : HilbertSpace ι) (h : Constructed hs) (hpre : PredefinedSpaces hs)
    (hsp : hs.isSparse = false) (l : List (SectorDesc ι)) (hset : SetIndices l) (hp : ProperSectors hs l)
    (hlow : LowModes hs l) (hN : ∃ d ∈ l, d.indices.length < d.N) (sv : V) :
    multiSize hs l = .ok 0 ∧ multiBasisStates hs l = .error .noSuchSector ∧
    (MultiView.make sv hs l : Except SectorError (MultiView V R)) = .error .noSuchSector ∧ ∀ s, ¬ InMultiSector hs l s := by
  have htm := total_modes h hpre hset hp
  have h63 := (C26_bit_ranges hs h).2.2.1
  have hval : validateSectors hs l = .ok () := by
    rw [validateSectors_iff hs l hset (by omega), if_pos hp.inSpace, if_pos hp.disjoint]
  have hmk : makeSectorParams hs l = .error .noSuchSector := by
    unfold makeSectorParams
    rw [hval]
    exact paramsLoop_error h hpre l hset hp.inSpace (low_bits h hpre hp hlow) hN []
  refine ⟨?_, ?_, ?_, ?_⟩
  · unfold multiSize
    rw [hsp, hval]
    simp only [Bool.false_eq_true, if_false]
    have : ∀ (l : List (SectorDesc ι)) (M size : Nat), (∃ d ∈ l, d.indices.length < d.N) → multiSizeLoop l M size = none := by
      intro l
      induction l with
      | nil => intro M size hx; simp at hx
      | cons d l ih =>
        intro M size hx
        rw [multiSizeLoop]
        split
        · rfl
        · next hc =>
          obtain ⟨e, he, hlt⟩ := hx
          rcases List.mem_cons.1 he with rfl | he
          · omega
          · exact ih _ _ ⟨e, he, hlt⟩
    rw [this l 0 1 hN]
    split <;> rfl
  · unfold multiBasisStates; rw [hsp, hmk]; rfl
  · unfold MultiView.make; rw [hmk]
  · rintro s ⟨_, hall⟩
    obtain ⟨d, hd, hlt⟩ := hN
    have h1 := hall d hd
    have : ∀ x ∈ d.indices.map fun i => occ hs s (ESpace.fermion i), x ≤ 1 := by
      intro x hx
      obtain ⟨i, hi, rfl⟩ := List.mem_map.1 hx
      rw [occ_fermionBit h hpre (hp.inSpace d hd i hi)]
      have := Nat.mod_lt (s / 2 ^ fermionBit hs i) (y := 2) (by decide)
      omega
    have := List.sum_le_card_nsmul _ 1 this
    unfold nFermions at h1
    simp at this
    omega

/-- **C52** Sparse Hilbert spaces are rejected. -/
theorem C52_sparse [RankingAlg R] (hs : HilbertSpace ι) (hsp : hs.isSparse = true) (l : List (SectorDesc ι)) (sv : V) :
    multiSize hs l = .error .sparse ∧ multiBasisStates hs l = .error .sparse ∧
    ∃ e, (MultiView.make sv hs l : Except SectorError (MultiView V R)) = .error e ∧ (∀ ps, makeSectorParams hs l = .ok ps → e = .sparse) := by
  refine ⟨by unfold multiSize; rw [hsp]; rfl, by unfold multiBasisStates; rw [hsp]; rfl, ?_⟩
  unfold MultiView.make
  cases hmk : makeSectorParams hs l with
  | error e => exact ⟨e, rfl, fun ps hps => by cases hps⟩
  | ok ps => simp only [hsp, if_true]; exact ⟨_, rfl, fun _ _ => rfl⟩

/-- **C52** The generator behind the views and the lists: `size()` is the number of values it produces until `done()`, namely the product
of binomial coefficients. -/
theorem C52_generator_size (hs : HilbertSpace ι) (h : Constructed hs) (hpre : PredefinedSpaces hs) (hsp : hs.isSparse = false)
    (l : List (SectorDesc ι)) (hset : SetIndices l) (hp : ProperSectors hs l) (hlow : LowModes hs l)
    (hN : ∀ d ∈ l, d.N ≤ d.indices.length) :
    ∃ ps words, makeSectorParams hs l = .ok ps ∧ (MultiGen.make ps).init.drain W64 = some words ∧ words.Nodup ∧
      (MultiGen.make ps).size = words.length ∧ (MultiGen.make ps).init.size = words.length := by
  obtain ⟨ps, T, nm, st, a1, a2, a3, a4, a5, a6, a7, a8, a9, a10, a11, a12, a13, a14, a15⟩ :=
    multi_core_all h hpre hsp hset hp hlow hN
  have hlen := (lex_enum ps a2 a13).1
  have htot : (MultiGen.make ps).total = multiSizeOf ps := by
    show (ps.map UnrankGen.make).foldl _ 1 = _
    rw [MultiGen.total_eq ps a2 1 (by omega)]; omega
  have hdr := MultiGen.drain_after a2 a13 a14 (a15.trans (by decide)) (multiSizeOf ps) 0 _ W64 (MultiGen.make_after a2 a15) (by omega)
    (by have : (2 : Nat) ^ 31 < W64 := by decide
        omega)
  rw [List.drop_zero] at hdr
  refine ⟨ps, _, a3, hdr, ?_, ?_, ?_⟩
  · exact Enumerates.nodup (lex_enum ps a2 a13).2
  · rw [MultiGen.size, htot, hlen]
  · rw [MultiGen.size, hlen]; exact htot

/-! ### Examples and findings -/

/-- Two sectors of the space of `sectorExample`: one of two fermions in the modes 0 and 2, none in the mode 1. -/
def multiExample : List (SectorDesc Nat) := [⟨[0, 2], 1⟩, ⟨[1], 0⟩]

/-- The hypotheses of C52 are met, and the multisector has 8 states. -/
example : ∃ hs, HilbertSpace.ofArgs sectorExample = .ok hs ∧ Constructed hs ∧ PredefinedSpaces hs ∧
    hs.isSparse = false ∧ hs.totalNBits ≠ 0 ∧ SetIndices multiExample ∧ ProperSectors hs multiExample ∧ LowModes hs multiExample ∧
    (∀ d ∈ multiExample, d.N ≤ d.indices.length) ∧ multiSize hs multiExample = .ok 8 ∧ (∀ p, LawfulRanking.supports (Staggered 3) p) := by
  obtain ⟨hs, hof, h1, h2, h3⟩ := sectorExample_space
  have facts : ((HilbertSpace.ofArgs sectorExample).toOption.map fun hs : HilbertSpace Nat =>
      (decide (hs.isSparse = false) && decide (hs.totalNBits ≠ 0) && decide (∀ d ∈ multiExample, ∀ i ∈ d.indices, hs.has (ESpace.fermion i) = true) &&
        decide (∀ d ∈ multiExample, ∀ i ∈ d.indices, ((hs.bitRange (ESpace.fermion i)).toOption.map fun r => decide (r.first < 32)) = some true) &&
        decide ((multiSize hs multiExample).toOption = some 8))) = some true := by decide +kernel
  rw [hof] at facts
  simp only [Except.toOption, Option.map_some, Option.some.injEq, Bool.and_eq_true, decide_eq_true_eq] at facts
  obtain ⟨⟨⟨⟨f1, f2⟩, f3⟩, f4⟩, f5⟩ := facts
  refine ⟨hs, hof, h1, h2, f1, f2, by unfold SetIndices; decide, ⟨f3, by decide⟩, ?_, by decide, ?_, fun _ => trivial⟩
  · intro d hd i hi r hr
    have := of_decide_eq_true f4 d hd i hi
    rw [hr] at this
    simpa using this
  · cases hs1 : multiSize hs multiExample with
    | error e => simp [hs1] at f5
    | ok n => simp [hs1] at f5; rw [f5]

/-- **C52 (finding F7)** The masks of the sectors are truncated to 32 bits. With 33 fermionic modes and a sector that consists of the last one,
occupied by a fermion, `map_index` of a basis state of the multisector reads outside the table of the ranking algorithm. -/
theorem C52_F7_truncated_mask : ∃ (hs : HilbertSpace Nat) (l : List (SectorDesc Nat)) (s : Nat), Constructed hs ∧ PredefinedSpaces hs ∧
    hs.isSparse = false ∧ SetIndices l ∧ ProperSectors hs l ∧ (∀ d ∈ l, d.N ≤ d.indices.length) ∧ InMultiSector hs l s ∧
    ∃ v : MultiView (DenseSV Int) CombRanking, MultiView.make ⟨[]⟩ hs l = .ok v ∧ v.mapIndex s = .error .ub := by
  obtain ⟨hs, hof, hcon, hpre, -⟩ := smallSpace (l := (List.range 33).map (ESpace.fermion (ι := Nat))) (by
    intro es hes
    obtain ⟨i, _, rfl⟩ := List.mem_map.1 hes
    exact wf_fermion _) (by
    intro es hes
    obtain ⟨i, _, rfl⟩ := List.mem_map.1 hes
    simp [ESpace.fermion]) (by decide +kernel)
  have facts : ((HilbertSpace.ofArgs ((List.range 33).map (ESpace.fermion (ι := Nat)))).toOption.map fun hs : HilbertSpace Nat =>
      (decide (hs.has (ESpace.fermion 32) = true) && decide (ValidState hs (2 ^ 32)) && decide (occ hs (2 ^ 32) (ESpace.fermion 32) = 1) &&
        decide (((makeSectorParams hs [⟨[32], 1⟩]).toOption.map fun ps => ps.map fun p => (p.M, p.mask, p.N)) = some [(1, 0, 1)]) &&
        decide (hs.isSparse = false) && decide (nonMultiMask hs [⟨1, 0, 1⟩] = (32, 2 ^ 33 - 1)))) = some true := by decide +kernel
  rw [hof] at facts
  simp only [Except.toOption, Option.map_some, Option.some.injEq, Bool.and_eq_true, decide_eq_true_eq] at facts
  obtain ⟨⟨⟨⟨⟨f1, f2⟩, f3⟩, f5⟩, f6⟩, f7⟩ := facts
  refine ⟨hs, [⟨[32], 1⟩], 2 ^ 32, hcon, hpre, f6, ?_, ⟨?_, List.pairwise_singleton _ _⟩, ?_, ⟨f2, ?_⟩, ?_⟩
  · intro d hd; simp only [List.mem_singleton] at hd; subst hd; exact List.pairwise_singleton _ _
  · simp [f1]
  · simp
  · intro d hd; simp only [List.mem_singleton] at hd; subst hd
    simp only [nFermions, List.map_cons, List.map_nil, f3, List.sum_cons, List.sum_nil, Nat.add_zero]
  · have hmk : makeSectorParams hs [⟨[32], 1⟩] = .ok [⟨1, 0, 1⟩] := by
      cases hc : makeSectorParams hs [⟨[32], 1⟩] with
      | error e => rw [hc] at f5; cases of_decide_eq_true f5
      | ok ps =>
        rw [hc] at f5
        have f5 := of_decide_eq_true f5
        simp only [Option.map_some, Option.some.injEq] at f5
        obtain ⟨p, rfl, hp⟩ := List.map_eq_singleton_iff.1 f5
        cases p
        simp only [Prod.mk.injEq] at hp
        obtain ⟨rfl, rfl, rfl⟩ := hp
        rfl
    refine ⟨⟨⟨[]⟩, [⟨1, 0, 1⟩], [RankingAlg.make ⟨1, 0, 1⟩], [1], MultiGen.make [⟨1, 0, 1⟩], 32, 2 ^ 33 - 1⟩, ?_, ?_⟩
    · unfold MultiView.make
      rw [hmk]
      simp only [f6, f7, Bool.false_eq_true, if_false]
      rfl
    · have h0 : extractBits (2 ^ 32) 0 = 0 := by unfold extractBits; rw [extractLoop]; simp
      have h1 : RankingAlg.rank (RankingAlg.make ⟨1, 0, 1⟩ : CombRanking) 0 = none := by
        show combRankLoop 0 [] 1 0 0 = none
        rw [combRankLoop]; simp
      unfold MultiView.mapIndex
      simp only [multiMapLoop, h0, h1]

/-- **C52 (finding F14)** If all elementary spaces together take no bits, the only basis state is missing. -/
theorem C52_F14_dimension_one : ∃ hs : HilbertSpace Nat, Constructed hs ∧ hs.dim = 1 ∧ InMultiSector hs [] 0 ∧ multiSize hs [] = .ok 0 ∧
    multiBasisStates hs [] = .ok [] := by
  refine ⟨_, Constructed.ofArgs (l := [ESpace.boson 1 0]) ?_ rfl, by decide +kernel, ⟨?_, ?_⟩, by decide +kernel, by decide +kernel⟩
  · intro es hes
    simp only [List.mem_cons, List.not_mem_nil, or_false] at hes
    subst hes
    exact wf_boson _ (by decide) _
  · decide +kernel
  · simp

end LC
