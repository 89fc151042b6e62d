import Verif.Proof.Sector
import Verif.Props.FockProducts
/-
C51: `n_fermion_sector_view`, `n_fermion_sector_size`, `n_fermion_sector_basis_states`.
-/
set_option linter.unusedSectionVars false
set_option linter.unusedVariables false
namespace LC
open HilbertSpace
variable {ι T V R : Type _} [LinearOrder ι]

/-- What the single-sector functions compute, in one place. -/
theorem sector_core {hs : HilbertSpace ι} (h : Constructed hs) (hpre : PredefinedSpaces hs) (hid : DocumentedIds hs)
    (hsp : hs.isSparse = false) (hbits : hs.totalNBits ≠ 0) {N : Nat} (hN : N ≤ (fermionModes hs).length)
    (hex : (fermionModes hs).length ≤ 62 ∨ N ≤ 28 ∨ 35 ≤ N) :
    ∃ (p : SectorParams) (T : Nat) (l : List Nat), p = ⟨(fermionModes hs).length, 2 ^ (fermionModes hs).length - 1, N⟩ ∧ p.Good ∧
      SectorParams.ofSpace hs N = .ok p ∧ hs.totalNBits = T ∧ T ≤ 63 ∧ p.M ≤ T ∧ 0 < T ∧
      sectorStates p.M (T - p.M) (UnrankGen.make p) = some l ∧ l.length = Nat.choose p.M p.N * 2 ^ (T - p.M) ∧
      Enumerates l (InNSector hs N) (fun s => combRk p (extractBits s p.mask) * 2 ^ (T - p.M) + s / 2 ^ p.M) ∧
      ∀ s, InNSector hs N s → s < 2 ^ T ∧ InSector p.M p.N (extractBits s p.mask) := by
  obtain ⟨b1, b2, b3, b4, b5⟩ := fermion_block h hpre hid
  have h26 := C26_bit_ranges hs h
  have h63 := h26.2.2.1
  obtain ⟨T, hT⟩ : ∃ T : Nat, hs.totalNBits = T := ⟨_, h26.2.1⟩
  rw [hT] at h63 b5
  rw [Int.toNat_natCast] at b5
  have hm : 2 ^ (fermionModes hs).length - 1 < W64 := by
    have : 2 ^ (fermionModes hs).length ≤ 2 ^ 63 := Nat.pow_le_pow_right (by decide) (by omega)
    have : (2 : Nat) ^ 63 < W64 := by decide
    omega
  have hgood : (⟨(fermionModes hs).length, 2 ^ (fermionModes hs).length - 1, N⟩ : SectorParams).Good :=
    ⟨⟨by simp only; omega, hN⟩, hex, hm, by simp only; rw [bitCount_ones (by omega)]⟩
  obtain ⟨l, e1, e2, e3⟩ := sectorStates_eq _ hgood T (by omega) b5 rfl
  have hP : ∀ s, (s < 2 ^ T ∧ bitCount (s &&& (2 ^ (fermionModes hs).length - 1)) = N) ↔ InNSector hs N s := by
    intro s
    unfold InNSector
    rw [validState_lt h hsp, hT, Int.toNat_natCast, nFermions_eq h hpre b4 (fun i hi => (b3 i).2 hi), modeMask, b2, maskOf_range]
  refine ⟨_, T, l, rfl, hgood, ?_, hT, by omega, b5, by omega, e1, e2, e3.congr hP fun _ _ => rfl, ?_⟩
  · unfold SectorParams.ofSpace
    rw [b1]
    simp only
    rw [if_neg (by omega), ones_eq (by omega)]
  · intro s hs1
    obtain ⟨a, b⟩ := (hP s).2 hs1
    refine ⟨a, ?_, ?_⟩
    · have := extractBits_lt s _ hm
      rwa [show (bitPositions (2 ^ (fermionModes hs).length - 1)).length = (fermionModes hs).length from bitCount_ones (by omega)] at this
    · have := bitCount_extract s _ hm
      rw [b] at this
      exact this

theorem mapIndex_core [RankingAlg R] [LawfulRanking R] (sv : V) (p : SectorParams) (hp : p.Good) (T : Nat) (hT : T ≤ 63) (hMT : p.M ≤ T)
    (hmask : p.mask = 2 ^ p.M - 1) (hsup : LawfulRanking.supports R p) (g : UnrankGen) (s : Nat) (hs1 : s < 2 ^ T)
    (hs : InSector p.M p.N (extractBits s p.mask)) (hlt : combRk p (extractBits s p.mask) * 2 ^ (T - p.M) + s / 2 ^ p.M < W64) :
    (⟨sv, p, RankingAlg.make p, g, sub64 (pow2 p.M) 1, T - p.M⟩ : SectorView V R).mapIndex s =
      .ok (combRk p (extractBits s p.mask) * 2 ^ (T - p.M) + s / 2 ^ p.M) := by
  have hM := hp.valid.1
  have e : s &&& sub64 (pow2 p.M) 1 = extractBits s p.mask := by
    have := extractBits_block (g := 0) (w := p.M) (by omega) s
    rw [pow_zero, Nat.mul_one, Nat.div_one] at this
    rw [ones_eq (by omega), hmask, this, Nat.and_two_pow_sub_one_eq_mod]
  unfold SectorView.mapIndex
  simp only [e, rank_enum p hp.valid hsup hs]
  congr 1
  rw [Nat.shiftLeft_eq, Nat.shiftRight_eq_div_pow, Nat.mod_eq_of_lt (Nat.lt_of_le_of_lt (Nat.le_add_right _ _) hlt)]
  exact Nat.mod_eq_of_lt hlt

/-- **C51** For a non-sparse Hilbert space and `0 ≤ N ≤ M`, `M` being the number of its fermionic modes: the list returned by
`n_fermion_sector_basis_states` contains exactly the basis states with `N` fermions, each once; its length is
`n_fermion_sector_size`; and for a view made with any ranking algorithm `map_index` sends the `i`-th state of that list to `i`,
i.e. it is a bijection onto 0, …, size - 1. (Sizes affected by F9 are excluded.) -/
theorem C51_sector_partial [RankingAlg R] [LawfulRanking R] (hs : HilbertSpace ι) (h : Constructed hs) (hpre : PredefinedSpaces hs)
    (hid : DocumentedIds hs) (hsp : hs.isSparse = false) (hbits : hs.totalNBits ≠ 0) (N : Nat) (hN : N ≤ (fermionModes hs).length)
    (hex : (fermionModes hs).length ≤ 62 ∨ N ≤ 28 ∨ 35 ≤ N)
    (hsup : ∀ p : SectorParams, p.M = (fermionModes hs).length → LawfulRanking.supports R p) :
    ∃ l, sectorBasisStates hs N = .ok l ∧ l.Nodup ∧ (∀ s, s ∈ l ↔ InNSector hs N s) ∧ sectorSize hs N = .ok l.length ∧
      ∀ sv : V, ∃ v : SectorView V R, SectorView.make sv hs N = .ok v ∧ l.map v.mapIndex = (List.range l.length).map .ok := by
  obtain ⟨p, T, l, hp, hg, hofs, hT, hT63, hMT, hT0, e1, e2, e3, e4⟩ := sector_core h hpre hid hsp hbits hN hex
  have hM := hg.valid.1
  have hlenW : l.length < W64 := by
    rw [e2]
    have h1 : Nat.choose p.M p.N ≤ 2 ^ p.M := Nat.choose_le_two_pow _ _
    have h2 : Nat.choose p.M p.N * 2 ^ (T - p.M) ≤ 2 ^ p.M * 2 ^ (T - p.M) := Nat.mul_le_mul_right _ h1
    rw [← pow_add, show p.M + (T - p.M) = T by omega] at h2
    have h3 : 2 ^ T ≤ 2 ^ 63 := Nat.pow_le_pow_right (by decide) hT63
    have : (2 : Nat) ^ 63 < W64 := by decide
    omega
  refine ⟨l, ?_, e3.nodup, fun s => e3.mem s, ?_, fun sv => ?_⟩
  · unfold sectorBasisStates
    rw [hsp, hofs]
    simp only [Bool.false_eq_true, if_false, hT]
    rw [show ((T : Int) - (p.M : Int)).toNat = T - p.M by omega, if_neg (by omega), e1]
  · unfold sectorSize
    rw [hsp, (fermion_block h hpre hid).1]
    simp only [Bool.false_eq_true, if_false, hT]
    rw [if_neg (by omega)]
    have hpM : (fermionModes hs).length = p.M := by rw [hp]
    have hpN : N = p.N := by rw [hp]
    rw [hpM, hpN, show ((T : Int) - (p.M : Int)).toNat = T - p.M by omega, pow2_eq (by omega)]
    have hb : binomial p.M p.N = Nat.choose p.M p.N := by
      by_cases hlt : p.M ≤ 62
      · exact C46_binomial_partial _ _ hlt
      · rw [show p.M = 63 by omega, C46_binomial_63]
        rcases hg.exact_ with h1 | h1 | h1
        · exact absurd h1 hlt
        · exact Or.inl h1
        · exact Or.inr h1
    rw [hb, e2, mul64, Nat.mod_eq_of_lt (by rw [← e2]; exact hlenW)]
  · refine ⟨⟨sv, p, RankingAlg.make p, UnrankGen.make p, sub64 (pow2 p.M) 1, T - p.M⟩, ?_, ?_⟩
    · unfold SectorView.make
      rw [hofs]
      simp only [hsp, Bool.false_eq_true, if_false, hT]
      rw [show ((T : Int) - (p.M : Int)).toNat = T - p.M by omega]
    · apply List.ext_getElem?
      intro i
      rw [List.getElem?_map, List.getElem?_map]
      by_cases hi : i < l.length
      · rw [List.getElem?_range hi, List.getElem?_eq_getElem hi]
        simp only [Option.map_some, Option.some.injEq]
        obtain ⟨q1, q2⟩ := (e3 i l[i]).1 (List.getElem?_eq_getElem hi)
        obtain ⟨r1, r2⟩ := e4 _ q1
        rw [mapIndex_core sv p hg T hT63 hMT (by rw [hp]) (hsup p (by rw [hp])) _ _ r1 r2 (by
          have := e3.rk_lt q1
          exact this.trans hlenW)]
        exact congrArg _ q2
      · rw [List.getElem?_eq_none (by omega), List.getElem?_eq_none (by simp; omega)]; rfl

/-- The states visited by `foreach` of a sector view, and the adapted vector. -/
theorem sector_visit [RankingAlg R] {hs : HilbertSpace ι} (hsp : hs.isSparse = false) {N : Nat} {l : List Nat}
    (hl : sectorBasisStates hs N = .ok l) {sv : V} {v : SectorView V R} (v1 : SectorView.make sv hs N = .ok v) :
    v.visit = some l ∧ v.sv = sv := by
  unfold SectorView.make at v1
  unfold sectorBasisStates at hl
  rw [hsp] at v1 hl
  simp only [Bool.false_eq_true, if_false] at v1 hl
  cases hp : SectorParams.ofSpace hs N with
  | error e => rw [hp] at v1; cases v1
  | ok p =>
    rw [hp] at v1 hl
    simp only at v1 hl
    cases v1
    refine ⟨?_, rfl⟩
    unfold SectorView.visit
    simp only
    split at hl
    · next hc => rw [if_pos hc]; cases hl; rfl
    · next hc =>
      rw [if_neg hc]
      cases hst : sectorStates p.M (hs.totalNBits - p.M).toNat (UnrankGen.make p) with
      | none => rw [hst] at hl; cases hl
      | some l' => rw [hst] at hl; cases hl; rfl

variable [AddCommMonoid T] [DecidableEq T] [StateVec V T] [LawfulSV V T]

/-- **C51** `foreach` of a sector view calls the functor on the states of `n_fermion_sector_basis_states` in this order, the
`i`-th of them paired with the amplitude stored at position `i`, skipping zero amplitudes. The view behaves as a state vector:
it addresses the states of the sector, and the amplitude of the `i`-th one is the stored amplitude at position `i`; hence
operators can be applied to and into sector views (C38). -/
theorem C51_view_partial [RankingAlg R] [LawfulRanking R] (hs : HilbertSpace ι) (h : Constructed hs) (hpre : PredefinedSpaces hs)
    (hid : DocumentedIds hs) (hsp : hs.isSparse = false) (hbits : hs.totalNBits ≠ 0) (N : Nat) (hN : N ≤ (fermionModes hs).length)
    (hex : (fermionModes hs).length ≤ 62 ∨ N ≤ 28 ∨ 35 ≤ N)
    (hsup : ∀ p : SectorParams, p.M = (fermionModes hs).length → LawfulRanking.supports R p)
    (l : List Nat) (hl : sectorBasisStates hs N = .ok l) (sv : V) (hsv : LawfulSV.inv sv) (hdom : ∀ i < l.length, i ∈ LawfulSV.dom sv) :
    ∃ v : SectorView V R, SectorView.make sv hs N = .ok v ∧
      StateVec.foreach v = .ok ((l.zipIdx.map fun p => (p.1, LawfulSV.amp sv p.2)).filter fun q => decide (q.2 ≠ 0)) ∧
      LawfulSV.inv v ∧ (∀ n, n ∈ LawfulSV.dom v ↔ InNSector hs N n) ∧ ∀ i n, l[i]? = some n → LawfulSV.amp v n = LawfulSV.amp sv i := by
  obtain ⟨l', b1, b2, b3, b4, b5⟩ := C51_sector_partial (R := R) hs h hpre hid hsp hbits N hN hex hsup
  rw [hl] at b1
  cases b1
  obtain ⟨v, v1, v2⟩ := b5 sv
  refine ⟨v, v1, ?_⟩
  obtain ⟨hvis, hbase⟩ := sector_visit hsp hl v1
  have hst : ViewOf.states v = l.zipIdx := by
    show (match v.visit with | none => [] | some l => l.zipIdx) = _
    rw [hvis]
  have heach : ∀ w, StateVec.foreach (ViewOf.put v w) = viewForeach w (ViewOf.states v) := by
    intro w
    show (match v.visit with | none => Except.error SVError.ub | some l => viewForeach w l.zipIdx) = _
    rw [hst, hvis]
  obtain ⟨g1, g2, g3⟩ := view_good v l hst (fun i s hi => by
      have h1 := congrArg (fun m => m[i]?) v2
      have hlt := (List.getElem?_eq_some_iff.1 hi).1
      simp only [List.getElem?_map, hi, List.getElem?_range hlt, Option.map_some, Option.some.injEq] at h1
      exact h1) b2 (by show LawfulSV.inv v.sv; rw [hbase]; exact hsv) (by intro i hi; show i ∈ LawfulSV.dom v.sv; rw [hbase]; exact hdom i hi) heach
  refine ⟨?_, g1, fun n => (g2 n).trans (b3 n), fun i n hi => by rw [g3 i n hi]; show LawfulSV.amp v.sv i = _; rw [hbase]⟩
  have := heach v.sv
  rw [show ViewOf.put v v.sv = v from rfl] at this
  rw [this, hst, hbase]
  exact viewForeach_spec sv hsv _ fun p hp => hdom _ (List.getElem?_eq_some_iff.1 (List.mem_zipIdx_iff_getElem?.1 hp)).1

/-- **C51** A sector with more fermions than modes does not exist: the size is 0, no state belongs to it, and the view and the
list of basis states are rejected. -/
theorem C51_no_such_sector [RankingAlg R] (hs : HilbertSpace ι) (h : Constructed hs) (hpre : PredefinedSpaces hs)
    (hid : DocumentedIds hs) (hsp : hs.isSparse = false) (N : Nat) (hN : (fermionModes hs).length < N) (sv : V) :
    sectorSize hs N = .ok 0 ∧ sectorBasisStates hs N = .error .noSuchSector ∧
    (SectorView.make sv hs N : Except SectorError (SectorView V R)) = .error .noSuchSector ∧ ∀ s, ¬ InNSector hs N s := by
  obtain ⟨b1, b2, b3, b4, b5⟩ := fermion_block h hpre hid
  have hof : SectorParams.ofSpace hs N = .error .noSuchSector := by
    unfold SectorParams.ofSpace; rw [b1]; simp only; rw [if_pos hN]
  refine ⟨?_, ?_, ?_, ?_⟩
  · unfold sectorSize
    rw [hsp, b1]
    simp only [Bool.false_eq_true, if_false]
    split
    · rfl
    · rw [show binomial (fermionModes hs).length N = 0 by unfold binomial; rw [if_pos hN]]
      simp [mul64]
  · unfold sectorBasisStates; rw [hsp, hof]; rfl
  · unfold SectorView.make; rw [hof]
  · rintro s ⟨_, hs2⟩
    have h1 : nFermions hs s (fermionModes hs) ≤ (fermionModes hs).length := by
      unfold nFermions
      have : ∀ x ∈ (fermionModes hs).map fun i => occ hs s (ESpace.fermion i), x ≤ 1 := by
        intro x hx
        obtain ⟨i, hi, rfl⟩ := List.mem_map.1 hx
        rw [occ_fermionBit h hpre ((b3 i).2 hi)]
        have := Nat.mod_lt (s / 2 ^ fermionBit hs i) (y := 2) (by decide)
        omega
      have := List.sum_le_card_nsmul _ 1 this
      simpa using this
    omega

/-- **C51** Sparse Hilbert spaces are rejected. -/
theorem C51_sparse [RankingAlg R] (hs : HilbertSpace ι) (h : Constructed hs) (hpre : PredefinedSpaces hs)
    (hid : DocumentedIds hs) (hsp : hs.isSparse = true) (N : Nat) (sv : V) :
    sectorSize hs N = .error .sparse ∧ sectorBasisStates hs N = .error .sparse ∧
    ∃ e, (SectorView.make sv hs N : Except SectorError (SectorView V R)) = .error e ∧ (N ≤ (fermionModes hs).length → e = .sparse) := by
  obtain ⟨b1, _, _, _, _⟩ := fermion_block h hpre hid
  refine ⟨by unfold sectorSize; rw [hsp]; rfl, by unfold sectorBasisStates; rw [hsp]; rfl, ?_⟩
  unfold SectorView.make SectorParams.ofSpace
  rw [b1]
  simp only
  by_cases hN : N > (fermionModes hs).length
  · rw [if_pos hN]
    exact ⟨_, rfl, fun hc => by omega⟩
  · rw [if_neg hN]
    simp only [hsp, if_true]
    exact ⟨_, rfl, fun _ => rfl⟩

/-! ### Examples and findings -/

/-- Three fermionic modes, a boson with two states and a spin-1/2: 32 states in five bits. -/
def sectorExample : List (ESpace Nat) := [ESpace.fermion 0, ESpace.fermion 1, ESpace.fermion 2, ESpace.boson 2 1, ESpace.spin 2 0]

theorem sectorExample_space : ∃ hs, HilbertSpace.ofArgs sectorExample = .ok hs ∧ Constructed hs ∧ PredefinedSpaces hs ∧
    hs.elementarySpaces = sectorExample := by
  refine smallSpace ?_ ?_ (by decide +kernel)
  · simp only [sectorExample, List.mem_cons, List.not_mem_nil, or_false, forall_eq_or_imp, forall_eq]
    exact ⟨wf_fermion _, wf_fermion _, wf_fermion _, wf_boson _ (by decide) _, wf_spin _ (by decide) _⟩
  · simp only [sectorExample, List.mem_cons, List.not_mem_nil, or_false, forall_eq_or_imp, forall_eq]
    simp [ESpace.spin, ESpace.fermion, ESpace.boson]

/-- The hypotheses of C51 are met, and the sector with two fermions has 12 states. -/
example : ∃ hs, HilbertSpace.ofArgs sectorExample = .ok hs ∧ Constructed hs ∧ PredefinedSpaces hs ∧ DocumentedIds hs ∧
    hs.isSparse = false ∧ hs.totalNBits ≠ 0 ∧ fermionModes hs = [0, 1, 2] ∧ sectorSize hs 2 = .ok 12 ∧
    sectorBasisStates hs 2 = .ok [6, 14, 22, 30, 5, 13, 21, 29, 3, 11, 19, 27] ∧
    (∀ p, LawfulRanking.supports CombRanking p) ∧ (∀ p, LawfulRanking.supports (Staggered 4) p) := by
  obtain ⟨hs, hof, h1, h2, h3⟩ := sectorExample_space
  have facts : ((HilbertSpace.ofArgs sectorExample).toOption.map fun hs : HilbertSpace Nat =>
      (decide (hs.isSparse = false) && decide (hs.totalNBits ≠ 0) && decide ((sectorSize hs 2).toOption = some 12) &&
        decide ((sectorBasisStates hs 2).toOption = some [6, 14, 22, 30, 5, 13, 21, 29, 3, 11, 19, 27]))) = some true := by decide +kernel
  rw [hof] at facts
  simp only [Except.toOption, Option.map_some, Option.some.injEq, Bool.and_eq_true, decide_eq_true_eq] at facts
  obtain ⟨⟨⟨f1, f2⟩, f3⟩, f4⟩ := facts
  refine ⟨hs, hof, h1, h2, ?_, f1, f2, ?_, ?_, ?_, fun _ => trivial, fun _ => trivial⟩
  · unfold DocumentedIds; rw [h3]; decide
  · unfold fermionModes; rw [h3]; decide
  · cases hs1 : sectorSize hs 2 with
    | error e => simp [hs1] at f3
    | ok n => simp [hs1] at f3; rw [f3]
  · cases hs1 : sectorBasisStates hs 2 with
    | error e => simp [hs1] at f4
    | ok n => simp [hs1] at f4; rw [f4]

/-- **C51 (finding F14)** If all elementary spaces together take no bits (dimension 1), the only basis state is a state of the
sector `N = 0`, but the functions report an empty sector. -/
theorem C51_F14_dimension_one : ∃ hs : HilbertSpace Nat, Constructed hs ∧ hs.dim = 1 ∧ InNSector hs 0 0 ∧ sectorSize hs 0 = .ok 0 ∧
    sectorBasisStates hs 0 = .ok [] := by
  refine ⟨_, Constructed.ofArgs (l := [ESpace.boson 1 0]) ?_ rfl, by decide +kernel, ⟨?_, ?_⟩, by decide +kernel, by decide +kernel⟩
  · intro es hes
    simp only [List.mem_cons, List.not_mem_nil, or_false] at hes
    subst hes
    exact wf_boson _ (by decide) _
  · decide +kernel
  · decide +kernel

/-- **C51 (finding F1)** Copies of a Hilbert space have lost the fermionic bit range: for a copy of a space with two fermionic modes,
`n_fermion_sector_size(hs, 1)` is 0 instead of 2, and the view is rejected. -/
theorem C51_F1_copies : ∃ hs : HilbertSpace Nat, Constructed hs ∧ sectorSize hs 1 = .ok 2 ∧ sectorSize hs.copy 1 = .ok 0 ∧
    ∀ sv : DenseSV Int, (SectorView.make sv hs.copy 1 : Except SectorError (SectorView _ CombRanking)) = .error .noSuchSector := by
  refine ⟨_, Constructed.ofArgs (l := [ESpace.fermion 0, ESpace.fermion 1]) ?_ rfl, by decide +kernel, by decide +kernel, fun sv => rfl⟩
  intro es hes
  simp only [List.mem_cons, List.not_mem_nil, or_false] at hes
  rcases hes with rfl | rfl <;> exact wf_fermion _

end LC
