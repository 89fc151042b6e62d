import Verif.Proof.MultiGen
import Verif.Proof.Sector
/-
Multisectors of a Hilbert space: validation, masks, strides.
-/
set_option linter.unusedSimpArgs false
set_option linter.unusedSectionVars false
namespace LC
open HilbertSpace
variable {ι T V R : Type _} [LinearOrder ι]

/-! ### Validation -/

theorem validateIndices_ok (hs : HilbertSpace ι) (is all : List ι) (h : ∀ i ∈ is, hs.has (ESpace.fermion i) = true) (hn : all.Nodup) :
    ∃ all', validateIndices hs is all = .ok all' ∧ all'.Nodup ∧ ∀ i, i ∈ all' ↔ i ∈ all ∨ i ∈ is := by
  induction is generalizing all with
  | nil => exact ⟨all, rfl, hn, by simp⟩
  | cons i is ih =>
    rw [validateIndices, h i List.mem_cons_self]
    simp only [Bool.not_true, Bool.false_eq_true, if_false]
    split
    · next hi =>
      obtain ⟨all', h1, h2, h3⟩ := ih all (fun j hj => h j (List.mem_cons_of_mem _ hj)) hn
      refine ⟨all', h1, h2, fun j => ?_⟩
      rw [h3, List.mem_cons]
      constructor
      · tauto
      · rintro (hj | rfl | hj)
        · exact Or.inl hj
        · exact Or.inl hi
        · exact Or.inr hj
    · next hi =>
      obtain ⟨all', h1, h2, h3⟩ := ih (i :: all) (fun j hj => h j (List.mem_cons_of_mem _ hj)) (List.nodup_cons.2 ⟨hi, hn⟩)
      refine ⟨all', h1, h2, fun j => ?_⟩
      rw [h3, List.mem_cons, List.mem_cons]
      tauto

theorem validateIndices_error (hs : HilbertSpace ι) (is all : List ι) (h : ∃ i ∈ is, hs.has (ESpace.fermion i) = false) :
    validateIndices hs is all = .error .notInSpace := by
  induction is generalizing all with
  | nil => simp at h
  | cons i is ih =>
    rw [validateIndices]
    by_cases hi : hs.has (ESpace.fermion i) = true
    · simp only [hi, Bool.not_true, Bool.false_eq_true, if_false]
      apply ih
      obtain ⟨j, hj, hjh⟩ := h
      rcases List.mem_cons.1 hj with rfl | hj
      · rw [hi] at hjh; cases hjh
      · exact ⟨j, hj, hjh⟩
    · simp only [Bool.not_eq_true] at hi
      simp [hi]

theorem validateLoop_ok (hs : HilbertSpace ι) (l : List (SectorDesc ι)) (M : Nat) (all : List ι)
    (h : ∀ d ∈ l, ∀ i ∈ d.indices, hs.has (ESpace.fermion i) = true) (hn : all.Nodup)
    (hM : M + (l.map fun d => d.indices.length).sum < 2 ^ 32) :
    ∃ all', validateLoop hs l M all = .ok (M + (l.map fun d => d.indices.length).sum, all') ∧ all'.Nodup ∧
      ∀ i, i ∈ all' ↔ i ∈ all ∨ ∃ d ∈ l, i ∈ d.indices := by
  induction l generalizing M all with
  | nil => exact ⟨all, rfl, hn, by simp⟩
  | cons d l ih =>
    obtain ⟨a1, h1, h2, h3⟩ := validateIndices_ok hs d.indices all (h d List.mem_cons_self) hn
    rw [List.map_cons, List.sum_cons] at hM ⊢
    rw [validateLoop, h1]
    simp only
    rw [Nat.mod_eq_of_lt (by omega)]
    obtain ⟨a2, e1, e2, e3⟩ := ih (M + d.indices.length) a1 (fun e he => h e (List.mem_cons_of_mem _ he)) h2 (by omega)
    refine ⟨a2, by rw [e1, Nat.add_assoc], e2, fun i => ?_⟩
    rw [e3, h3]
    simp only [List.mem_cons, exists_eq_or_imp]
    tauto

theorem validateLoop_error (hs : HilbertSpace ι) (l : List (SectorDesc ι)) (M : Nat) (all : List ι)
    (h : ∃ d ∈ l, ∃ i ∈ d.indices, hs.has (ESpace.fermion i) = false) : validateLoop hs l M all = .error .notInSpace := by
  induction l generalizing M all with
  | nil => simp at h
  | cons d l ih =>
    rw [validateLoop]
    by_cases hd : ∃ i ∈ d.indices, hs.has (ESpace.fermion i) = false
    · rw [validateIndices_error hs _ _ hd]
    · have hv : (∃ a, validateIndices hs d.indices all = .ok a) ∨ validateIndices hs d.indices all = .error .notInSpace := by
        have : ∀ (is all : List ι), (∃ a, validateIndices hs is all = .ok a) ∨ validateIndices hs is all = .error .notInSpace := by
          intro is
          induction is with
          | nil => intro all; exact Or.inl ⟨all, rfl⟩
          | cons i is ih =>
            intro all
            rw [validateIndices]
            split
            · exact Or.inr rfl
            · exact ih _
        exact this _ _
      rcases hv with ⟨a, ha⟩ | ha
      · rw [ha]
        simp only
        apply ih
        obtain ⟨e, he, hh⟩ := h
        rcases List.mem_cons.1 he with rfl | he
        · exact absurd hh hd
        · exact ⟨e, he, hh⟩
      · rw [ha]

theorem validateSectors_iff (hs : HilbertSpace ι) (l : List (SectorDesc ι)) (hset : SetIndices l)
    (hlen : (l.map fun d => d.indices.length).sum < 2 ^ 32) :
    validateSectors hs l = if (∀ d ∈ l, ∀ i ∈ d.indices, hs.has (ESpace.fermion i) = true) then
      (if l.Pairwise (fun d e => ∀ i ∈ d.indices, i ∉ e.indices) then .ok () else .error .overlap) else .error .notInSpace := by
  unfold validateSectors
  by_cases hin : ∀ d ∈ l, ∀ i ∈ d.indices, hs.has (ESpace.fermion i) = true
  · rw [if_pos hin]
    obtain ⟨all, e1, e2, e3⟩ := validateLoop_ok hs l 0 [] hin List.nodup_nil (by omega)
    rw [e1]
    simp only [Nat.zero_add]
    have hmem : ∀ i, i ∈ all ↔ i ∈ l.flatMap fun d => d.indices := by
      intro i; rw [e3, List.mem_flatMap]; simp
    have hsum : (l.flatMap fun d => d.indices).length = (l.map fun d => d.indices.length).sum := List.length_flatMap
    have hcard : all.length = (l.flatMap fun d => d.indices).dedup.length := by
      apply List.Perm.length_eq
      rw [List.perm_ext_iff_of_nodup e2 (List.nodup_dedup _)]
      intro i; rw [hmem, List.mem_dedup]
    have hnd : (l.flatMap fun d => d.indices).Nodup ↔ l.Pairwise (fun d e => ∀ i ∈ d.indices, i ∉ e.indices) := by
      rw [List.nodup_flatMap]
      constructor
      · rintro ⟨_, h⟩
        exact h.imp fun {a b} hab i hi hj => hab hi hj
      · intro h
        refine ⟨fun d hd => (hset d hd).imp fun hab => ne_of_lt hab, h.imp fun {a b} hab i hi hj => hab i hi hj⟩
    by_cases hp : l.Pairwise (fun d e => ∀ i ∈ d.indices, i ∉ e.indices)
    · rw [if_pos hp, if_neg]
      rw [not_not, hcard, (hnd.2 hp).dedup, hsum]
    · rw [if_neg hp, if_pos]
      rw [hcard, ← hsum]
      intro hc
      apply hp
      rw [← hnd]
      have : (l.flatMap fun d => d.indices).dedup = l.flatMap fun d => d.indices := (List.dedup_sublist _).eq_of_length hc
      rw [← this]; exact List.nodup_dedup _
  · rw [if_neg hin]
    push Not at hin
    obtain ⟨d, hd, i, hi, hh⟩ := hin
    rw [validateLoop_error hs l 0 [] ⟨d, hd, i, hi, by simpa using hh⟩]

/-! ### Masks -/

theorem bitRange_fermionBit {hs : HilbertSpace ι} (h : Constructed hs) (hpre : PredefinedSpaces hs) {i : ι}
    (hi : hs.has (ESpace.fermion i) = true) : ∃ r, hs.bitRange (ESpace.fermion i) = .ok r ∧ r.first.toNat = fermionBit hs i := by
  have := (fermionBit_loc h hpre hi).range
  exact ⟨_, this, by simp⟩

theorem initMaskLoop_eq {hs : HilbertSpace ι} (h : Constructed hs) (hpre : PredefinedSpaces hs) (is : List ι)
    (hh : ∀ i ∈ is, hs.has (ESpace.fermion i) = true) (hn : (is.map (fermionBit hs)).Nodup) (m : Nat) (hm : m < W64)
    (hd : m &&& modeMask hs is = 0) : initMaskLoop hs is m = .ok (m ||| modeMask hs is) := by
  induction is generalizing m with
  | nil => simp [initMaskLoop, modeMask, maskOf]
  | cons i is ih =>
    obtain ⟨r, hr, hf⟩ := bitRange_fermionBit h hpre (hh i List.mem_cons_self)
    have hb := fermionBit_lt h hpre (hh i List.mem_cons_self)
    rw [List.map_cons, List.nodup_cons] at hn
    have hmm : modeMask hs (i :: is) = 2 ^ fermionBit hs i ||| modeMask hs is := rfl
    rw [hmm] at hd ⊢
    rw [initMaskLoop, hr]
    simp only [hf]
    rw [pow2_eq (by omega)]
    have h1 : m &&& 2 ^ fermionBit hs i = 0 ∧ m &&& modeMask hs is = 0 := by
      rw [and_zero_testBit] at hd
      constructor
      · rw [and_zero_testBit]; intro j hj
        have := hd j hj
        rw [Nat.testBit_or, Bool.or_eq_false_iff] at this
        exact this.1
      · rw [and_zero_testBit]; intro j hj
        have := hd j hj
        rw [Nat.testBit_or, Bool.or_eq_false_iff] at this
        exact this.2
    have h2 : 2 ^ fermionBit hs i &&& modeMask hs is = 0 := by
      rw [and_zero_testBit]; intro j hj
      rw [Nat.testBit_two_pow, decide_eq_true_iff] at hj
      subst hj
      rw [modeMask, maskOf_testBit]
      simpa using hn.1
    have h3 : m ||| 2 ^ fermionBit hs i < W64 := Nat.or_lt_two_pow hm (Nat.pow_lt_pow_right (by decide) (by omega))
    have h4 : add64 m (2 ^ fermionBit hs i) = m ||| 2 ^ fermionBit hs i := by
      rw [add64, add_eq_or _ _ h1.1]; exact Nat.mod_eq_of_lt h3
    rw [h4, ih (fun j hj => hh j (List.mem_cons_of_mem _ hj)) hn.2 _ h3, Nat.or_assoc]
    rw [Nat.and_or_distrib_right, h1.2, h2]; rfl

/-- The parameters of a sector. -/
def toParams (hs : HilbertSpace ι) (d : SectorDesc ι) : SectorParams := ⟨d.indices.length, modeMask hs d.indices, d.N⟩

theorem modeMask_lt {hs : HilbertSpace ι} (is : List ι) (n : Nat) (h : ∀ i ∈ is, fermionBit hs i < n) : modeMask hs is < 2 ^ n := by
  apply lt_of_testBit
  intro j hj
  rw [modeMask, maskOf_testBit, decide_eq_false_iff_not, List.mem_map]
  rintro ⟨i, hi, rfl⟩
  have := h i hi
  omega

theorem bitCount_maskOf (bs : List Nat) (hb : ∀ b ∈ bs, b < 64) (hn : bs.Nodup) : bitCount (maskOf bs) = bs.length := by
  have := bitCount_and_maskOf (maskOf bs) bs hb hn
  rw [Nat.and_self] at this
  rw [this]
  have e : bs.map (fun b => maskOf bs / 2 ^ b % 2) = List.replicate bs.length 1 := by
    rw [List.eq_replicate_iff]
    refine ⟨by simp, fun x hx => ?_⟩
    obtain ⟨b, hb, rfl⟩ := List.mem_map.1 hx
    have := maskOf_testBit bs b
    rw [Nat.testBit_eq_decide_div_mod_eq] at this
    simpa [hb] using this
  rw [e]; simp

theorem toParams_good {hs : HilbertSpace ι} (h : Constructed hs) (hpre : PredefinedSpaces hs) (d : SectorDesc ι)
    (hset : d.indices.Pairwise (· < ·)) (hh : ∀ i ∈ d.indices, hs.has (ESpace.fermion i) = true)
    (h32 : ∀ i ∈ d.indices, fermionBit hs i < 32) (hN : d.N ≤ d.indices.length) : (toParams hs d).Good := by
  have hn := modes_nodup h hpre (hset.imp fun hab => ne_of_lt hab) hh
  have hlen : d.indices.length ≤ 32 := by
    have : (d.indices.map (fermionBit hs)).Subperm (List.range 32) := by
      apply List.subperm_of_subset hn
      intro b hb
      obtain ⟨i, hi, rfl⟩ := List.mem_map.1 hb
      exact List.mem_range.2 (h32 i hi)
    have := this.length_le
    simpa using this
  have hm := modeMask_lt (hs := hs) d.indices 32 h32
  refine ⟨⟨by simp only [toParams]; omega, hN⟩, Or.inl (by simp only [toParams]; omega), ?_, ?_⟩
  · exact hm.trans (by decide)
  · simp only [toParams, modeMask]
    rw [bitCount_maskOf _ _ hn, List.length_map]
    intro b hb
    obtain ⟨i, hi, rfl⟩ := List.mem_map.1 hb
    have := h32 i hi
    omega

theorem ofDesc_eq {hs : HilbertSpace ι} (h : Constructed hs) (hpre : PredefinedSpaces hs) (d : SectorDesc ι)
    (hset : d.indices.Pairwise (· < ·)) (hh : ∀ i ∈ d.indices, hs.has (ESpace.fermion i) = true)
    (h32 : ∀ i ∈ d.indices, fermionBit hs i < 32) :
    SectorParams.ofDesc hs d = if d.N > d.indices.length then .error .noSuchSector else .ok (toParams hs d) := by
  have hn := modes_nodup h hpre (hset.imp fun hab => ne_of_lt hab) hh
  unfold SectorParams.ofDesc initMask
  rw [initMaskLoop_eq h hpre d.indices hh hn 0 (by decide) (by simp)]
  simp only [Nat.zero_or]
  rw [Nat.mod_eq_of_lt (modeMask_lt d.indices 32 h32)]
  rfl

theorem paramsLoop_ok {hs : HilbertSpace ι} (h : Constructed hs) (hpre : PredefinedSpaces hs) (l : List (SectorDesc ι)) (hset : SetIndices l)
    (hh : ∀ d ∈ l, ∀ i ∈ d.indices, hs.has (ESpace.fermion i) = true) (h32 : ∀ d ∈ l, ∀ i ∈ d.indices, fermionBit hs i < 32)
    (hN : ∀ d ∈ l, d.N ≤ d.indices.length) (ps : List SectorParams) :
    paramsLoop hs l ps = .ok (ps ++ (l.filter fun d => decide (d.indices ≠ [])).map (toParams hs)) := by
  induction l generalizing ps with
  | nil => simp [paramsLoop]
  | cons d l ih =>
    rw [paramsLoop, ofDesc_eq h hpre d (hset d List.mem_cons_self) (hh d List.mem_cons_self) (h32 d List.mem_cons_self),
      if_neg (by have := hN d List.mem_cons_self; omega)]
    simp only
    rw [ih (fun e he => hset e (List.mem_cons_of_mem _ he)) (fun e he => hh e (List.mem_cons_of_mem _ he))
      (fun e he => h32 e (List.mem_cons_of_mem _ he)) (fun e he => hN e (List.mem_cons_of_mem _ he))]
    by_cases hd : d.indices = []
    · rw [List.filter_cons_of_neg (by simpa using hd), if_neg (by simp [toParams, hd])]
    · rw [List.filter_cons_of_pos (by simpa using hd), if_pos (by simpa [toParams] using hd)]
      simp

theorem paramsLoop_error {hs : HilbertSpace ι} (h : Constructed hs) (hpre : PredefinedSpaces hs) (l : List (SectorDesc ι)) (hset : SetIndices l)
    (hh : ∀ d ∈ l, ∀ i ∈ d.indices, hs.has (ESpace.fermion i) = true) (h32 : ∀ d ∈ l, ∀ i ∈ d.indices, fermionBit hs i < 32)
    (hN : ∃ d ∈ l, d.indices.length < d.N) (ps : List SectorParams) : paramsLoop hs l ps = .error .noSuchSector := by
  induction l generalizing ps with
  | nil => simp at hN
  | cons d l ih =>
    rw [paramsLoop, ofDesc_eq h hpre d (hset d List.mem_cons_self) (hh d List.mem_cons_self) (h32 d List.mem_cons_self)]
    by_cases hd : d.N > d.indices.length
    · rw [if_pos hd]
    · rw [if_neg hd]
      simp only
      refine ih (fun e he => hset e (List.mem_cons_of_mem _ he)) (fun e he => hh e (List.mem_cons_of_mem _ he))
        (fun e he => h32 e (List.mem_cons_of_mem _ he)) ?_ _
      obtain ⟨e, he, hlt⟩ := hN
      rcases List.mem_cons.1 he with rfl | he
      · omega
      · exact ⟨e, he, hlt⟩

/-- Sum of the masks' sizes. -/
theorem bitCount_unionMask (ps : List SectorParams) (h : ∀ p ∈ ps, p.Good) (hd : DisjointMasks ps) :
    bitCount (unionMask ps) = (ps.map SectorParams.M).sum := by
  induction ps with
  | nil => simp [unionMask, bitCount, bitPositions_zero]
  | cons p ps ih =>
    have hu : unionMask (p :: ps) = p.mask ||| unionMask ps := rfl
    rw [hu, bitCount_or (unionMask_disjoint hd), ih (fun q hq => h q (List.mem_cons_of_mem _ hq)) (List.pairwise_cons.1 hd).2]
    rw [List.map_cons, List.sum_cons, (h p List.mem_cons_self).count]

theorem sub_mask {f m : Nat} (hf : f < W64) (h : m &&& f = m) : sub64 f m = f ^^^ m ∧ m &&& (f ^^^ m) = 0 ∧ m ||| (f ^^^ m) = f := by
  have h1 : m &&& (f ^^^ m) = 0 := by
    rw [and_zero_testBit]
    intro j hj
    rw [Nat.testBit_xor, hj, and_self_testBit.1 h j hj]; rfl
  have h2 : m ||| (f ^^^ m) = f := by
    apply Nat.eq_of_testBit_eq
    intro j
    rw [Nat.testBit_or, Nat.testBit_xor]
    cases hm : m.testBit j
    · simp
    · rw [and_self_testBit.1 h j hm]; simp
  refine ⟨?_, h1, h2⟩
  have h3 := add_eq_or _ _ h1
  rw [h2] at h3
  have hle : m ≤ f := by omega
  rw [sub64, show f + W64 - m = (f ^^^ m) + W64 by omega, Nat.add_mod_right]
  exact Nat.mod_eq_of_lt (by omega)

theorem nonMultiMask_fold (ps : List SectorParams) (h : ∀ p ∈ ps, p.Good) (hd : DisjointMasks ps) (t f : Nat) (ht : t < 2 ^ 32) (hf : f < W64)
    (htf : t = bitCount f) (hsub : unionMask ps &&& f = unionMask ps) :
    ∃ nm, ps.foldl (fun r p => (sub32 r.1 p.M, sub64 r.2 p.mask)) (t, f) = (bitCount nm, nm) ∧
      unionMask ps &&& nm = 0 ∧ unionMask ps ||| nm = f := by
  induction ps generalizing t f with
  | nil => exact ⟨f, by simp [htf], by simp [unionMask], by simp [unionMask]⟩
  | cons p ps ih =>
    have hp := h p List.mem_cons_self
    have hu : unionMask (p :: ps) = p.mask ||| unionMask ps := rfl
    have hdis := unionMask_disjoint hd
    rw [hu] at hsub ⊢
    have hsub' := and_self_testBit.1 hsub
    have hps : p.mask &&& f = p.mask := and_self_testBit.2 fun j hj => hsub' j (by rw [Nat.testBit_or, hj]; rfl)
    obtain ⟨a, b, c⟩ := sub_mask hf hps
    rw [List.foldl_cons]
    simp only
    rw [a]
    have hcount : bitCount f = p.M + bitCount (f ^^^ p.mask) := by
      conv_lhs => rw [← c]
      rw [bitCount_or b, hp.count]
    have hs32 : sub32 t p.M = bitCount (f ^^^ p.mask) := by
      rw [sub32, htf, hcount, show p.M + bitCount (f ^^^ p.mask) + 2 ^ 32 - p.M = bitCount (f ^^^ p.mask) + 2 ^ 32 by omega, Nat.add_mod_right]
      apply Nat.mod_eq_of_lt
      omega
    rw [hs32]
    obtain ⟨nm, e1, e2, e3⟩ := ih (fun q hq => h q (List.mem_cons_of_mem _ hq)) (List.pairwise_cons.1 hd).2 (bitCount (f ^^^ p.mask))
      (f ^^^ p.mask) (by omega) (by
        have : f ^^^ p.mask ≤ f := (Nat.right_le_or (n := p.mask)).trans_eq c
        omega) rfl (by
        rw [and_self_testBit]
        intro j hj
        rw [Nat.testBit_xor, hsub' j (by rw [Nat.testBit_or, hj]; simp)]
        have : p.mask.testBit j = false := by
          by_contra hc
          have := and_zero_testBit.1 hdis j (by simpa using hc)
          rw [hj] at this; cases this
        rw [this]; rfl)
    refine ⟨nm, e1, ?_, ?_⟩
    · rw [Nat.and_or_distrib_right, e2, Nat.or_zero, and_zero_testBit]
      intro j hj
      by_contra hc
      have h1 : (f ^^^ p.mask).testBit j = true := by rw [← e3, Nat.testBit_or]; simp at hc; simp [hc]
      have := and_zero_testBit.1 b j hj
      rw [h1] at this; cases this
    · rw [Nat.or_assoc, e3, c]

/-! ### Strides -/

theorem binomial_good {p : SectorParams} (h : p.Good) : binomial p.M p.N = Nat.choose p.M p.N := by
  have h63 := h.valid.1
  have he := h.exact_
  unfold SectorParams.Exact at he
  by_cases hlt : p.M ≤ 62
  · exact binomial_eq_choose _ _ hlt
  · rw [show p.M = 63 by omega, C46_binomial_63]
    rcases he with h1 | h1 | h1
    · exact absurd h1 hlt
    · exact Or.inl h1
    · exact Or.inr h1

theorem sectorStrides_eq (ps : List SectorParams) (h : ∀ p ∈ ps, p.Good) (hsz : multiSizeOf ps < W64) :
    (sectorStrides ps).length = ps.length ∧ (sectorStrides ps).headD 1 = multiSizeOf ps.tail ∧
      (sectorStrides ps).tail = sectorStrides ps.tail := by
  induction ps with
  | nil => exact ⟨rfl, rfl, rfl⟩
  | cons p ps ih =>
    cases ps with
    | nil => exact ⟨rfl, rfl, rfl⟩
    | cons q l =>
      have hps : ∀ r ∈ q :: l, r.Good := fun r hr => h r (List.mem_cons_of_mem _ hr)
      have hsz' : multiSizeOf (q :: l) < W64 := by
        rw [multiSizeOf_cons] at hsz
        exact (Nat.le_mul_of_pos_left _ (Nat.choose_pos (h p List.mem_cons_self).valid.2)).trans_lt hsz
      obtain ⟨i1, i2, i3⟩ := ih hps hsz'
      refine ⟨by rw [sectorStrides]; simp only [List.length_cons]; rw [i1]; rfl, ?_, rfl⟩
      rw [sectorStrides]
      simp only [List.headD_cons, List.tail_cons] at i2 ⊢
      rw [i2, binomial_good (hps q List.mem_cons_self), multiSizeOf_cons]
      rw [multiSizeOf_cons, Nat.mul_comm] at hsz'
      rw [Nat.mul_comm (Nat.choose _ _)]
      exact Nat.mod_eq_of_lt hsz'

theorem multiMapLoop_eq [RankingAlg R] [LawfulRanking R] (ps : List SectorParams) (h : ∀ p ∈ ps, p.Good)
    (hsup : ∀ p ∈ ps, LawfulRanking.supports R p) (hsz : multiSizeOf ps < W64) (s : Nat)
    (hs : ∀ p ∈ ps, bitCount (s &&& p.mask) = p.N) (acc : Nat) (hacc : acc + multiRk ps s < W64) :
    multiMapLoop s ps (ps.map fun p => (RankingAlg.make p : R)) (sectorStrides ps) acc = .ok (acc + multiRk ps s) := by
  induction ps generalizing acc with
  | nil => rfl
  | cons p ps ih =>
    have hg := h p List.mem_cons_self
    have hps : ∀ r ∈ ps, r.Good := fun r hr => h r (List.mem_cons_of_mem _ hr)
    have hsz' : multiSizeOf ps < W64 := by
      rw [multiSizeOf_cons] at hsz
      exact (Nat.le_mul_of_pos_left _ (Nat.choose_pos hg.valid.2)).trans_lt hsz
    obtain ⟨s1, s2, s3⟩ := sectorStrides_eq (p :: ps) h hsz
    have hstr : sectorStrides (p :: ps) = multiSizeOf ps :: sectorStrides ps := by
      cases hc : sectorStrides (p :: ps) with
      | nil => rw [hc] at s1; simp at s1
      | cons a b =>
        rw [hc] at s2 s3
        simp only [List.headD_cons, List.tail_cons] at s2 s3
        rw [s2, s3]
    have hin : InSector p.M p.N (extractBits s p.mask) := by
      refine ⟨?_, ?_⟩
      · rw [hg.count]; exact extractBits_lt s _ hg.mask
      · have := bitCount_extract s _ hg.mask
        rw [hs p List.mem_cons_self] at this
        exact this
    rw [multiRk] at hacc
    rw [hstr, List.map_cons, multiMapLoop, rank_enum p hg.valid (hsup p List.mem_cons_self) hin]
    simp only
    have e : add64 acc (mul64 (combRk p (extractBits s p.mask)) (multiSizeOf ps)) = acc + combRk p (extractBits s p.mask) * multiSizeOf ps := by
      rw [add64, mul64, Nat.mod_eq_of_lt (a := combRk p (extractBits s p.mask) * multiSizeOf ps) (by omega)]
      exact Nat.mod_eq_of_lt (by omega)
    rw [e, ih hps (fun q hq => hsup q (List.mem_cons_of_mem _ hq)) hsz' (fun q hq => hs q (List.mem_cons_of_mem _ hq)) _ (by omega), multiRk,
      Nat.add_assoc]

end LC
