import Verif.Proof.Enum
import Verif.Proof.CompView
/-
Products of sectors: the words whose bits under several disjoint masks have given counts, in lexicographic order.
-/
set_option linter.unusedSimpArgs false
namespace LC

theorem add_eq_or (a b : Nat) (h : a &&& b = 0) : a + b = a ||| b := by
  induction a using Nat.strongRecOn generalizing b with
  | _ a ih =>
    by_cases h0 : a = 0
    · subst h0; simp
    · have h1 : (a / 2) &&& (b / 2) = 0 := by rw [← Nat.and_div_two, h]
      have h2 := ih (a / 2) (by omega) _ h1
      have h3 : (a ||| b) / 2 = a / 2 ||| b / 2 := Nat.or_div_two
      have h4 : (a &&& b) % 2 = 0 := by rw [h]
      have h5 := Nat.mod_two_eq_zero_or_one a
      have h6 := Nat.mod_two_eq_zero_or_one b
      have h7 : (a ||| b) % 2 = if a % 2 = 1 ∨ b % 2 = 1 then 1 else 0 := by
        have e : (a ||| b) % 2 = 1 ↔ a % 2 = 1 ∨ b % 2 = 1 := Nat.or_mod_two_eq_one
        split
        · next hc => exact e.2 hc
        · next hc => have := mt e.1 hc; omega
      have h8 : ¬ (a % 2 = 1 ∧ b % 2 = 1) := by
        intro hc
        have := Nat.and_mod_two_eq_one.2 hc
        omega
      split at h7 <;> omega

theorem and_self_testBit {b m : Nat} : b &&& m = b ↔ ∀ j, b.testBit j = true → m.testBit j = true := by
  constructor
  · intro h j hj
    rw [← h, Nat.testBit_and, Bool.and_eq_true] at hj
    exact hj.2
  · intro h
    apply Nat.eq_of_testBit_eq
    intro j
    rw [Nat.testBit_and]
    cases hb : b.testBit j
    · rfl
    · rw [h j hb]; rfl

theorem and_zero_testBit {a b : Nat} : a &&& b = 0 ↔ ∀ j, a.testBit j = true → b.testBit j = false := by
  constructor
  · intro h j hj
    have := congrArg (fun x => x.testBit j) h
    simp only [Nat.testBit_and, hj, Bool.true_and, Nat.zero_testBit] at this
    exact this
  · intro h
    apply Nat.eq_of_testBit_eq
    intro j
    rw [Nat.testBit_and, Nat.zero_testBit]
    cases ha : a.testBit j
    · rfl
    · rw [h j ha]; rfl

theorem extractBits_and (v m : Nat) (hm : m < W64) : extractBits (v &&& m) m = extractBits v m := by
  apply Nat.eq_of_testBit_eq
  intro j
  rw [extractBits_testBit _ _ hm, extractBits_testBit _ _ hm]
  cases hb : (bitPositions m)[j]? with
  | none => rfl
  | some p =>
    have := (mem_bitPositions.1 (List.mem_of_getElem? hb)).2
    simp [Nat.testBit_and, this]

/-- Words of two disjoint masks add up bit by bit. -/
theorem mask_split {a b m n : Nat} (ha : a &&& m = a) (hb : b &&& n = b) (hd : m &&& n = 0) :
    a + b = a ||| b ∧ (a + b) &&& m = a ∧ (a + b) &&& n = b := by
  rw [and_self_testBit] at ha hb
  rw [and_zero_testBit] at hd
  have h0 : a &&& b = 0 := and_zero_testBit.2 fun j hj => by
    by_contra hc
    have h1 := hb j (by simpa using hc)
    rw [hd j (ha j hj)] at h1
    cases h1
  have e := add_eq_or a b h0
  refine ⟨e, ?_, ?_⟩
  · rw [e]
    apply Nat.eq_of_testBit_eq
    intro j
    rw [Nat.testBit_and, Nat.testBit_or]
    have h1 := ha j; have h2 := hb j; have h3 := hd j
    cases ja : a.testBit j <;> cases jb : b.testBit j <;> cases jm : m.testBit j <;> cases jn : n.testBit j <;> simp_all
  · rw [e]
    apply Nat.eq_of_testBit_eq
    intro j
    rw [Nat.testBit_and, Nat.testBit_or]
    have h1 := ha j; have h2 := hb j; have h3 := hd j
    cases ja : a.testBit j <;> cases jb : b.testBit j <;> cases jm : m.testBit j <;> cases jn : n.testBit j <;> simp_all

/-- The union of the masks. -/
def unionMask (ps : List SectorParams) : Nat := ps.foldr (fun p m => p.mask ||| m) 0

theorem unionMask_testBit (ps : List SectorParams) (j : Nat) : (unionMask ps).testBit j = true ↔ ∃ p ∈ ps, p.mask.testBit j = true := by
  induction ps with
  | nil => simp [unionMask]
  | cons p ps ih =>
    rw [unionMask, List.foldr_cons, Nat.testBit_or, Bool.or_eq_true]
    rw [show (ps.foldr (fun (p : SectorParams) m => p.mask ||| m) 0).testBit j = (unionMask ps).testBit j from rfl, ih]
    simp

/-- A sector of `M` modes given by the bits of a mask. -/
structure SectorParams.Good (p : SectorParams) : Prop where
  valid : p.Valid
  exact_ : p.Exact
  mask : p.mask < W64
  count : p.M = bitCount p.mask

/-- The masks do not overlap. -/
def DisjointMasks (ps : List SectorParams) : Prop := ps.Pairwise fun p q => p.mask &&& q.mask = 0

/-- Lexicographic order, the first list being the slowest one. -/
def lexList : List (List Nat) → List Nat
  | [] => [0]
  | L :: Ls => L.flatMap fun a => (lexList Ls).map fun b => a + b

/-- The words of a sector deposited into its mask. -/
def sectorWords (p : SectorParams) : List Nat :=
  match UnrankGen.drain W64 (UnrankGen.make p) with
  | none => []
  | some (l, _) => l.map fun x => depositBits x p.mask

/-- Words within the union of the masks with the given counts. -/
def InMasks (ps : List SectorParams) (s : Nat) : Prop := s &&& unionMask ps = s ∧ ∀ p ∈ ps, bitCount (s &&& p.mask) = p.N

def multiSizeOf (ps : List SectorParams) : Nat := (ps.map fun p => Nat.choose p.M p.N).prod

/-- The rank: digits `combRk` in mixed radix. -/
def multiRk : List SectorParams → Nat → Nat
  | [], _ => 0
  | p :: ps, s => combRk p (extractBits s p.mask) * multiSizeOf ps + multiRk ps s

theorem sectorWords_enum (p : SectorParams) (h : p.Good) : (sectorWords p).length = Nat.choose p.M p.N ∧
    Enumerates (sectorWords p) (InMask p.mask p.N) (fun b => combRk p (extractBits b p.mask)) := by
  obtain ⟨l, g', h1, h2, h3⟩ := unranked_enum p h.valid h.exact_
  have e : sectorWords p = l.map fun x => depositBits x p.mask := by rw [sectorWords, h1]
  rw [e]
  exact ⟨by rw [List.length_map, h2], deposit_enum p.mask h.mask p h.count h3⟩

theorem multiRk_congr (ps : List SectorParams) (s t : Nat) (h : ∀ p ∈ ps, p.mask < W64 ∧ s &&& p.mask = t &&& p.mask) :
    multiRk ps s = multiRk ps t := by
  induction ps with
  | nil => rfl
  | cons p ps ih =>
    obtain ⟨h1, h2⟩ := h p List.mem_cons_self
    rw [multiRk, multiRk, ih fun q hq => h q (List.mem_cons_of_mem _ hq), ← extractBits_and s _ h1, ← extractBits_and t _ h1, h2]

theorem unionMask_disjoint {p : SectorParams} {ps : List SectorParams} (h : DisjointMasks (p :: ps)) : p.mask &&& unionMask ps = 0 := by
  rw [and_zero_testBit]
  intro j hj
  by_contra hc
  obtain ⟨q, hq, hb⟩ := (unionMask_testBit ps j).1 (by simpa using hc)
  have := and_zero_testBit.1 ((List.pairwise_cons.1 h).1 q hq) j hj
  rw [this] at hb; cases hb

theorem and_sub {s m n : Nat} (h : ∀ j, m.testBit j = true → n.testBit j = true) : (s &&& n) &&& m = s &&& m := by
  rw [Nat.and_assoc]
  congr 1
  rw [Nat.and_comm]
  exact and_self_testBit.2 h

theorem unionMask_sub {p : SectorParams} {ps : List SectorParams} (h : p ∈ ps) : ∀ j, p.mask.testBit j = true → (unionMask ps).testBit j = true :=
  fun j hj => (unionMask_testBit ps j).2 ⟨p, h, hj⟩

theorem lex_enum (ps : List SectorParams) (h : ∀ p ∈ ps, p.Good) (hd : DisjointMasks ps) :
    (lexList (ps.map sectorWords)).length = multiSizeOf ps ∧
      Enumerates (lexList (ps.map sectorWords)) (InMasks ps) (multiRk ps) := by
  induction ps with
  | nil =>
    refine ⟨rfl, fun i s => ?_⟩
    simp only [List.map_nil, lexList, InMasks, unionMask, List.foldr_nil, Nat.and_zero, multiRk, List.not_mem_nil, false_implies,
      implies_true, and_true]
    rcases i with _ | i
    · simp [eq_comm]
    · simp
  | cons p ps ih =>
    obtain ⟨i1, i2⟩ := ih (fun q hq => h q (List.mem_cons_of_mem _ hq)) (List.pairwise_cons.1 hd).2
    have hp := h p List.mem_cons_self
    obtain ⟨w1, w2⟩ := sectorWords_enum p hp
    have hdis := unionMask_disjoint hd
    have hu : unionMask (p :: ps) = p.mask ||| unionMask ps := rfl
    have hq : ∀ q ∈ ps, p.mask &&& q.mask = 0 := (List.pairwise_cons.1 hd).1
    constructor
    · simp only [List.map_cons, lexList, List.length_flatMap, List.length_map, i1, List.map_const', List.sum_replicate, smul_eq_mul, w1]
      simp [multiSizeOf]
    have key := Enumerates.prod (P := InMasks (p :: ps)) w2 i2 (fun a b => a + b) (fun s => s &&& p.mask) (fun s => s &&& unionMask ps)
      (by
        rintro a b ⟨a1, a2⟩ ⟨b1, b2⟩
        obtain ⟨e1, e2, e3⟩ := mask_split a1 b1 hdis
        refine ⟨⟨?_, ?_⟩, e2, e3⟩
        · rw [e1, and_self_testBit]
          intro j hj
          rw [Nat.testBit_or, Bool.or_eq_true] at hj
          rw [hu, Nat.testBit_or, Bool.or_eq_true]
          exact hj.imp (and_self_testBit.1 a1 j) (and_self_testBit.1 b1 j)
        · intro q hqm
          rcases List.mem_cons.1 hqm with rfl | hqm
          · simp only [e2, a2]
          · rw [← b2 q hqm, ← and_sub (s := a + b) (unionMask_sub hqm), e3])
      (by
        rintro s ⟨s1, s2⟩
        refine ⟨⟨by rw [Nat.and_assoc, Nat.and_self], s2 p List.mem_cons_self⟩, ⟨by rw [Nat.and_assoc, Nat.and_self], fun q hqm => ?_⟩, ?_⟩
        · rw [and_sub (unionMask_sub hqm)]
          exact s2 q (List.mem_cons_of_mem _ hqm)
        · rw [(mask_split (a := s &&& p.mask) (b := s &&& unionMask ps) (m := p.mask) (n := unionMask ps)
            (by rw [Nat.and_assoc, Nat.and_self]) (by rw [Nat.and_assoc, Nat.and_self]) hdis).1, ← Nat.and_or_distrib_left, ← hu, s1])
    refine key.congr (fun _ => Iff.rfl) fun s hs => ?_
    rw [multiRk, i1, extractBits_and _ _ hp.mask]
    congr 1
    refine multiRk_congr ps _ _ fun q hqm => ⟨(h q (List.mem_cons_of_mem _ hqm)).mask, ?_⟩
    rw [and_sub (unionMask_sub hqm)]

/-- All words of `T` bits with the given counts under the masks: `nm` is the mask of the remaining bits. -/
theorem full_enum (ps : List SectorParams) (h : ∀ p ∈ ps, p.Good) (hd : DisjointMasks ps) (T nm : Nat) (hT : T ≤ 63)
    (hnd : unionMask ps &&& nm = 0) (hnu : unionMask ps ||| nm = 2 ^ T - 1) :
    Enumerates ((lexList (ps.map sectorWords)).flatMap fun u => (List.range (2 ^ bitCount nm)).map fun x => add64 u (depositBits x nm))
      (fun s => s < 2 ^ T ∧ ∀ p ∈ ps, bitCount (s &&& p.mask) = p.N) (fun s => multiRk ps s * 2 ^ bitCount nm + extractBits s nm) := by
  obtain ⟨_, i2⟩ := lex_enum ps h hd
  have h2T : 2 ^ T ≤ 2 ^ 63 := Nat.pow_le_pow_right (by decide) hT
  have hTW : 2 ^ T - 1 < W64 := by
    have : (2 : Nat) ^ 63 < W64 := by decide
    omega
  have hnm : nm < W64 := by
    rw [← hnu] at hTW
    exact Nat.right_le_or.trans_lt hTW
  have hlt : ∀ s, s < 2 ^ T ↔ s &&& (2 ^ T - 1) = s := by
    intro s
    rw [Nat.and_two_pow_sub_one_eq_mod]
    exact ⟨Nat.mod_eq_of_lt, fun h => by rw [← h]; exact Nat.mod_lt _ (Nat.two_pow_pos _)⟩
  have hsub : ∀ p ∈ ps, ∀ j, p.mask.testBit j = true → (2 ^ T - 1).testBit j = true := by
    intro p hp j hj
    rw [← hnu, Nat.testBit_or, unionMask_sub hp j hj]; rfl
  have key := Enumerates.prod (P := fun s => s < 2 ^ T ∧ ∀ p ∈ ps, bitCount (s &&& p.mask) = p.N) i2 (deposit_range_enum nm hnm) add64
    (fun s => s &&& unionMask ps) (fun s => s &&& nm)
      (by
        rintro a b ⟨a1, a2⟩ b1
        obtain ⟨e1, e2, e3⟩ := mask_split a1 b1 hnd
        have hs : (a + b) &&& (2 ^ T - 1) = a + b := by
          rw [e1, and_self_testBit]
          intro j hj
          rw [Nat.testBit_or, Bool.or_eq_true] at hj
          rw [← hnu, Nat.testBit_or, Bool.or_eq_true]
          exact hj.imp (and_self_testBit.1 a1 j) (and_self_testBit.1 b1 j)
        have hlt' := (hlt _).2 hs
        have e0 : add64 a b = a + b := Nat.mod_eq_of_lt (by
          have : (2 : Nat) ^ 63 < W64 := by decide
          omega)
        simp only [e0]
        refine ⟨⟨hlt', fun p hp => ?_⟩, e2, e3⟩
        rw [← a2 p hp, ← and_sub (s := a + b) (unionMask_sub hp), e2])
      (by
        rintro s ⟨s1, s2⟩
        refine ⟨⟨by rw [Nat.and_assoc, Nat.and_self], fun q hqm => ?_⟩, by simp only [Nat.and_assoc, Nat.and_self], ?_⟩
        · rw [and_sub (unionMask_sub hqm)]
          exact s2 q hqm
        · have e0 : (s &&& unionMask ps) + (s &&& nm) = s := by
            rw [(mask_split (a := s &&& unionMask ps) (b := s &&& nm) (m := unionMask ps) (n := nm)
              (by rw [Nat.and_assoc, Nat.and_self]) (by rw [Nat.and_assoc, Nat.and_self]) hnd).1, ← Nat.and_or_distrib_left, hnu,
              (hlt s).1 s1]
          show add64 _ _ = s
          rw [add64, e0]
          exact Nat.mod_eq_of_lt (by
            have : (2 : Nat) ^ 63 < W64 := by decide
            omega))
  simp only [List.map_map, Function.comp_def] at key
  refine key.congr (fun _ => Iff.rfl) fun s _ => ?_
  rw [List.length_map, List.length_range, extractBits_and _ _ hnm]
  congr 2
  exact multiRk_congr ps _ _ fun q hqm => ⟨(h q hqm).mask, and_sub (unionMask_sub hqm)⟩

end LC
