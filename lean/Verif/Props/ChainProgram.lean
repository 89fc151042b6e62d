import Verif.Proof.ChainProgram
import Verif.Props.HubbardPrograms
/-
C115: the Hubbard-Holstein chain of examples/hubbard_holstein_1d.cpp.
-/
set_option linter.unusedSectionVars false
set_option linter.unusedSimpArgs false
namespace LC
namespace Lattice
open HilbertSpace Expr Factory Reg
variable {ι S : Type _} [LinearOrder ι] [CommRing S] [DecidableEq S] [ConstScalar S] [ScalarLaws S] [IsDomain S] [CharZero S]
  [StarRing S] [Algebra ℝ S] {R R' : Type _} [RankingAlg R] [LawfulRanking R] [RankingAlg R'] [LawfulRanking R']
  {el : Nat → Nat → Bool → ι} {ph : Nat → Nat → ι}

theorem mem_chainHop {L : Nat} {t : S} {p : List (Gen ι) × S} :
    p ∈ chainHopTerms el L t ↔ HopTerm el Chain (fun _ _ => False) L 1 t p := by
  simp only [chainHopTerms, List.mem_map, HopTerm]
  constructor
  · rintro ⟨⟨s, i, d⟩, h, rfl⟩
    simp only [List.mem_product, List.mem_range] at h
    cases d
    · exact ⟨s, i + 1, 0, i, 0, by omega, by omega, by omega, by omega, .inl ⟨.inr rfl, rfl⟩, by simp⟩
    · exact ⟨s, i, 0, i + 1, 0, by omega, by omega, by omega, by omega, .inl ⟨.inl rfl, rfl⟩, by simp⟩
  · rintro ⟨s, x, y, x', y', h1, h2, h3, h4, h5 | h5, rfl⟩
    · obtain rfl : y = 0 := by omega
      obtain rfl : y' = 0 := by omega
      rcases h5.1 with rfl | rfl
      · exact ⟨(s, x, true), by simp only [List.mem_product, List.mem_range]; exact ⟨by cases s <;> simp, by omega, by simp⟩, by simp⟩
      · exact ⟨(s, x', false), by simp only [List.mem_product, List.mem_range]; exact ⟨by cases s <;> simp, by omega, by simp⟩, by simp⟩
    · exact h5.2.elim

/-- **C115** The terms of the Hamiltonian of the Hubbard-Holstein chain: hopping between neighbours of an open chain of `L` sites in both directions,
chemical potential, repulsion, phonons and coupling. -/
theorem C115_chain_terms (hi : Inj el ph) (L : Nat) (t mu U w g : S) (ht : t ≠ 0) (hmu : mu ≠ 0) (hU : U ≠ 0) (hw : w ≠ 0) (hg : g ≠ 0)
    (p : List (Gen ι) × S) : p ∈ (chain el ph L t mu U w g).terms ↔
      HopTerm el Chain (fun _ _ => False) L 1 t p ∨ ChemicalTerm el L 1 mu p ∨ CoulombTerm el L 1 U p ∨ PhononTerm ph L 1 w p ∨
        CouplingTerm el ph L 1 g p := by
  rw [(chain_perm hi L ht hmu hU hw hg).mem_iff]
  simp only [chainTerms, List.mem_append, mem_chainHop, mem_coulomb el hi.ne, mem_chem, mem_phonon, mem_coupling, or_assoc]

/-- The elementary spaces of the chain. -/
def chainSpaces (el : Nat → Nat → Bool → ι) (ph : Nat → Nat → ι) (L d : Nat) : List (ESpace ι) :=
  (electrons el L 1).map ESpace.fermion ++ (List.range L).map fun i => ESpace.boson d (ph i 0)

theorem chain_gens (hi : Inj el ph) (L d : Nat) (t mu U w g : S) (ht : t ≠ 0) (hmu : mu ≠ 0) (hU : U ≠ 0) (hw : w ≠ 0) (hg : g ≠ 0) :
    (∀ p ∈ (chain el ph L t mu U w g).terms, ∀ x ∈ p.1, ∃ es ∈ chainSpaces el ph L d, esConstruct (some d) x = some es) ∧
    (∀ es ∈ chainSpaces el ph L d, ∃ p ∈ (chain el ph L t mu U w g).terms, ∃ x ∈ p.1, esConstruct (some d) x = some es) ∧
    allFermions.Homogeneous 0 (chain el ph L t mu U w g) := by
  have key := C115_chain_terms hi L t mu U w g ht hmu hU hw hg
  have hf : ∀ {x y s}, x < L → y < 1 → ∀ b, ∃ es ∈ chainSpaces el ph L d, esConstruct (some d) (.fermion b (el x y s)) = some es :=
    fun h1 h2 b => ⟨_, List.mem_append_left _ (List.mem_map.2 ⟨_, mem_electrons.2 ⟨_, _, _, h1, h2, rfl⟩, rfl⟩), rfl⟩
  have hb : ∀ {x y}, x < L → y < 1 → ∀ b, ∃ es ∈ chainSpaces el ph L d, esConstruct (some d) (.boson b (ph x y)) = some es := by
    intro x y h1 h2 b
    obtain rfl : y = 0 := by omega
    exact ⟨_, List.mem_append_right _ (List.mem_map.2 ⟨x, List.mem_range.2 h1, rfl⟩), rfl⟩
  refine ⟨fun p hp q hq => ?_, fun es hes => ?_, fun p hp => ?_⟩
  · rcases (key p).1 hp with ⟨s, x, y, x', y', h1, h2, h3, h4, h5, rfl⟩ | ⟨s, x, y, h1, h2, rfl⟩ | ⟨x, y, h1, h2, s, h3, rfl⟩ |
      ⟨x, y, h1, h2, rfl⟩ | ⟨s, b, x, y, h1, h2, rfl⟩
    all_goals
      simp only [List.mem_cons, List.not_mem_nil, or_false] at hq
    · rcases hq with rfl | rfl
      · exact hf h1 h2 _
      · exact hf h3 h4 _
    · rcases hq with rfl | rfl <;> exact hf h1 h2 _
    · rcases hq with rfl | rfl | rfl | rfl <;> exact hf h1 h2 _
    · rcases hq with rfl | rfl <;> exact hb h1 h2 _
    · rcases hq with rfl | rfl | rfl
      · exact hf h1 h2 _
      · exact hf h1 h2 _
      · exact hb h1 h2 _
  · rcases List.mem_append.1 hes with hes | hes
    · obtain ⟨i, hi', rfl⟩ := List.mem_map.1 hes
      obtain ⟨x, y, s, h1, h2, rfl⟩ := mem_electrons.1 hi'
      exact ⟨_, (key _).2 (.inr (.inl ⟨s, x, y, h1, h2, rfl⟩)), .fermion true (el x y s), by simp, rfl⟩
    · obtain ⟨i, hi', rfl⟩ := List.mem_map.1 hes
      exact ⟨_, (key _).2 (.inr (.inr (.inr (.inl ⟨i, 0, List.mem_range.1 hi', by omega, rfl⟩)))), .boson true (ph i 0), by simp, rfl⟩
  · rcases (key p).1 hp with ⟨s, x, y, x', y', h1, h2, h3, h4, h5, rfl⟩ | ⟨s, x, y, h1, h2, rfl⟩ | ⟨x, y, h1, h2, s, h3, rfl⟩ |
      ⟨x, y, h1, h2, rfl⟩ | ⟨s, b, x, y, h1, h2, rfl⟩ <;> simp [Charge.mon, Charge.gen, allFermions]

theorem chainSpaces_sum (L d : Nat) (f : ESpace ι → Nat) (a b : Nat) (ha : ∀ i, f (ESpace.fermion i) = a) (hb : ∀ i, f (ESpace.boson d i) = b) :
    ((chainSpaces el ph L d).map f).sum = 2 * L * a + L * b ∧ ((chainSpaces el ph L d).map f).prod = a ^ (2 * L) * b ^ L := by
  have h : (chainSpaces el ph L d).map f = List.replicate (2 * L) a ++ List.replicate L b := by
    rw [chainSpaces, List.map_append, List.map_map, List.map_map]
    congr 1
    · rw [List.eq_replicate_iff]
      refine ⟨by rw [List.length_map, electrons_length, Nat.mul_one], fun x hx => ?_⟩
      obtain ⟨i, _, rfl⟩ := List.mem_map.1 hx
      exact ha i
    · rw [List.eq_replicate_iff]
      refine ⟨by simp, fun x hx => ?_⟩
      obtain ⟨i, _, rfl⟩ := List.mem_map.1 hx
      exact hb _
  rw [h]
  simp

/-- **C115** The Hilbert space of the chain with `d` phonon states per site: `2^(2L) d^L` states in `2L + L ⌈log2 d⌉` bits. It cannot be built with
more than 63 bits. -/
theorem C115_chain_space (hi : Inj el ph) (L d : Nat) (hd : 0 < d) (t mu U w g : S) (ht : t ≠ 0) (hmu : mu ≠ 0) (hU : U ≠ 0) (hw : w ≠ 0) (hg : g ≠ 0) :
    (63 < 2 * L + L * Nat.clog 2 d → ofMonomials (esConstruct (some d)) ((chain el ph L t mu U w g).terms.map (·.1)) =
      .error (.tooBig (2 * L + L * Nat.clog 2 d : Nat))) ∧
    (2 * L + L * Nat.clog 2 d ≤ 63 → ∃ hs, ofMonomials (esConstruct (some d)) ((chain el ph L t mu U w g).terms.map (·.1)) = .ok hs ∧
      hs.dim = 2 ^ (2 * L) * d ^ L ∧ hs.totalNBits = (2 * L + L * Nat.clog 2 d : Nat) ∧ (fermionModes hs).length = 2 * L ∧
      ∀ es, es ∈ hs.elementarySpaces ↔ (∃ x s, x < L ∧ es = ESpace.fermion (el x 0 s)) ∨ ∃ x, x < L ∧ es = ESpace.boson d (ph x 0)) := by
  obtain ⟨g1, g2, -⟩ := chain_gens hi L d t mu U w g ht hmu hU hw hg
  have hmem : ∀ es, es ∈ chainSpaces el ph L d ↔ ∃ m ∈ (chain el ph L t mu U w g).terms.map (·.1), ∃ x ∈ m, esConstruct (some d) x = some es := by
    intro es
    constructor
    · intro h
      obtain ⟨p, hp, x, hx, h⟩ := g2 es h
      exact ⟨p.1, List.mem_map.2 ⟨p, hp, rfl⟩, x, hx, h⟩
    · rintro ⟨m, hm, x, hx, hxe⟩
      obtain ⟨p, hp, rfl⟩ := List.mem_map.1 hm
      obtain ⟨es', h1, h2⟩ := g1 p hp x hx
      rw [hxe] at h2
      cases h2
      exact h1
  have hnd : (chainSpaces el ph L d).Nodup := by
    rw [chainSpaces, List.nodup_append']
    refine ⟨(electrons_nodup hi.el L 1).map fun a b h => by simpa [ESpace.fermion] using h, List.nodup_range.map fun a b h => ?_, ?_⟩
    · simp only [ESpace.boson, ESpace.mk.injEq, true_and, and_true] at h
      exact (hi.ph _ _ _ _ h).1
    · intro es h1 h2
      obtain ⟨i, _, rfl⟩ := List.mem_map.1 h1
      obtain ⟨j, _, h⟩ := List.mem_map.1 h2
      simp [ESpace.fermion, ESpace.boson] at h
  have hsum : ((chainSpaces el ph L d).map ESpace.nBits).sum = 2 * L + L * Nat.clog 2 d := by
    rw [(chainSpaces_sum L d ESpace.nBits 1 (Nat.clog 2 d) (fun _ => rfl) fun _ => rfl).1, Nat.mul_one]
  have h30 := (C30_throws_iff (some d) ((chain el ph L t mu U w g).terms.map (·.1)) _ hnd hmem (by
    intro es hes
    rcases List.mem_append.1 hes with hes | hes
    · obtain ⟨i, _, rfl⟩ := List.mem_map.1 hes; exact wf_fermion i
    · obtain ⟨i, _, rfl⟩ := List.mem_map.1 hes; exact wf_boson d hd _)).2 (by
      intro m hm x hx
      obtain ⟨p, hp, rfl⟩ := List.mem_map.1 hm
      obtain ⟨es, -, h⟩ := g1 p hp x hx
      simp [h])
  rw [hsum] at h30
  refine ⟨fun h => by rw [if_neg (by omega)] at h30; exact h30, fun h => ?_⟩
  rw [if_pos h] at h30
  obtain ⟨hs, hok⟩ := h30
  have hI := is_chain (el := el) (ph := ph) L t mu U w g hi.ne
  have hbd : ∀ d', some d = some d' → 0 < d' := fun d' h => by cases h; exact hd
  obtain ⟨hc, hpre, hid, hre, hmodes⟩ := space_facts hFB (fun _ _ h => h.elim) (some d) hbd _ hI.1 hs hok
  obtain ⟨hel, -⟩ := C30_space_of_expression hFB (fun _ _ h => h.elim) (some d) hbd _ hI.1 hs hok
  have hperm : hs.elementarySpaces.Perm (chainSpaces el ph L d) := by
    refine (List.perm_ext_iff_of_nodup (nodup_spaces hc) hnd).2 fun es => ?_
    rw [hel, hmem]
    constructor
    · rintro ⟨p, hp, x, hx, h⟩; exact ⟨p.1, List.mem_map.2 ⟨p, hp, rfl⟩, x, hx, h⟩
    · rintro ⟨m, hm, x, hx, h⟩
      obtain ⟨p, hp, rfl⟩ := List.mem_map.1 hm
      exact ⟨p, hp, x, hx, h⟩
  obtain ⟨-, b2, -, b4, -⟩ := C26_bit_ranges hs hc
  refine ⟨hs, hok, ?_, ?_, ?_, fun es => ?_⟩
  · rw [b4, (hperm.map _).prod_eq, (chainSpaces_sum L d ESpace.dim 2 d (fun _ => rfl) fun _ => rfl).2]
  · rw [b2, (hperm.map _).sum_eq, hsum]
  · rw [fermionModes, List.length_map, (hperm.filter _).length_eq, chainSpaces, List.filter_append, List.length_append, List.filter_eq_self.2,
      List.filter_eq_nil_iff.2, List.length_map, electrons_length, Nat.mul_one, List.length_nil, Nat.add_zero]
    · intro es hes
      obtain ⟨i, _, rfl⟩ := List.mem_map.1 hes
      simp [ESpace.boson]
    · intro es hes
      obtain ⟨i, _, rfl⟩ := List.mem_map.1 hes
      simp [ESpace.fermion]
  · rw [hperm.mem_iff, chainSpaces, List.mem_append, List.mem_map, List.mem_map]
    constructor
    · rintro (⟨i, h1, rfl⟩ | ⟨i, h1, rfl⟩)
      · obtain ⟨x, y, s, h3, h2, rfl⟩ := mem_electrons.1 h1
        obtain rfl : y = 0 := by omega
        exact .inl ⟨x, s, h3, rfl⟩
      · exact .inr ⟨i, List.mem_range.1 h1, rfl⟩
    · rintro (⟨x, s, h1, rfl⟩ | ⟨x, h1, rfl⟩)
      · exact .inl ⟨_, mem_electrons.2 ⟨x, 0, s, h1, by omega, rfl⟩, rfl⟩
      · exact .inr ⟨x, List.mem_range.2 h1, rfl⟩

/-- **C115** examples/hubbard_holstein_1d.cpp for a chain of any length, any parameters, `2^k` phonon states per site and any number of electrons: the
matrix that the program gives to the eigensolver is the matrix of the Hamiltonian in the sector with `N` electrons, which has `(2L choose N) 2^(kL)`
states. -/
theorem C115_chain_sector_partial (hi : Inj el ph) (L k : Nat) (hL : 0 < L) (h63 : 2 * L + L * k ≤ 63) (t mu U w g : S) (ht : t ≠ 0) (hmu : mu ≠ 0)
    (hU : U ≠ 0) (hw : w ≠ 0) (hg : g ≠ 0) (hsup : ∀ p : SectorParams, p.M = 2 * L → LawfulRanking.supports R p)
    (hsup' : ∀ p : SectorParams, p.M = 2 * L → LawfulRanking.supports R' p) (N : Nat) (hN : N ≤ 2 * L) :
    ∃ hs l, ofMonomials (esConstruct (some (2 ^ k))) ((chain el ph L t mu U w g).terms.map (·.1)) = .ok hs ∧ l.Nodup ∧
      (∀ s, s ∈ l ↔ InNSector hs N s) ∧ l.length = Nat.choose (2 * L) N * (2 ^ k) ^ L ∧ StaysIn hs (chain el ph L t mu U w g) l ∧
      ∀ psi mem : List S, mem.length = l.length * l.length →
        ∃ mem', sectorProgram R R' (some (2 ^ k)) (chain el ph L t mu U w g) N psi mem = some mem' ∧ IsMatrixOf hs (chain el ph L t mu U w g) l mem' := by
  have hk : Nat.clog 2 (2 ^ k) = k := Nat.clog_pow 2 k (by decide)
  have hpos : 0 < 2 ^ k := by positivity
  obtain ⟨hs, hok, hdim, hT, hlen, -⟩ := (C115_chain_space hi L (2 ^ k) hpos t mu U w g ht hmu hU hw hg).2 (by rw [hk]; exact h63)
  rw [hk] at hT
  have hbd : ∀ d', some (2 ^ k) = some d' → 0 < d' := fun d' h => by cases h; exact hpos
  have hsp : hs.isSparse = false := by
    rw [isSparse, hdim, vecSize, hT, Int.toNat_natCast, pow2_eq (by omega), ← pow_mul, ← pow_add, Nat.mul_comm k L]
    simp
  obtain ⟨l, a1, a2, a3, a4, a5, a6⟩ := C115_program_partial (R := R) (R' := R') hFB (fun _ _ h => h.elim) (some (2 ^ k)) hbd _
    (is_chain (el := el) (ph := ph) L t mu U w g hi.ne).1 (chain_gens hi L (2 ^ k) t mu U w g ht hmu hU hw hg).2.2
    hs hok hsp (by rw [hT]; omega) (by rw [hlen]; exact hsup) (by rw [hlen]; exact hsup') N (by omega) (.inl (by rw [hlen]; omega))
  refine ⟨hs, l, hok, a2, a3, ?_, a5, a6⟩
  rw [a4, hlen, hT, Int.toNat_natCast, Nat.add_sub_cancel_left, ← pow_mul, Nat.mul_comm k L]

/-- **C115** When the number of phonon states is not a power of two, the program ends with an exception. -/
theorem C115_chain_sparse (hi : Inj el ph) (L d : Nat) (hL : 0 < L) (hd : 0 < d) (hnp : ∀ k, d ≠ 2 ^ k) (t mu U w g : S) (ht : t ≠ 0) (hmu : mu ≠ 0)
    (hU : U ≠ 0) (hw : w ≠ 0) (hg : g ≠ 0) (N : Nat) (psi mem : List S) :
    sectorProgram R R' (some d) (chain el ph L t mu U w g) N psi mem = none := by
  rcases le_or_gt (2 * L + L * Nat.clog 2 d) 63 with h | h
  · obtain ⟨hs, hok, hdim, hT, hlen, -⟩ := (C115_chain_space hi L d hd t mu U w g ht hmu hU hw hg).2 h
    have hlt : d < 2 ^ Nat.clog 2 d := lt_of_le_of_ne (Nat.le_pow_clog (by decide) d) (hnp _)
    have hsp : hs.isSparse = true := by
      rw [isSparse, hdim, vecSize, hT, Int.toNat_natCast, pow2_eq (lt_of_le_of_lt h (by decide)), pow_add, Nat.mul_comm L, pow_mul 2 (Nat.clog 2 d) L]
      exact decide_eq_true (Nat.mul_lt_mul_of_pos_left (Nat.pow_lt_pow_left hlt hL.ne') (by positivity))
    rw [sectorProgram, hok]
    simp only
    cases LOperator.make (chain el ph L t mu U w g) hs with
    | error _ => rfl
    | ok op =>
      simp only [FillMatrix.sector, sectorSize, hsp, if_true]
  · rw [sectorProgram, (C115_chain_space hi L d hd t mu U w g ht hmu hU hw hg).1 h]

/-! ### Examples -/

open scoped Classical in
/-- The hypotheses of the theorems are met: a 2 × 2 torus with two electrons has a matrix of 28 × 28 numbers, in the multisector with one electron
of each spin 16 × 16; a chain of two sites with two phonon states has 24 states with two electrons. -/
theorem c115_hypotheses : Distinct exEl ∧ Inj exEl exPh ∧ (∀ p, LawfulRanking.supports CombRanking p) ∧ ((1 : ℂ) ≠ 0) ∧
    (∃ hs : HilbertSpace Nat, ∃ mem' : List ℂ, mem'.length = 28 * 28 ∧
      ofMonomials (esConstruct none) ((fermiHubbard exEl 2 2 (1 : ℂ) 1 1).terms.map (·.1)) = .ok hs ∧ hs.dim = 256 ∧
      sectorProgram CombRanking CombRanking none (fermiHubbard exEl 2 2 (1 : ℂ) 1 1) 2 [] (List.replicate (28 * 28) 0) = some mem') ∧
    (∃ mem' : List ℂ, mem'.length = 16 * 16 ∧
      multisectorProgram CombRanking CombRanking (fermiHubbard exEl 2 2 (1 : ℂ) 1 1) (spinSectors exEl 2 2 1 1) [] (List.replicate (16 * 16) 0) = some mem') ∧
    ∃ mem' : List ℂ, mem'.length = 24 * 24 ∧
      sectorProgram CombRanking CombRanking (some 2) (chain exEl exPh 2 (1 : ℂ) 1 1 1 1) 2 [] (List.replicate (24 * 24) 0) = some mem' := by
  have hi := c113_hypotheses.1
  have h1 : (1 : ℂ) ≠ 0 := one_ne_zero
  refine ⟨hi.el, hi, fun _ => trivial, h1, ?_, ?_, ?_⟩
  · obtain ⟨hs, l, a1, -, -, a4, -, a6⟩ := C115_hubbard_sector (R := CombRanking) (R' := CombRanking) (el := exEl) hi.el 2 2 le_rfl le_rfl (by decide) (1 : ℂ) 1 1 h1 h1 h1
      (fun _ _ => trivial) (fun _ _ => trivial) 2 (by decide)
    have h28 : l.length = 28 := a4.trans (by decide)
    obtain ⟨mem', m1, m2⟩ := a6 [] (List.replicate (28 * 28) 0) (by rw [h28, List.length_replicate])
    obtain ⟨hs', b1, b2, -⟩ := (C115_hubbard_space (el := exEl) hi.el 2 2 le_rfl le_rfl (1 : ℂ) 1 1 h1 h1 h1).2 (by decide)
    exact ⟨hs', mem', by rw [m2.1, h28], b1, by rw [b2]; rfl, m1⟩
  · obtain ⟨hs, l, a1, -, -, a4, -, a6⟩ := C115_hubbard_multisector_partial (R := CombRanking) (R' := CombRanking) (el := exEl) hi.el 2 2 le_rfl le_rfl (by decide) (1 : ℂ) 1 1
      h1 h1 h1 (fun _ _ => trivial) (fun _ _ => trivial) 1 1 (by decide) (by decide)
    have h16 : l.length = 16 := a4.trans (by decide)
    obtain ⟨mem', m1, m2⟩ := a6 [] (List.replicate (16 * 16) 0) (by rw [h16, List.length_replicate])
    exact ⟨mem', by rw [m2.1, h16], m1⟩
  · obtain ⟨hs, l, a1, -, -, a4, -, a6⟩ := C115_chain_sector_partial (R := CombRanking) (R' := CombRanking) hi 2 1 (by decide) (by decide) (1 : ℂ) 1 1 1 1
      h1 h1 h1 h1 h1 (fun _ _ => trivial) (fun _ _ => trivial) 2 (by decide)
    have h24 : l.length = 24 := a4.trans (by decide)
    obtain ⟨mem', m1, m2⟩ := a6 [] (List.replicate (24 * 24) 0) (by rw [h24, List.length_replicate])
    exact ⟨mem', by rw [m2.1, h24], m1⟩

end Lattice
end LC
