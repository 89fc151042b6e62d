import Verif.Proof.HubbardPrograms
/-
C115: from a lattice model to its sector matrix.
-/
set_option linter.unusedSectionVars false
set_option linter.unusedSimpArgs false
namespace LC
namespace Lattice
open HilbertSpace Expr Factory Reg
variable {ι S : Type _} [LinearOrder ι] [CommRing S] [DecidableEq S] [ConstScalar S] [ScalarLaws S] [IsDomain S] [CharZero S]
  [Star S] [Algebra ℝ S] {R R' : Type _} [RankingAlg R] [LawfulRanking R] [RankingAlg R'] [LawfulRanking R'] {el : Nat → Nat → Bool → ι}

/-- Different orbitals have different indices. -/
def Distinct (el : Nat → Nat → Bool → ι) : Prop := ∀ x y s x' y' s', el x y s = el x' y' s' → x = x' ∧ y = y' ∧ s = s'

theorem Distinct.inj (h : Distinct el) : Inj el fun x y => el x y true := ⟨h, fun _ _ _ _ e => ⟨(h _ _ _ _ _ _ e).1, (h _ _ _ _ _ _ e).2.1⟩⟩

/-- The term `-mu n(i,s)`. -/
def ChemicalTerm (el : Nat → Nat → Bool → ι) (Nx Ny : Nat) (mu : S) (p : List (Gen ι) × S) : Prop :=
  ∃ s x y, x < Nx ∧ y < Ny ∧ p = ([.fermion true (el x y s), .fermion false (el x y s)], -mu)

theorem mem_chem {Nx Ny : Nat} {mu : S} {p : List (Gen ι) × S} : p ∈ chemTerms el Nx Ny mu ↔ ChemicalTerm el Nx Ny mu p := by
  simp only [chemTerms, List.mem_map, ChemicalTerm]
  constructor
  · rintro ⟨⟨⟨x, y⟩, s⟩, h, rfl⟩
    simp only [List.mem_product, mem_sites] at h
    exact ⟨s, x, y, h.1.1, h.1.2, rfl⟩
  · rintro ⟨s, x, y, h1, h2, rfl⟩
    refine ⟨((x, y), s), ?_, rfl⟩
    simp only [List.mem_product, mem_sites]
    exact ⟨⟨h1, h2⟩, by cases s <;> simp⟩

/-- **C115** The terms of the Hubbard Hamiltonian of examples/n_fermion_sectors.cpp on an `Nx × Ny` torus. -/
theorem C115_hubbard_terms (hd : Distinct el) (Nx Ny : Nat) (hx : 2 ≤ Nx) (hy : 2 ≤ Ny) (t mu U : S) (ht : t ≠ 0) (hmu : mu ≠ 0) (hU : U ≠ 0)
    (p : List (Gen ι) × S) : p ∈ (fermiHubbard el Nx Ny t mu U).terms ↔
      HopTerm el (Ring Nx) (Ring Ny) Nx Ny t p ∨ ChemicalTerm el Nx Ny mu p ∨ CoulombTerm el Nx Ny U p := by
  rw [(hub_perm hd.inj hx hy ht hmu hU).mem_iff]
  simp only [hubTerms, List.mem_append, mem_hop el (fun a b => neighbors_ring a b) (fun a b => neighbors_ring a b), mem_coulomb el hd.inj.ne, mem_chem, or_assoc]

/-- All electronic orbitals. -/
def electrons (el : Nat → Nat → Bool → ι) (Nx Ny : Nat) : List ι := (sites Nx Ny ×ˢ [true, false]).map fun q => el q.1.1 q.1.2 q.2

theorem mem_electrons {Nx Ny : Nat} {i : ι} : i ∈ electrons el Nx Ny ↔ ∃ x y s, x < Nx ∧ y < Ny ∧ i = el x y s := by
  simp only [electrons, List.mem_map]
  constructor
  · rintro ⟨⟨⟨x, y⟩, s⟩, h, rfl⟩
    simp only [List.mem_product, mem_sites] at h
    exact ⟨x, y, s, h.1.1, h.1.2, rfl⟩
  · rintro ⟨x, y, s, h1, h2, rfl⟩
    refine ⟨((x, y), s), ?_, rfl⟩
    simp only [List.mem_product, mem_sites]
    exact ⟨⟨h1, h2⟩, by cases s <;> simp⟩

theorem electrons_length (Nx Ny : Nat) : (electrons el Nx Ny).length = 2 * (Nx * Ny) := by
  simp [electrons, sites, List.length_product]; ring

theorem electrons_nodup (hd : Distinct el) (Nx Ny : Nat) : (electrons el Nx Ny).Nodup := by
  refine ((nodup_sites Nx Ny).product (by decide)).map ?_
  rintro ⟨⟨x, y⟩, s⟩ ⟨⟨x', y'⟩, s'⟩ h
  obtain ⟨rfl, rfl, rfl⟩ := hd _ _ _ _ _ _ h
  rfl

/-- The generators of the Hubbard Hamiltonian. -/
theorem hub_gens (hd : Distinct el) (Nx Ny : Nat) (hx : 2 ≤ Nx) (hy : 2 ≤ Ny) (t mu U : S) (ht : t ≠ 0) (hmu : mu ≠ 0) (hU : U ≠ 0) :
    (∀ p ∈ (fermiHubbard el Nx Ny t mu U).terms, ∀ g ∈ p.1, ∃ d, ∃ i ∈ electrons el Nx Ny, g = .fermion d i) ∧
    (∀ i ∈ electrons el Nx Ny, ∃ p ∈ (fermiHubbard el Nx Ny t mu U).terms, Gen.fermion true i ∈ p.1) ∧
    (∀ w : Charge ι Int, (∀ x y x' y' s, x < Nx → y < Ny → x' < Nx → y' < Ny → w.fermion (el x y s) = w.fermion (el x' y' s)) →
      w.Homogeneous 0 (fermiHubbard el Nx Ny t mu U)) := by
  have key := C115_hubbard_terms hd Nx Ny hx hy t mu U ht hmu hU
  refine ⟨fun p hp g hg => ?_, fun i hi => ?_, fun w hw p hp => ?_⟩
  · rcases (key p).1 hp with ⟨s, x, y, x', y', h1, h2, h3, h4, h5, rfl⟩ | ⟨s, x, y, h1, h2, rfl⟩ | ⟨x, y, h1, h2, s, h3, rfl⟩
    all_goals
      simp only [List.mem_cons, List.not_mem_nil, or_false] at hg
    · rcases hg with rfl | rfl
      · exact ⟨_, _, mem_electrons.2 ⟨x, y, s, h1, h2, rfl⟩, rfl⟩
      · exact ⟨_, _, mem_electrons.2 ⟨x', y', s, h3, h4, rfl⟩, rfl⟩
    · rcases hg with rfl | rfl <;> exact ⟨_, _, mem_electrons.2 ⟨x, y, s, h1, h2, rfl⟩, rfl⟩
    · rcases hg with rfl | rfl | rfl | rfl <;> exact ⟨_, _, mem_electrons.2 ⟨x, y, _, h1, h2, rfl⟩, rfl⟩
  · obtain ⟨x, y, s, h1, h2, rfl⟩ := mem_electrons.1 hi
    exact ⟨_, (key _).2 (.inr (.inl ⟨s, x, y, h1, h2, rfl⟩)), by simp⟩
  · rcases (key p).1 hp with ⟨s, x, y, x', y', h1, h2, h3, h4, h5, rfl⟩ | ⟨s, x, y, h1, h2, rfl⟩ | ⟨x, y, h1, h2, s, h3, rfl⟩
    · simp [Charge.mon, Charge.gen, hw x y x' y' s h1 h2 h3 h4]
    · simp [Charge.mon, Charge.gen]
    · simp [Charge.mon, Charge.gen]

theorem nodup_spaces {hs : HilbertSpace ι} (h : Constructed hs) : hs.elementarySpaces.Nodup := by
  obtain ⟨l, hf, rfl⟩ := h.canon
  rw [elementarySpaces, canon_spaces, layout_fst]
  exact hf.sorted.imp fun h e => by subst e; simp at h

/-- **C115** The Hilbert space of the Hubbard Hamiltonian: one bit for each of the `2 Nx Ny` orbitals, nothing else; it cannot be built
when there are more than 63 orbitals. -/
theorem C115_hubbard_space (hd : Distinct el) (Nx Ny : Nat) (hx : 2 ≤ Nx) (hy : 2 ≤ Ny) (t mu U : S) (ht : t ≠ 0) (hmu : mu ≠ 0) (hU : U ≠ 0) :
    (63 < 2 * (Nx * Ny) → ofMonomials (esConstruct none) ((fermiHubbard el Nx Ny t mu U).terms.map (·.1)) = .error (.tooBig (2 * (Nx * Ny) : Nat))) ∧
    (2 * (Nx * Ny) ≤ 63 → ∃ hs, ofMonomials (esConstruct none) ((fermiHubbard el Nx Ny t mu U).terms.map (·.1)) = .ok hs ∧
      hs.dim = 2 ^ (2 * (Nx * Ny)) ∧ hs.isSparse = false ∧ hs.totalNBits = (2 * (Nx * Ny) : Nat) ∧ (fermionModes hs).length = 2 * (Nx * Ny) ∧
      (∀ i, i ∈ fermionModes hs ↔ ∃ x y s, x < Nx ∧ y < Ny ∧ i = el x y s)) := by
  obtain ⟨g1, g2, -⟩ := hub_gens hd Nx Ny hx hy t mu U ht hmu hU
  have hmem : ∀ es, es ∈ (electrons el Nx Ny).map ESpace.fermion ↔ ∃ m ∈ (fermiHubbard el Nx Ny t mu U).terms.map (·.1), ∃ g ∈ m, esConstruct none g = some es := by
    intro es
    constructor
    · intro h
      obtain ⟨i, hi, rfl⟩ := List.mem_map.1 h
      obtain ⟨p, hp, hg⟩ := g2 i hi
      exact ⟨p.1, List.mem_map.2 ⟨p, hp, rfl⟩, _, hg, rfl⟩
    · rintro ⟨m, hm, g, hg, hge⟩
      obtain ⟨p, hp, rfl⟩ := List.mem_map.1 hm
      obtain ⟨d, i, hi, rfl⟩ := g1 p hp g hg
      simp only [esConstruct, Option.some.injEq] at hge
      exact List.mem_map.2 ⟨i, hi, hge⟩
  have hnd : ((electrons el Nx Ny).map ESpace.fermion).Nodup := (electrons_nodup hd Nx Ny).map fun a b h => by simpa [ESpace.fermion] using h
  have hsum : (((electrons el Nx Ny).map ESpace.fermion).map ESpace.nBits).sum = 2 * (Nx * Ny) := by
    rw [List.map_map, ← electrons_length (el := el) Nx Ny]
    generalize electrons el Nx Ny = l
    induction l with
    | nil => rfl
    | cons a l ih => simp only [List.map_cons, List.sum_cons, ih, List.length_cons, Function.comp, ESpace.fermion]; omega
  have h30 := (C30_throws_iff none ((fermiHubbard el Nx Ny t mu U).terms.map (·.1)) _ hnd hmem (by
    intro es hes; obtain ⟨i, _, rfl⟩ := List.mem_map.1 hes; exact wf_fermion i)).2 (by
      intro m hm g hg
      obtain ⟨p, hp, rfl⟩ := List.mem_map.1 hm
      obtain ⟨d, i, hi, rfl⟩ := g1 p hp g hg
      simp [esConstruct])
  rw [hsum] at h30
  refine ⟨fun h => by rw [if_neg (by omega)] at h30; exact h30, fun h => ?_⟩
  rw [if_pos h] at h30
  obtain ⟨hs, hok⟩ := h30
  have hI := is_fermiHubbard Nx Ny t mu U (el := el) hd.inj.ne
  obtain ⟨hc, hpre, hid, hre, hmodes⟩ := space_facts hFB (fun _ _ h => h.elim) none (by simp) _ hI.1 hs hok
  obtain ⟨hel, -⟩ := C30_space_of_expression hFB (fun _ _ h => h.elim) none (by simp) _ hI.1 hs hok
  have hperm : hs.elementarySpaces.Perm ((electrons el Nx Ny).map ESpace.fermion) := by
    refine (List.perm_ext_iff_of_nodup (nodup_spaces hc) hnd).2 fun es => ?_
    rw [hel, hmem]
    constructor
    · rintro ⟨p, hp, g, hg, h⟩; exact ⟨p.1, List.mem_map.2 ⟨p, hp, rfl⟩, g, hg, h⟩
    · rintro ⟨m, hm, g, hg, h⟩
      obtain ⟨p, hp, rfl⟩ := List.mem_map.1 hm
      exact ⟨p, hp, g, hg, h⟩
  obtain ⟨-, b2, -, b4, -⟩ := C26_bit_ranges hs hc
  have hT : hs.totalNBits = (2 * (Nx * Ny) : Nat) := by rw [b2, (hperm.map _).sum_eq, hsum]
  have hdim : hs.dim = 2 ^ (2 * (Nx * Ny)) := by
    rw [b4, (hperm.map _).prod_eq, List.map_map, ← electrons_length (el := el) Nx Ny]
    generalize electrons el Nx Ny = l
    induction l with
    | nil => rfl
    | cons a l ih => simp only [List.map_cons, List.prod_cons, ih, List.length_cons, Function.comp, ESpace.fermion, pow_succ]; ring
  refine ⟨hs, hok, hdim, ?_, hT, ?_, fun i => ?_⟩
  · rw [isSparse, hdim, vecSize, hT, Int.toNat_natCast, pow2_eq (by omega)]
    simp
  · rw [fermionModes, List.length_map, ((hperm.filter _)).length_eq, List.filter_eq_self.2, List.length_map, electrons_length]
    intro es hes
    obtain ⟨i, _, rfl⟩ := List.mem_map.1 hes
    simp [ESpace.fermion]
  · rw [hmodes, ← mem_electrons]
    constructor
    · rintro ⟨p, hp, d, hg⟩
      obtain ⟨d', i', hi', h⟩ := g1 p hp _ hg
      cases h
      exact hi'
    · intro hi
      obtain ⟨p, hp, hg⟩ := g2 i hi
      exact ⟨p, hp, true, hg⟩

/-- **C115** From any expression of fermions, bosons and spins that conserves the number of fermions to the matrix of an N-fermion sector: the program
builds the Hilbert space and the linear operator, makes the views and fills the matrix of the expression in the sector. -/
theorem C115_program_partial {M : Nat → ι → Prop} (hM : HalfAlone M) (hM2 : ∀ n i, M n i → 2 ≤ n ∧ n < 2 ^ 31)
    (bosonDim : Option Nat) (hbd : ∀ d, bosonDim = some d → 0 < d) (e : Expr (Gen ι) S) (he : Reachable (Allowed M) e)
    (hch : allFermions.Homogeneous 0 e) (hs : HilbertSpace ι) (h : ofMonomials (esConstruct bosonDim) (e.terms.map (·.1)) = .ok hs)
    (hsp : hs.isSparse = false) (hbits : hs.totalNBits ≠ 0)
    (hsup : ∀ p : SectorParams, p.M = (fermionModes hs).length → LawfulRanking.supports R p)
    (hsup' : ∀ p : SectorParams, p.M = (fermionModes hs).length → LawfulRanking.supports R' p)
    (N : Nat) (hN : N ≤ (fermionModes hs).length) (hex : (fermionModes hs).length ≤ 62 ∨ N ≤ 28 ∨ 35 ≤ N) :
    ∃ l, sectorBasisStates hs N = .ok l ∧ l.Nodup ∧ (∀ s, s ∈ l ↔ InNSector hs N s) ∧
      l.length = Nat.choose (fermionModes hs).length N * 2 ^ (hs.totalNBits.toNat - (fermionModes hs).length) ∧ StaysIn hs e l ∧
      ∀ psi mem : List S, mem.length = l.length * l.length →
        ∃ mem', sectorProgram R R' bosonDim e N psi mem = some mem' ∧ IsMatrixOf hs e l mem' := by
  obtain ⟨hc, hpre, hid, hre, hmodes⟩ := space_facts hM hM2 bosonDim hbd e he hs h
  obtain ⟨op, l, a1, a2, -, a4, a5, a6⟩ := C114_sector_partial (R := R) (R' := R') hM hs hc hpre hid hsp hbits hsup hsup' N hN hex e hre
    (homogeneous_modes hch fun p hp d i hg => (hmodes i).2 ⟨p, hp, d, hg⟩)
  obtain ⟨l1, b1, b2, b3, -⟩ := C51_sector_partial (V := EigenSV S) (R := R) hs hc hpre hid hsp hbits N hN hex hsup
  rw [a2] at b1
  cases b1
  obtain ⟨p, T, l2, hp, -, -, hT, -, -, -, -, c1, c2, -⟩ := sector_core hc hpre hid hsp hbits hN hex
  have hlen : l.length = l2.length := ((List.perm_ext_iff_of_nodup b2 c2.nodup).2 fun s => (b3 s).trans (c2.mem s).symm).length_eq
  refine ⟨l, a2, b2, b3, ?_, a5, fun psi mem hm => ?_⟩
  · rw [hlen, c1, hp, hT, Int.toNat_natCast]
  · obtain ⟨mem', m1, m2⟩ := a6 psi mem hm
    exact ⟨mem', by rw [sectorProgram, h]; simp only [a1]; exact m1, m2⟩

/-- **C115** examples/n_fermion_sectors.cpp, first part, for a torus of any size with at most 63 orbitals, any parameters and any number of electrons:
the matrix that the program gives to the eigensolver is the matrix of the Hubbard Hamiltonian in the sector with `N` electrons, which has
`(2 Nx Ny choose N)` states. -/
theorem C115_hubbard_sector (hd : Distinct el) (Nx Ny : Nat) (hx : 2 ≤ Nx) (hy : 2 ≤ Ny) (h63 : 2 * (Nx * Ny) ≤ 63) (t mu U : S)
    (ht : t ≠ 0) (hmu : mu ≠ 0) (hU : U ≠ 0) (hsup : ∀ p : SectorParams, p.M = 2 * (Nx * Ny) → LawfulRanking.supports R p)
    (hsup' : ∀ p : SectorParams, p.M = 2 * (Nx * Ny) → LawfulRanking.supports R' p) (N : Nat) (hN : N ≤ 2 * (Nx * Ny)) :
    ∃ hs l, ofMonomials (esConstruct none) ((fermiHubbard el Nx Ny t mu U).terms.map (·.1)) = .ok hs ∧ l.Nodup ∧
      (∀ s, s ∈ l ↔ InNSector hs N s) ∧ l.length = Nat.choose (2 * (Nx * Ny)) N ∧ StaysIn hs (fermiHubbard el Nx Ny t mu U) l ∧
      ∀ psi mem : List S, mem.length = l.length * l.length →
        ∃ mem', sectorProgram R R' none (fermiHubbard el Nx Ny t mu U) N psi mem = some mem' ∧ IsMatrixOf hs (fermiHubbard el Nx Ny t mu U) l mem' := by
  obtain ⟨hs, hok, hdim, hsp, hT, hlen, hmodes⟩ := (C115_hubbard_space hd Nx Ny hx hy t mu U ht hmu hU).2 h63
  have h4 : 4 ≤ Nx * Ny := Nat.mul_le_mul hx hy
  obtain ⟨l, a1, a2, a3, a4, a5, a6⟩ := C115_program_partial (R := R) (R' := R') hFB (fun _ _ h => h.elim) none (by simp) _
    (is_fermiHubbard Nx Ny t mu U (el := el) hd.inj.ne).1 ((hub_gens hd Nx Ny hx hy t mu U ht hmu hU).2.2 allFermions fun _ _ _ _ _ _ _ _ _ => rfl)
    hs hok hsp (by rw [hT]; omega) (by rw [hlen]; exact hsup) (by rw [hlen]; exact hsup') N (by omega) (.inl (by omega))
  refine ⟨hs, l, hok, a2, a3, ?_, a5, a6⟩
  rw [a4, hlen, hT, Int.toNat_natCast, Nat.sub_self, pow_zero, mul_one]

theorem mem_spinIndices {Nx Ny : Nat} {s : Bool} {i : ι} : i ∈ spinIndices el Nx Ny s ↔ ∃ x y, x < Nx ∧ y < Ny ∧ i = el x y s := by
  simp only [spinIndices, Finset.mem_sort, List.mem_toFinset, List.mem_map, Prod.exists, List.mem_product, List.mem_range, and_assoc, eq_comm]

theorem spinIndices_length (hd : Distinct el) (Nx Ny : Nat) (s : Bool) : (spinIndices el Nx Ny s).length = Nx * Ny := by
  rw [spinIndices, Finset.length_sort, List.toFinset_card_of_nodup]
  · simp [List.length_product]
  · refine (nodup_sites Nx Ny).map ?_
    rintro ⟨x, y⟩ ⟨x', y'⟩ h
    obtain ⟨rfl, rfl, -⟩ := hd _ _ _ _ _ _ h
    rfl

/-- **C115** examples/n_fermion_sectors.cpp, second part, for a torus with at most 16 sites (F7: all bits below 32): the matrix that the program gives to
the eigensolver is the matrix of the Hubbard Hamiltonian in the space of the states with `Nup` electrons with spin up and `Ndown` electrons with spin down,
of which there are `(Nx Ny choose Nup) (Nx Ny choose Ndown)`. -/
theorem C115_hubbard_multisector_partial (hd : Distinct el) (Nx Ny : Nat) (hx : 2 ≤ Nx) (hy : 2 ≤ Ny) (h32 : 2 * (Nx * Ny) ≤ 32) (t mu U : S)
    (ht : t ≠ 0) (hmu : mu ≠ 0) (hU : U ≠ 0) (hsup : ∀ p : SectorParams, p.M ≤ 32 → LawfulRanking.supports R p)
    (hsup' : ∀ p : SectorParams, p.M ≤ 32 → LawfulRanking.supports R' p) (Nup Ndown : Nat) (hu : Nup ≤ Nx * Ny) (hdn : Ndown ≤ Nx * Ny) :
    ∃ hs l, ofMonomials (esConstruct none) ((fermiHubbard el Nx Ny t mu U).terms.map (·.1)) = .ok hs ∧ l.Nodup ∧
      (∀ s, s ∈ l ↔ ValidState hs s ∧ nFermions hs s (spinIndices el Nx Ny true) = Nup ∧ nFermions hs s (spinIndices el Nx Ny false) = Ndown) ∧
      l.length = Nat.choose (Nx * Ny) Nup * Nat.choose (Nx * Ny) Ndown ∧ StaysIn hs (fermiHubbard el Nx Ny t mu U) l ∧
      ∀ psi mem : List S, mem.length = l.length * l.length →
        ∃ mem', multisectorProgram R R' (fermiHubbard el Nx Ny t mu U) (spinSectors el Nx Ny Nup Ndown) psi mem = some mem' ∧
          IsMatrixOf hs (fermiHubbard el Nx Ny t mu U) l mem' := by
  obtain ⟨hs, hok, hdim, hsp, hT, hlen, hmodes⟩ := (C115_hubbard_space hd Nx Ny hx hy t mu U ht hmu hU).2 (by omega)
  have h4 : 4 ≤ Nx * Ny := Nat.mul_le_mul hx hy
  obtain ⟨hc, hpre, hid, hre, -⟩ := space_facts hFB (fun _ _ h => h.elim) none (by simp) _
    (is_fermiHubbard Nx Ny t mu U (el := el) hd.inj.ne).1 hs hok
  have hbl := fermion_block hc hpre hid
  have hset : SetIndices (spinSectors el Nx Ny Nup Ndown) := by
    intro d hd'
    simp only [spinSectors, List.mem_cons, List.not_mem_nil, or_false] at hd'
    rcases hd' with rfl | rfl <;> simp only [spinIndices] <;> exact (Finset.sortedLT_sort _).pairwise
  have hpr : ProperSectors hs (spinSectors el Nx Ny Nup Ndown) := by
    refine ⟨fun d hd' i hi => ?_, ?_⟩
    · rw [hbl.2.2.1, hmodes]
      simp only [spinSectors, List.mem_cons, List.not_mem_nil, or_false] at hd'
      rcases hd' with rfl | rfl
      all_goals
        obtain ⟨x, y, h1, h2, h3⟩ := mem_spinIndices.1 hi
        exact ⟨x, y, _, h1, h2, h3⟩
    · simp only [spinSectors, List.pairwise_cons, List.mem_singleton, forall_eq, List.not_mem_nil, false_imp_iff, implies_true, List.Pairwise.nil, and_true]
      intro i h1 h2
      obtain ⟨x, y, -, -, rfl⟩ := mem_spinIndices.1 h1
      obtain ⟨x', y', -, -, h⟩ := mem_spinIndices.1 h2
      simpa using (hd _ _ _ _ _ _ h).2.2
  have hlow : LowModes hs (spinSectors el Nx Ny Nup Ndown) := by
    intro d _ i _ r hr
    have := (C26_bit_ranges hs hc)
    obtain ⟨q, hq⟩ : ∃ q, hs.elementarySpaces[q]? = some (ESpace.fermion i) := by
      rw [← List.mem_iff_getElem?]
      by_contra hn
      have hh : hs.has (ESpace.fermion i) = true := by
        rw [hbl.2.2.1]
        by_contra hh
        have := hpr.inSpace d ‹_› i ‹_›
        rw [hbl.2.2.1] at this
        exact hh this
      rw [hbl.2.2.1, fermionModes, List.mem_map] at hh
      obtain ⟨es, he, rfl⟩ := hh
      obtain ⟨he1, he2⟩ := List.mem_filter.1 he
      obtain ⟨i', rfl⟩ := (hpre es he1).1 (by simpa using he2)
      exact hn he1
    rw [this.1 q _ hq] at hr
    cases hr
    have hsum : ((hs.elementarySpaces.take q).map ESpace.nBits).sum + (ESpace.fermion i).nBits ≤ (hs.elementarySpaces.map ESpace.nBits).sum := by
      conv_rhs => rw [← List.take_append_drop (q + 1) hs.elementarySpaces, List.map_append, List.sum_append]
      rw [List.take_add_one, hq]
      simp
    have e2 := this.2.1
    rw [hT] at e2
    simp only [ESpace.fermion] at hsum
    simp only
    omega
  have hNN : ∀ x ∈ spinSectors el Nx Ny Nup Ndown, x.N ≤ x.indices.length := by
    intro x hx'
    simp only [spinSectors, List.mem_cons, List.not_mem_nil, or_false] at hx'
    rcases hx' with rfl | rfl <;> simp [spinIndices_length hd, hu, hdn]
  have hch : ∀ x ∈ spinSectors el Nx Ny Nup Ndown, (countFermions x.indices).Homogeneous 0 (fermiHubbard el Nx Ny t mu U) := by
    intro x hx'
    refine (hub_gens hd Nx Ny hx hy t mu U ht hmu hU).2.2 _ fun a b a' b' s h1 h2 h3 h4 => ?_
    simp only [spinSectors, List.mem_cons, List.not_mem_nil, or_false] at hx'
    have hin : ∀ s', (el a b s ∈ spinIndices el Nx Ny s' ↔ el a' b' s ∈ spinIndices el Nx Ny s') := by
      intro s'
      rw [mem_spinIndices, mem_spinIndices]
      constructor
      · rintro ⟨x, y, _, _, h⟩
        obtain ⟨_, _, rfl⟩ := hd _ _ _ _ _ _ h
        exact ⟨a', b', h3, h4, rfl⟩
      · rintro ⟨x, y, _, _, h⟩
        obtain ⟨_, _, rfl⟩ := hd _ _ _ _ _ _ h
        exact ⟨a, b, h1, h2, rfl⟩
    rcases hx' with rfl | rfl <;> simp [countFermions, hin]
  have hb0 : hs.totalNBits ≠ 0 := by rw [hT]; omega
  obtain ⟨op, l, a1, a2, -, a4, a5, a6⟩ := C114_multisector_partial (R := R) (R' := R') hFB hs hc hpre hsp hb0 hsup hsup' _ hset hpr hlow hNN _ hre hch
  obtain ⟨l1, b1, b2, b3, -⟩ := C52_multisector_partial (V := EigenSV S) (R := R) hs hc hpre hsp hb0 _ hset hpr hlow hNN hsup
  rw [a2] at b1
  cases b1
  obtain ⟨ps, T, nm, st, -, -, -, hT', -, -, -, -, c1, c2, c3, -⟩ := multi_core hc hpre hsp hset hpr hlow hNN
  have hlen2 : l.length = st.length := ((List.perm_ext_iff_of_nodup b2 c3.nodup).2 fun s => (b3 s).trans (c3.mem s).symm).length_eq
  refine ⟨hs, l, hok, b2, fun s => ?_, ?_, a5, fun psi mem hm => ?_⟩
  · rw [b3, InMultiSector]
    simp [spinSectors]
  · have h0 : bitCount nm = 0 := by
      rw [hT] at hT'
      simp only [spinSectors, List.map_cons, List.map_nil, List.sum_cons, List.sum_nil, spinIndices_length hd] at c2
      omega
    rw [hlen2, c1, h0, pow_zero, mul_one]
    simp [sectorProduct, spinSectors, spinIndices_length hd]
  · obtain ⟨mem', m1, m2⟩ := a6 psi mem hm
    exact ⟨mem', by rw [multisectorProgram, hok]; simp only [a1]; exact m1, m2⟩

/-- **F50** On a lattice that is one site wide the test for neighbours takes a site for its own neighbour: the Hamiltonian of
examples/hubbard_holstein.cpp gets the term `-t n(i,s)`, which is no hopping; examples/n_fermion_sectors.cpp has the same test. -/
theorem C115_F50_one_site_wide {ph : Nat → Nat → ι} (hi : Inj el ph) (Nx : Nat) {t U g : S} (ht : t ≠ 0) (hU : U ≠ 0) (hg : g ≠ 0) (x : Nat)
    (hx : x < Nx) (s : Bool) :
    (([.fermion true (el x 0 s), .fermion false (el x 0 s)], -t) : List (Gen ι) × S) ∈ (hubbardHolstein el ph Nx 1 t U g).terms :=
  (C113_hubbard_holstein_terms hi Nx 1 ht hU hg _).2 (.inl ⟨s, x, 0, x, 0, hx, by omega, hx, by omega, .inr ⟨rfl, .inl rfl⟩, rfl⟩)

end Lattice
end LC
