import Verif.Proof.SpinPrograms
import Verif.Props.HubbardPrograms
import Verif.Props.ComplexFactories
/-
C117: the spin chain program.
-/
set_option linter.unusedSectionVars false
set_option linter.unusedSimpArgs false
namespace LC
namespace SpinRing
open Expr Factory HilbertSpace Terms LC.Lattice
variable {ι S : Type _} [LinearOrder ι] [CommRing S] [DecidableEq S] [ConstScalar S] [ScalarLaws S] [IsDomain S] [CharZero S]
variable {site : Nat → ι} {N : Nat}

section
variable [Star S] [Algebra ℝ S]
/-- **C117** The terms of the Hamiltonian of a ring: for each pair of neighbours `S_z S_z` and `h (S_+ S_- + S_- S_+)`, in normal order; if there are
only two sites, their bond is counted twice. -/
theorem C117_terms (hd : Distinct site N) (hN : 2 ≤ N) (m : Nat) {h : S} (hh : h ≠ 0) (p : List (Gen ι) × S) :
    p ∈ (ham site m N h).terms ↔ ∃ i < N, ∃ i', i' = (i + 1) % N ∧ ∃ lo hi, lo = min (site i) (site i') ∧ hi = max (site i) (site i') ∧
      (p = ([.spin m .z lo, .spin m .z hi], if N = 2 then 2 else 1) ∨
       p = ([.spin m .plus lo, .spin m .minus hi], if N = 2 then 2 * h else h) ∨
       p = ([.spin m .minus lo, .spin m .plus hi], if N = 2 then 2 * h else h)) := by
  obtain ⟨h1, h2⟩ := ham_wf hd hN m h
  have hw : ∀ c, (factor N : S) * weight h c ≠ 0 := by
    intro c
    refine mul_ne_zero ?_ ?_
    · rw [factor]; split_ifs <;> simp
    · cases c <;> simp [weight, hh]
  rw [terms_of_coeff h1 h2 (ring_nodup hd hN m h) (by
    intro p hp
    obtain ⟨q, -, rfl⟩ := List.mem_map.1 hp
    exact hw _) p]
  have e1 : (factor N : S) * weight h .z = if N = 2 then 2 else 1 := by simp only [factor, weight]; split_ifs <;> simp
  have e2 : (factor N : S) * weight h .plus = if N = 2 then 2 * h else h := by simp only [factor, weight]; split_ifs <;> simp
  have e3 : (factor N : S) * weight h .minus = if N = 2 then 2 * h else h := by simp only [factor, weight]; split_ifs <;> simp
  simp only [ringTerms, List.mem_map]
  constructor
  · rintro ⟨⟨i, c⟩, hq, rfl⟩
    have hi : i < if N = 2 then 1 else N := List.mem_range.1 (List.mem_product.1 hq).1
    refine ⟨i, by split_ifs at hi <;> omega, _, rfl, _, _, rfl, rfl, ?_⟩
    cases c
    all_goals simp [two, opp, e1, e2, e3]
  · rintro ⟨i, hi, i', rfl, lo, hh', rfl, rfl, hp⟩
    obtain ⟨i0, hi0, hs⟩ : ∃ i0, (i0 < if N = 2 then 1 else N) ∧ ∀ c, two m c (site i) (site ((i + 1) % N)) = two m c (site i0) (site ((i0 + 1) % N)) := by
      by_cases h' : N = 2
      · subst h'
        refine ⟨0, by simp, fun c => ?_⟩
        obtain rfl | rfl : i = 0 ∨ i = 1 := by omega
        · rfl
        · exact two_comm _ _ _ _
      · exact ⟨i, by rwa [if_neg h'], fun c => rfl⟩
    have key : ∀ c, ∃ q ∈ List.range (if N = 2 then 1 else N) ×ˢ comps, (two m q.2 (site q.1) (site ((q.1 + 1) % N)), (factor N : S) * weight h q.2) =
        (two m c (site i) (site ((i + 1) % N)), (factor N : S) * weight h c) :=
      fun c => ⟨(i0, c), List.mem_product.2 ⟨List.mem_range.2 hi0, mem_comps c⟩, by rw [hs]⟩
    rcases hp with rfl | rfl | rfl
    · rw [← e1]; exact key .z
    · rw [← e2]; exact key .plus
    · rw [← e3]; exact key .minus

/-! ### The Hilbert space -/

/-- Spins of one kind. -/
abbrev only (m : Nat) : Nat → ι → Prop := fun n _ => n = m

theorem onlyAlone (m : Nat) : HalfAlone (only m : Nat → ι → Prop) := fun _ _ h h' => h'.trans h.symm

theorem reach (m : Nat) (c : SpinComp) (i : ι) : Reachable (Allowed (only m)) (spin m c i : Expr (Gen ι) S) := .ofMonomial _ _ (by simp [Allowed, only])

theorem reach_bond (m : Nat) (h : S) (i j : ι) : Reachable (Allowed (only m)) (bond m h i j) :=
  .add (.mul (reach m _ i) (reach m _ j)) (.smulPrefix h (.add (.mul (reach m _ i) (reach m _ j)) (.mul (reach m _ i) (reach m _ j))))

theorem reach_ham (m : Nat) (h : S) : Reachable (Allowed (only m)) (ham site m N h) := by
  have : ∀ (l : List Nat) (e : Expr (Gen ι) S), Reachable (Allowed (only m)) e →
      Reachable (Allowed (only m)) (l.foldl (fun H i => let j := (i + 1) % N; H + bond m h (site i) (site j)) e) := by
    intro l
    induction l with
    | nil => exact fun e he => he
    | cons i l ih => exact fun e he => ih _ (he.add (reach_bond m h _ _))
  exact this _ _ .zero

/-- The elementary spaces. -/
def spaces (site : Nat → ι) (m N : Nat) : List (ESpace ι) := (List.range N).map fun i => ESpace.spin m (site i)

theorem ham_gens (hd : Distinct site N) (hN : 2 ≤ N) (m : Nat) {h : S} (hh : h ≠ 0) :
    (∀ p ∈ (ham site m N h).terms, ∀ g ∈ p.1, ∃ c, ∃ i < N, g = .spin m c (site i)) ∧
    (∀ i < N, ∃ p ∈ (ham site m N h).terms, Gen.spin m .z (site i) ∈ p.1) := by
  have key := C117_terms hd hN m hh
  constructor
  · intro p hp g hg
    obtain ⟨i, hi, i', rfl, lo, hi', rfl, rfl, h3⟩ := (key p).1 hp
    have hlt := (next_ne hN hi).2
    have hlo : ∃ a < N, min (site i) (site ((i + 1) % N)) = site a := by
      rcases le_total (site i) (site ((i + 1) % N)) with a | a
      · exact ⟨i, hi, min_eq_left a⟩
      · exact ⟨_, hlt, min_eq_right a⟩
    have hhi : ∃ a < N, max (site i) (site ((i + 1) % N)) = site a := by
      rcases le_total (site i) (site ((i + 1) % N)) with a | a
      · exact ⟨_, hlt, max_eq_right a⟩
      · exact ⟨i, hi, max_eq_left a⟩
    obtain ⟨a, ha, ea⟩ := hlo
    obtain ⟨b, hb, eb⟩ := hhi
    rw [ea, eb] at h3
    rcases h3 with rfl | rfl | rfl <;> simp only [List.mem_cons, List.not_mem_nil, or_false] at hg <;> rcases hg with rfl | rfl
    all_goals first | exact ⟨_, a, ha, rfl⟩ | exact ⟨_, b, hb, rfl⟩
  · intro i hi
    refine ⟨_, (key _).2 ⟨i, hi, _, rfl, _, _, rfl, rfl, .inl rfl⟩, ?_⟩
    rcases le_total (site i) (site ((i + 1) % N)) with a | a
    · rw [min_eq_left a]; simp
    · rw [max_eq_left a]; simp

/-- **C117** The Hilbert space deduced from the Hamiltonian has dimension `m ^ N` and `⌈log2 m⌉` bits per site; it cannot be built when this
makes more than 63 bits. It is sparse unless `m` is a power of two. -/
theorem C117_space (hd : Distinct site N) (hN : 2 ≤ N) {m : Nat} (hm : 2 ≤ m) (hm2 : m < 2 ^ 31) {h : S} (hh : h ≠ 0) :
    (63 < N * Nat.clog 2 m → ofMonomials (esConstruct none) ((ham site m N h).terms.map (·.1)) = .error (.tooBig (N * Nat.clog 2 m : Nat))) ∧
    (N * Nat.clog 2 m ≤ 63 → ∃ hs, ofMonomials (esConstruct none) ((ham site m N h).terms.map (·.1)) = .ok hs ∧ hs.dim = m ^ N ∧
      hs.vecSize = (2 ^ Nat.clog 2 m) ^ N ∧ (hs.isSparse = true ↔ m < 2 ^ Nat.clog 2 m) ∧
      hs.elementarySpaces.Perm (spaces site m N) ∧ Constructed hs ∧ PredefinedSpaces hs ∧ Reachable (InSpace (only m) hs) (ham site m N h)) := by
  obtain ⟨g1, g2⟩ := ham_gens hd hN m hh
  have hmem : ∀ es, es ∈ spaces site m N ↔ ∃ t ∈ (ham site m N h).terms.map (·.1), ∃ g ∈ t, esConstruct none g = some es := by
    intro es
    constructor
    · intro h
      obtain ⟨i, hi, rfl⟩ := List.mem_map.1 h
      obtain ⟨p, hp, hg⟩ := g2 i (List.mem_range.1 hi)
      exact ⟨p.1, List.mem_map.2 ⟨p, hp, rfl⟩, _, hg, rfl⟩
    · rintro ⟨t, ht, g, hg, hge⟩
      obtain ⟨p, hp, rfl⟩ := List.mem_map.1 ht
      obtain ⟨c, i, hi, rfl⟩ := g1 p hp g hg
      simp only [esConstruct, Option.some.injEq] at hge
      exact List.mem_map.2 ⟨i, List.mem_range.2 hi, hge⟩
  have hnd : (spaces site m N).Nodup := by
    refine List.Nodup.map_on (fun a ha b hb e => ?_) List.nodup_range
    simp only [ESpace.spin, ESpace.mk.injEq, true_and, and_true] at e
    exact hd _ (List.mem_range.1 ha) _ (List.mem_range.1 hb) e
  have hsum : ((spaces site m N).map ESpace.nBits).sum = N * Nat.clog 2 m := by
    simp [spaces, List.map_map, Function.comp_def, ESpace.spin]
  have h30 := (C30_throws_iff none ((ham site m N h).terms.map (·.1)) _ hnd hmem (by
    intro es hes; obtain ⟨i, _, rfl⟩ := List.mem_map.1 hes; exact LC.wf_spin m (by omega) _)).2 (by
      intro t ht g hg
      obtain ⟨p, hp, rfl⟩ := List.mem_map.1 ht
      obtain ⟨c, i, hi, rfl⟩ := g1 p hp g hg
      simp [esConstruct])
  rw [hsum] at h30
  refine ⟨fun h => by rw [if_neg (by omega)] at h30; exact h30, fun h => ?_⟩
  rw [if_pos h] at h30
  obtain ⟨hs, hok⟩ := h30
  have hM2 : ∀ n (i : ι), only m n i → 2 ≤ n ∧ n < 2 ^ 31 := by rintro n i rfl; exact ⟨hm, hm2⟩
  obtain ⟨hc, hpre, hid, hre, -⟩ := space_facts (onlyAlone m) hM2 none (by simp) _ (reach_ham m _) hs hok
  obtain ⟨hel, -⟩ := C30_space_of_expression (onlyAlone m) hM2 none (by simp) _ (reach_ham m _) hs hok
  have hperm : hs.elementarySpaces.Perm (spaces site m N) := by
    refine (List.perm_ext_iff_of_nodup (nodup_spaces hc) hnd).2 fun es => ?_
    rw [hel, hmem]
    constructor
    · rintro ⟨p, hp, g, hg, h⟩; exact ⟨p.1, List.mem_map.2 ⟨p, hp, rfl⟩, g, hg, h⟩
    · rintro ⟨t, ht, g, hg, h⟩
      obtain ⟨p, hp, rfl⟩ := List.mem_map.1 ht
      exact ⟨p, hp, g, hg, h⟩
  obtain ⟨-, b2, -, b4, -⟩ := C26_bit_ranges hs hc
  have hT : hs.totalNBits = (N * Nat.clog 2 m : Nat) := by rw [b2, (hperm.map _).sum_eq, hsum]
  have hdim : hs.dim = m ^ N := by
    rw [b4, (hperm.map _).prod_eq]
    simp [spaces, List.map_map, Function.comp_def, ESpace.spin]
  have hvec : hs.vecSize = (2 ^ Nat.clog 2 m) ^ N := by
    rw [vecSize, hT, Int.toNat_natCast, ← pow_mul, mul_comm (Nat.clog 2 m)]
    exact pow2_eq (by omega)
  refine ⟨hs, hok, hdim, hvec, ?_, hperm, hc, hpre, hre⟩
  rw [isSparse, hvec, hdim, decide_eq_true_eq, gt_iff_lt, Nat.pow_lt_pow_iff_left (by omega)]

theorem bits_of_dim {m : Nat} (hm : 2 ≤ m) (hsmall : m ^ N < 2 ^ 31) : N * Nat.clog 2 m ≤ 63 := by
  have h1 : 2 ^ (Nat.clog 2 m - 1) < m := Nat.pow_pred_clog_lt_self (by omega) (by omega)
  have h2 : 2 ^ Nat.clog 2 m ≤ m * m := by
    have : 0 < Nat.clog 2 m := Nat.clog_pos (by omega) hm
    have e : 2 ^ Nat.clog 2 m = 2 * 2 ^ (Nat.clog 2 m - 1) := by rw [← pow_succ']; congr 1; omega
    rw [e]
    calc 2 * 2 ^ (Nat.clog 2 m - 1) ≤ m * 2 ^ (Nat.clog 2 m - 1) := Nat.mul_le_mul_right _ hm
      _ ≤ m * m := Nat.mul_le_mul_left _ h1.le
  have h3 : 2 ^ (N * Nat.clog 2 m) < 2 ^ 62 := by
    calc 2 ^ (N * Nat.clog 2 m) = (2 ^ Nat.clog 2 m) ^ N := by rw [← pow_mul, mul_comm]
      _ ≤ (m * m) ^ N := Nat.pow_le_pow_left h2 N
      _ = m ^ N * m ^ N := by rw [mul_pow]
      _ < 2 ^ 31 * 2 ^ 31 := Nat.mul_lt_mul'' hsmall hsmall
      _ = 2 ^ 62 := by norm_num
  have := (Nat.pow_lt_pow_iff_right (by norm_num : 1 < 2)).1 h3
  omega

/-- The sum of the occupation numbers of the sites in a basis state: the projection of the total spin, up to the constant `N (m - 1) / 2`. -/
noncomputable def magnetisation (hs : HilbertSpace ι) (site : Nat → ι) (m N : Nat) (k : Nat) : Nat :=
  ∑ i ∈ Finset.range N, occ hs k (ESpace.spin m (site i))

/-- **C117** The program ends, whatever the uninitialised objects contain, and the matrix given to the eigensolver is that of the Hamiltonian
between the `m ^ N` product states, in increasing order. -/
theorem C117_matrix (hd : Distinct site N) (hN : 2 ≤ N) {m : Nat} (hm : 2 ≤ m) {h : S} (hh : h ≠ 0) (hsmall : m ^ N < 2 ^ 31) :
    ∃ hs, ofMonomials (esConstruct none) ((ham site m N h).terms.map (·.1)) = .ok hs ∧ (validStates hs).length = m ^ N ∧
      ∀ psi mem : List S, mem.length = m ^ N * m ^ N → ∃ mem', program (ham site m N h) psi mem = some mem' ∧
        IsMatrixOf hs (ham site m N h) (validStates hs) mem' := by
  have hm2 : m < 2 ^ 31 := lt_of_le_of_lt (Nat.le_self_pow (by omega) m) hsmall
  obtain ⟨hs, hok, hdim, -, -, -, hc, hpre, hre⟩ := (C117_space hd hN hm hm2 hh).2 (bits_of_dim hm hsmall)
  obtain ⟨op, o1, o2, -, -, o5⟩ := C114_space (onlyAlone m) hs hc hpre (by rw [hdim]; exact Nat.one_lt_pow (by omega) (by omega)) (by rw [hdim]; exact hsmall) _ hre
  refine ⟨hs, hok, by rw [o2, hdim], fun psi mem hl => ?_⟩
  obtain ⟨mem', m1, m2⟩ := o5 psi mem (by rw [hdim]; exact hl)
  exact ⟨mem', by rw [program, hok]; simp only [o1]; exact m1, m2⟩
end

section
variable [Star S] [Algebra ℝ S]
/-- The charge that counts the spin projections of the sites of the ring. -/
noncomputable def projection (site : Nat → ι) (m N : Nat) : Charge ι ℤ where
  fermion _ := 0
  boson _ := 0
  spin n i := if n = m ∧ ∃ a < N, site a = i then 1 else 0

/-- **C117** The projection of the total spin is conserved: the matrix has non-zero elements only between states of equal projection. -/
theorem C117_blocks (hd : Distinct site N) (hN : 2 ≤ N) (m : Nat) {h : S} (hh : h ≠ 0) (hs : HilbertSpace ι) (t k : Nat)
    (hne : opEl hs (ham site m N h) t k ≠ 0) : magnetisation hs site m N t = magnetisation hs site m N k := by
  have hinj : Set.InjOn (fun i => Mode.spin m (site i)) (Finset.range N : Set Nat) := by
    intro a ha b hb e
    simp only [Mode.spin.injEq, true_and] at e
    exact hd a (by simpa using ha) b (by simpa using hb) e
  have hst : ∀ s, (projection site m N).state ((Finset.range N).image fun i => Mode.spin m (site i)) hs s = (magnetisation hs site m N s : ℤ) := by
    intro s
    rw [Charge.state, Finset.sum_image hinj, magnetisation, Nat.cast_sum]
    refine Finset.sum_congr rfl fun i hi => ?_
    have : (projection site m N).mode (Mode.spin m (site i)) = 1 := if_pos ⟨rfl, i, Finset.mem_range.1 hi, rfl⟩
    rw [this]
    simp [conf, Mode.space]
  have hsupp : ∀ k ∉ (Finset.range N).image fun i => Mode.spin m (site i), (projection site m N).mode k = 0 := by
    intro k hk
    cases k with
    | fermion i => rfl
    | boson i => rfl
    | spin n i =>
      refine if_neg ?_
      rintro ⟨rfl, a, ha, rfl⟩
      exact hk (Finset.mem_image.2 ⟨a, Finset.mem_range.2 ha, rfl⟩)
  have hom : (projection site m N).Homogeneous 0 (ham site m N h) := by
    intro p hp
    obtain ⟨g1, -⟩ := ham_gens hd hN m hh
    have hg := g1 p hp
    obtain ⟨i, hi, i', -, lo, hi', -, -, h3⟩ := (C117_terms hd hN m hh p).1 hp
    have hone : ∀ c x, Gen.spin m c x ∈ p.1 → (projection site m N).spin m x = 1 := by
      intro c x hx
      obtain ⟨c', a, ha, e⟩ := hg _ hx
      simp only [Gen.spin.injEq] at e
      exact if_pos ⟨rfl, a, ha, e.2.2.symm⟩
    rcases h3 with e | e | e
    · simp [e, Charge.mon, Charge.gen]
    · simp [e, Charge.mon, Charge.gen, hone .plus lo (by simp [e]), hone .minus hi' (by simp [e])]
    · simp [e, Charge.mon, Charge.gen, hone .minus lo (by simp [e]), hone .plus hi' (by simp [e])]
  have := C63_selection_rule (projection site m N) _ hsupp hs _ 0 hom t k hne
  rw [hst, hst, add_zero] at this
  exact_mod_cast this

end

/-! ### The matrix is self-adjoint -/
section
variable [StarRing S] [Algebra ℝ S]

theorem conj_spin (m : Nat) (i : ι) (c : SpinComp) : (spin m c i : Expr (Gen ι) S).conj = spin m (opp c) i := by
  have h1 : ∀ c, (spin m c i : Expr (Gen ι) S).terms = [([.spin m c i], 1)] := fun c => ofMonomial_single_terms _
  have h3 : (spin m c i : Expr (Gen ι) S).conj = 0 + const 1 * ofLinFun (GenOps.conj (Gen.spin m c i)) := by
    rw [Expr.conj, h1]
    simp only [List.foldl_cons, List.foldl_nil, List.reverse_singleton, star_one, if_neg (one_ne_zero : (1 : S) ≠ 0)]
    rfl
  have h5 := ofLinFun_conj (S := S) (Gen.spin m c i)
  rw [h3, h5]
  apply Expr.ext
  rw [h1]
  simp [mul_def, add_def, Expr.const, mulLog, emits_single, Terms.storeAll, Terms.store, Terms.find?, Terms.emplace, Gen.dag]
  cases c <;> rfl

theorem conj_two (m : Nat) {i j : ι} (hij : i ≠ j) (c : SpinComp) :
    (spin m c i * spin m (opp c) j : Expr (Gen ι) S).conj = spin m (opp c) i * spin m c j := by
  rw [(eqOp_iff _ _).1 (C17_conj_all_spins (onlyAlone m) 0 (reach m c i) (reach m (opp c) j)).2.2.2.1, conj_spin, conj_spin,
    (eqOp_iff _ _).1 (C15_spin_sites_commute m m _ _ j i hij.symm)]
  cases c <;> rfl

theorem conj_bond (m : Nat) {i j : ι} (hij : i ≠ j) {h : S} (hh : star h = h) : (bond m h i j).conj = bond m h i j := by
  have hz := conj_two (S := S) m hij .z
  have hp := conj_two (S := S) m hij .plus
  have hq := conj_two (S := S) m hij .minus
  simp only [opp] at hz hp hq
  have rr : ∀ c d, Reachable (Allowed (only m)) (spin m c i * spin m d j : Expr (Gen ι) S) := fun c d => .mul (reach m _ i) (reach m _ j)
  have r2 : Reachable (Allowed (only m)) (spin m .plus i * spin m .minus j + spin m .minus i * spin m .plus j : Expr (Gen ι) S) := .add (rr _ _) (rr _ _)
  have r3 : Reachable (Allowed (only m)) (h • (spin m .plus i * spin m .minus j + spin m .minus i * spin m .plus j) : Expr (Gen ι) S) := .smulPrefix h r2
  have hcomm : spin m .minus i * spin m .plus j + spin m .plus i * spin m .minus j = (spin m .plus i * spin m .minus j + spin m .minus i * spin m .plus j : Expr (Gen ι) S) :=
    ext_coeff (wf_add (wf_spin2 m .minus .plus i j) (wf_spin2 m .plus .minus i j)) (wf_add (wf_spin2 m .plus .minus i j) (wf_spin2 m .minus .plus i j)) fun k => by
      rw [coeff_add (wf_spin2 m .minus .plus i j) (wf_spin2 m .plus .minus i j), coeff_add (wf_spin2 m .plus .minus i j) (wf_spin2 m .minus .plus i j), add_comm]
  rw [bond, (eqOp_iff _ _).1 (C17_conj_all_spins (onlyAlone m) 0 (rr .z .z) r3).2.1, hz,
    (eqOp_iff _ _).1 (C17_conj_all_spins (onlyAlone m) h r2 r2).2.2.1, (eqOp_iff _ _).1 (C17_conj_all_spins (onlyAlone m) 0 (rr .plus .minus) (rr .minus .plus)).2.1, hp, hq, hh, hcomm]

/-- **C117** With a real coupling the Hamiltonian is equal to its conjugate. -/
theorem C117_hermitian (hd : Distinct site N) (hN : 2 ≤ N) (m : Nat) {h : S} (hh : star h = h) : (ham site m N h).conj.eqOp (ham site m N h) = true := by
  rw [eqOp_iff]
  have : ∀ (l : List Nat), (∀ i ∈ l, i < N) → ∀ e : Expr (Gen ι) S, Reachable (Allowed (only m)) e → e.conj = e →
      (l.foldl (fun H i => let j := (i + 1) % N; H + bond m h (site i) (site j)) e).conj = l.foldl (fun H i => let j := (i + 1) % N; H + bond m h (site i) (site j)) e := by
    intro l
    induction l with
    | nil => exact fun _ e _ h => h
    | cons i l ih =>
      intro hl e he hc
      refine ih (fun j hj => hl j (by simp [hj])) _ (he.add (reach_bond m h _ _)) ?_
      rw [(eqOp_iff _ _).1 (C17_conj_all_spins (onlyAlone m) 0 he (reach_bond m h _ _)).2.1, hc, conj_bond m (site_ne hd hN (hl i (by simp))) hh]
  exact this _ (fun i hi => List.mem_range.1 hi) _ .zero rfl

/-- **C117** The matrix that the program gives to the eigensolver is equal to its conjugate transpose. -/
theorem C117_self_adjoint (hreal : ∀ x : ℝ, star (algebraMap ℝ S x) = algebraMap ℝ S x) (hd : Distinct site N) (hN : 2 ≤ N) {m : Nat} (hm : 2 ≤ m)
    {h : S} (hh : h ≠ 0) (hstar : star h = h) (hsmall : m ^ N < 2 ^ 31) (psi mem mem' : List S) (hl : mem.length = m ^ N * m ^ N)
    (hp : program (ham site m N h) psi mem = some mem') (i j : Nat) (hi : i < m ^ N) (hj : j < m ^ N) :
    mem'.getD (m ^ N * i + j) 0 = star (mem'.getD (m ^ N * j + i) 0) := by
  have hm2 : m < 2 ^ 31 := lt_of_le_of_lt (Nat.le_self_pow (by omega) m) hsmall
  obtain ⟨hs, hok, hlen, hall⟩ := C117_matrix hd hN hm hh hsmall
  obtain ⟨hs', hok', hdim, -, -, -, hc, hpre, hre⟩ := (C117_space hd hN hm hm2 hh).2 (bits_of_dim hm hsmall)
  obtain rfl : hs = hs' := by rw [hok] at hok'; exact Except.ok.inj hok'
  obtain ⟨mem'', q1, q2⟩ := hall psi mem hl
  obtain rfl : mem' = mem'' := by rw [hp] at q1; exact Option.some.inj q1
  have := C114_self_adjoint hreal (onlyAlone m) hs hc hpre _ hre (C117_hermitian hd hN m hstar) (validStates hs) (fun s hs' => of_decide_eq_true (List.mem_filter.1 hs').2) mem' q2 i j
    (by rw [hlen]; exact hi) (by rw [hlen]; exact hj)
  rwa [hlen] at this

end

open scoped Classical in
/-- Not vacuous: the published program, a ring of six spins 1 with `h = 1/2`: 729 states in a sparse space of 12 bits. -/
theorem c117_hypotheses : Distinct (fun i => (i : ℤ)) 6 ∧ ∃ hs, ofMonomials (esConstruct none) ((ham (fun i => (i : ℤ)) 3 6 (1 / 2 : ℝ)).terms.map (·.1)) = .ok hs ∧
    hs.dim = 729 ∧ hs.vecSize = 4096 ∧ hs.isSparse = true ∧
    ∃ mem' : List ℝ, program (ham (fun i => (i : ℤ)) 3 6 (1 / 2 : ℝ)) [] (List.replicate (729 * 729) 5) = some mem' := by
  have hd : Distinct (fun i => (i : ℤ)) 6 := fun a _ b _ h => by simpa using h
  have hh : (1 / 2 : ℝ) ≠ 0 := by norm_num
  have hc : Nat.clog 2 3 = 2 := by decide +kernel
  obtain ⟨hs, hok, h1, h2, h3, -⟩ := (C117_space hd (by decide) (m := 3) (by decide) (by decide) hh).2 (by rw [hc]; decide)
  obtain ⟨_, -, -, hall⟩ := C117_matrix hd (by decide) (m := 3) (by decide) hh (by decide)
  obtain ⟨mem', hm, -⟩ := hall [] (List.replicate (729 * 729) 5) (by rw [List.length_replicate]; rfl)
  exact ⟨hd, hs, hok, by rw [h1]; rfl, by rw [h2, hc]; rfl, by rw [h3, hc]; decide, mem', hm⟩

end SpinRing
end LC
