import Verif.Model.SpinPair
import Verif.Props.SpinPrograms
import Verif.Proof.FockVector
/-
C118: the exchange matrix program.
-/
set_option linter.unusedSectionVars false
set_option linter.unusedSimpArgs false
namespace LC
namespace SpinPair
open Expr Factory HilbertSpace Terms LC.Lattice SpinRing
section
variable {ι S : Type _} [LinearOrder ι] [CommRing S] [DecidableEq S] [ConstScalar S] [ScalarLaws S] [IsDomain S] [CharZero S] [Star S] [Algebra ℝ S]

/-- The terms. -/
def pairTerms (h : S) (i j : ι) : List (List (Gen ι) × S) := comps.map fun c => (two 2 c i j, weight h c)

theorem exchange_eq (h : S) (i j : ι) : exchange h i j = bond 2 h i j :=
  have h1 := wf_spin2 (S := S) 2 .z .z i j
  have h2 : (h • (spin 2 .plus i * spin 2 .minus j + spin 2 .minus i * spin 2 .plus j) : Expr (Gen ι) S).WF :=
    wf_smulPrefix _ (wf_add (wf_spin2 _ _ _ _ _) (wf_spin2 _ _ _ _ _))
  ext_coeff (wf_add h2 h1) (wf_add h1 h2) fun k => by rw [exchange, bond, coeff_add h2 h1, coeff_add h1 h2, add_comm]

theorem exchange_perm {h : S} (hh : h ≠ 0) {i j : ι} (hij : i ≠ j) : (exchange h i j).terms.Perm (pairTerms h i j) := by
  rw [exchange_eq]
  have hw := wf_bond 2 h i j
  have hn : ((pairTerms h i j).map Prod.fst).Nodup := by simp [pairTerms, comps, two, opp]
  have hn' : (bond 2 h i j).terms.Nodup := (LC.Laws.canonical_map hw).2.1.of_map
  refine (List.perm_ext_iff_of_nodup hn' hn.of_map).2 fun p => ?_
  exact terms_of_coeff hw (coeff_bond 2 h hij) hn (by
    intro p hp
    obtain ⟨c, -, rfl⟩ := List.mem_map.1 hp
    cases c <;> simp [weight, hh]) p

theorem clog22 : Nat.clog 2 2 = 1 := by decide +kernel

/-- The Hilbert space. -/
def pairSpace (lo hi : ι) : HilbertSpace ι := canon [ESpace.spin 2 lo, ESpace.spin 2 hi]

/-- Occupation numbers of two spins. -/
def cfg2 (lo hi : ι) (a b : Nat) : Config ι := fun k => if k = .spin 2 lo then a else if k = .spin 2 hi then b else 0

variable {lo hi : ι}

theorem lt_spaces (hlt : lo < hi) : (ESpace.spin 2 lo).ltOp (ESpace.spin 2 hi) = true ∧ (ESpace.spin 2 hi).ltOp (ESpace.spin 2 lo) = false ∧
    ∀ x : ι, (ESpace.spin 2 x).ltOp (ESpace.spin 2 x) = false := by
  refine ⟨?_, ?_, fun x => ?_⟩ <;> simp [ESpace.ltOp, ESpace.spin, ESpace.less, hlt, hlt.le, hlt.not_gt]

theorem fits_pair (hlt : lo < hi) : Fits [ESpace.spin 2 lo, ESpace.spin 2 hi] := by
  refine ⟨?_, ?_, ?_⟩
  · have := (lt_spaces hlt).1
    rw [ESpace.ltOp_iff] at this
    simpa [SortedES] using this
  · intro es hes
    simp only [List.mem_cons, List.not_mem_nil, or_false] at hes
    rcases hes with rfl | rfl <;> exact LC.wf_spin 2 (by omega) _
  · simp [bitSum, ESpace.spin, clog22]

theorem space_pair {h : S} (hh : h ≠ 0) {i j : ι} (hij : i ≠ j) :
    ofMonomials (esConstruct none) ((exchange h i j).terms.map (·.1)) = .ok (pairSpace (min i j) (max i j)) ∧ Constructed (pairSpace (min i j) (max i j)) ∧
      PredefinedSpaces (pairSpace (min i j) (max i j)) ∧ Reachable (InSpace (only 2) (pairSpace (min i j) (max i j))) (exchange h i j) := by
  have hlt : min i j < max i j := min_lt_max.2 hij
  have hp := exchange_perm hh hij
  have hgen : ∀ t, t ∈ (exchange h i j).terms.map (·.1) ↔ ∃ c, t = two 2 c i j := by
    intro t
    rw [(hp.map _).mem_iff]
    simp only [pairTerms, List.map_map, List.mem_map, Function.comp]
    exact ⟨fun ⟨c, _, e⟩ => ⟨c, e.symm⟩, fun ⟨c, e⟩ => ⟨c, mem_comps c, e.symm⟩⟩
  have hre0 : Reachable (Allowed (only 2)) (exchange h i j) := by rw [exchange_eq]; exact reach_bond 2 h i j
  have hmem : ∀ es, es ∈ [ESpace.spin 2 (min i j), ESpace.spin 2 (max i j)] ↔
      ∃ t ∈ (exchange h i j).terms.map (·.1), ∃ g ∈ t, esConstruct none g = some es := by
    intro es
    constructor
    · intro h
      refine ⟨_, (hgen _).2 ⟨.z, rfl⟩, ?_⟩
      simp only [List.mem_cons, List.not_mem_nil, or_false] at h
      rcases h with rfl | rfl
      · exact ⟨_, List.mem_cons_self, rfl⟩
      · exact ⟨_, List.mem_cons_of_mem _ List.mem_cons_self, rfl⟩
    · rintro ⟨t, ht, g, hg, e⟩
      obtain ⟨c, rfl⟩ := (hgen _).1 ht
      simp only [two, List.mem_cons, List.not_mem_nil, or_false] at hg
      rcases hg with rfl | rfl <;> simp only [esConstruct, Option.some.injEq] at e <;> simp [← e]
  have hnd : [ESpace.spin 2 (min i j), ESpace.spin 2 (max i j)].Nodup := by simp [ESpace.spin, hij]
  obtain ⟨hs, hok⟩ : ∃ hs, ofMonomials (esConstruct none) ((exchange h i j).terms.map (·.1)) = .ok hs := by
    have h30 := (C30_throws_iff none ((exchange h i j).terms.map (·.1)) _ hnd hmem (fits_pair hlt).wf).2 (by
      intro t ht g hg
      obtain ⟨c, rfl⟩ := (hgen _).1 ht
      simp only [two, List.mem_cons, List.not_mem_nil, or_false] at hg
      rcases hg with rfl | rfl <;> simp [esConstruct])
    rwa [if_pos (by simp [ESpace.spin, clog22])] at h30
  have hM2 : ∀ n (i : ι), only 2 n i → 2 ≤ n ∧ n < 2 ^ 31 := by rintro n i rfl; decide
  obtain ⟨hc, hpre, -, hre, -⟩ := space_facts (onlyAlone 2) hM2 none (by simp) _ hre0 hs hok
  obtain ⟨hel, -⟩ := C30_space_of_expression (onlyAlone 2) hM2 none (by simp) _ hre0 hs hok
  obtain ⟨l, hf, rfl⟩ := hc.canon
  have hel' : (canon l).elementarySpaces = l := by unfold elementarySpaces; rw [canon_spaces, layout_fst]
  have hperm : l.Perm [ESpace.spin 2 (min i j), ESpace.spin 2 (max i j)] := by
    have := nodup_spaces hc
    rw [hel'] at this hel
    refine (List.perm_ext_iff_of_nodup this hnd).2 fun es => ?_
    rw [hel, hmem]
    constructor
    · rintro ⟨p, hp, g, hg, h⟩; exact ⟨p.1, List.mem_map.2 ⟨p, hp, rfl⟩, g, hg, h⟩
    · rintro ⟨t, ht, g, hg, h⟩
      obtain ⟨p, hp, rfl⟩ := List.mem_map.1 ht
      exact ⟨p, hp, g, hg, h⟩
  have hl : l = [ESpace.spin 2 (min i j), ESpace.spin 2 (max i j)] :=
    hperm.eq_of_pairwise (fun a b _ _ h1 h2 => absurd (h1.trans h2) (lt_irrefl _)) hf.sorted (fits_pair hlt).sorted
  subst hl
  exact ⟨hok, hc, hpre, hre⟩

theorem valid_pair (s : Nat) : ValidState (pairSpace lo hi) s ↔ s < 4 := by
  have e : Nat.clog 2 2 = 1 := by decide +kernel
  rw [ValidState, pairSpace, canon_total, canon_spaces]
  simp [layout, bitSum, ESpace.spin, e]
  intros; omega

theorem conf_pair (hlt : lo < hi) {s : Nat} (hs : s < 4) : conf (pairSpace lo hi) s = cfg2 lo hi (s % 2) (s / 2) := by
  have e : Nat.clog 2 2 = 1 := by decide +kernel
  obtain ⟨l1, l2, l3⟩ := lt_spaces hlt
  have hpre : ∀ k : Mode ι, k ≠ .spin 2 lo → k ≠ .spin 2 hi → (pairSpace lo hi).has k.space = false := by
    intro k h1 h2
    by_contra hcon
    rw [Bool.not_eq_false] at hcon
    rw [HilbertSpace.has] at hcon
    obtain ⟨p, hp⟩ := Option.isSome_iff_exists.1 hcon
    obtain ⟨h3, h4⟩ := findSpace_some hp
    rw [pairSpace, canon_spaces] at h3
    simp only [layout, List.mem_cons, List.not_mem_nil, or_false] at h3
    rcases h3 with rfl | rfl
    · exact h1 (Mode.space_inj (k' := .spin 2 lo) (by first | exact h4 | exact h4.symm))
    · exact h2 (Mode.space_inj (k' := .spin 2 hi) (by first | exact h4 | exact h4.symm))
  funext k
  rw [cfg2]
  split_ifs with h1 h2
  · subst h1
    rw [conf, Mode.space, occ, bitRange, pairSpace, canon_spaces]
    simp only [layout, findSpace, l3]
    simp [ESpace.spin, e]
  · subst h2
    rw [conf, Mode.space, occ, bitRange, pairSpace, canon_spaces]
    simp only [layout, findSpace, l3, l1]
    simp [ESpace.spin, e]
    omega
  · exact occ_not_has (hpre k h1 h2) s

theorem cfg2_inj (hlt : lo < hi) {a b a' b' : Nat} : cfg2 lo hi a b = cfg2 lo hi a' b' ↔ a = a' ∧ b = b' := by
  constructor
  · intro h
    have h1 := congrFun h (.spin 2 lo)
    have h2 := congrFun h (.spin 2 hi)
    simp [cfg2, hlt.ne'] at h1 h2
    exact ⟨h1, h2⟩
  · rintro ⟨rfl, rfl⟩; rfl

theorem cfg2_lo (lo hi : ι) (a b x : Nat) : Function.update (cfg2 lo hi a b) (.spin 2 lo) x = cfg2 lo hi x b := by
  funext k; by_cases h : k = .spin 2 lo <;> simp [cfg2, Function.update_apply, h]

theorem cfg2_hi (hlt : lo < hi) (a b x : Nat) : Function.update (cfg2 lo hi a b) (.spin 2 hi) x = cfg2 lo hi a x := by
  funext k
  by_cases h : k = .spin 2 hi
  · subst h; simp [cfg2, hlt.ne']
  · simp [cfg2, Function.update_apply, h]

theorem encodes_pair (hlt : lo < hi) (hc : Constructed (pairSpace lo hi)) {t k a b : Nat} (ht : t < 4) :
    Encodes (pairSpace lo hi) k (cfg2 lo hi a b) t ↔ t % 2 = a ∧ t / 2 = b := by
  have hnf : ∀ es ∈ (pairSpace lo hi).elementarySpaces, ¬ es.Foreign := by
    intro es hes
    have : es ∈ [ESpace.spin 2 lo, ESpace.spin 2 hi] := by
      rw [elementarySpaces, pairSpace, canon_spaces, layout_fst] at hes; exact hes
    simp only [List.mem_cons, List.not_mem_nil, or_false] at this
    rcases this with rfl | rfl <;> simp [ESpace.Foreign, ESpace.spin]
  rw [Encodes, conf_pair hlt ht, cfg2_inj hlt]
  exact ⟨fun h => h.1, fun h => ⟨h, fun es he => by rw [occ_foreign hc hnf he, occ_foreign hc hnf he]⟩⟩

/-- The action of the terms on two spins 1/2. -/
theorem act_pair (hlt : lo < hi) (bd : ι → ℕ∞) (a b : Nat) (ha : a < 2) (hb : b < 2) :
    monAct bd [.spin 2 .z lo, .spin 2 .z hi] (cfg2 lo hi a b) = some (cfg2 lo hi a b, ((a : ℝ) - 1 / 2) * (b - 1 / 2)) ∧
    monAct bd [.spin 2 .plus lo, .spin 2 .minus hi] (cfg2 lo hi a b) = (if a = 0 ∧ b = 1 then some (cfg2 lo hi 1 0, 1) else none) ∧
    monAct bd [.spin 2 .minus lo, .spin 2 .plus hi] (cfg2 lo hi a b) = (if a = 1 ∧ b = 0 then some (cfg2 lo hi 0 1, 1) else none) := by
  have vlo : ∀ a b, cfg2 lo hi a b (.spin 2 lo) = a := fun a b => by simp [cfg2]
  have vhi : ∀ a b, cfg2 lo hi a b (.spin 2 hi) = b := fun a b => by simp [cfg2, hlt.ne']
  have hS : spinS 2 = 1 / 2 := by norm_num [spinS]
  obtain rfl | rfl : a = 0 ∨ a = 1 := by omega
  all_goals obtain rfl | rfl : b = 0 ∨ b = 1 := by omega
  all_goals
    refine ⟨?_, ?_, ?_⟩ <;> simp [monAct, genAct, vlo, vhi, hS, cfg2_lo, cfg2_hi hlt] <;> norm_num [vlo, vhi, cfg2_lo, cfg2_hi hlt]

theorem matEl_pair (hlt : lo < hi) (hc : Constructed (pairSpace lo hi)) {t k : Nat} (ht : t < 4) (hk : k < 4) :
    matEl (pairSpace lo hi) [.spin 2 .z lo, .spin 2 .z hi] t k = (if t = k then (((k % 2 : Nat) : ℝ) - 1 / 2) * ((k / 2 : Nat) - 1 / 2) else 0) ∧
    matEl (pairSpace lo hi) [.spin 2 .plus lo, .spin 2 .minus hi] t k = (if k = 2 ∧ t = 1 then 1 else 0) ∧
    matEl (pairSpace lo hi) [.spin 2 .minus lo, .spin 2 .plus hi] t k = (if k = 1 ∧ t = 2 then 1 else 0) := by
  obtain ⟨h1, h2, h3⟩ := act_pair hlt (bosonDims (pairSpace lo hi)) (k % 2) (k / 2) (by omega) (by omega)
  have hen := fun a b => encodes_pair hlt hc (t := t) (k := k) (a := a) (b := b) ht
  refine ⟨?_, ?_, ?_⟩
  · rw [matEl, conf_pair hlt hk, h1]
    simp only [hen]
    have : (t % 2 = k % 2 ∧ t / 2 = k / 2) ↔ t = k := by omega
    simp only [this]
  · rw [matEl, conf_pair hlt hk, h2]
    by_cases hc : k % 2 = 0 ∧ k / 2 = 1
    · rw [if_pos hc]
      simp only [hen]
      have : (t % 2 = 1 ∧ t / 2 = 0) ↔ (k = 2 ∧ t = 1) := by omega
      simp only [this]
    · rw [if_neg hc, if_neg (by omega)]
  · rw [matEl, conf_pair hlt hk, h3]
    by_cases hc : k % 2 = 1 ∧ k / 2 = 0
    · rw [if_pos hc]
      simp only [hen]
      have : (t % 2 = 0 ∧ t / 2 = 1) ↔ (k = 1 ∧ t = 2) := by omega
      simp only [this]
    · rw [if_neg hc, if_neg (by omega)]

theorem opEl_pair {h : S} (hh : h ≠ 0) {i j : ι} (hij : i ≠ j) {t k : Nat} (ht : t < 4) (hk : k < 4) :
    opEl (pairSpace (min i j) (max i j)) (exchange h i j) t k =
      algebraMap ℝ S (if t = k then (((k % 2 : Nat) : ℝ) - 1 / 2) * ((k / 2 : Nat) - 1 / 2) else 0) +
        ((if k = 2 ∧ t = 1 then h else 0) + (if k = 1 ∧ t = 2 then h else 0)) := by
  obtain ⟨h1, h2, h3⟩ := matEl_pair (min_lt_max.2 hij) (space_pair hh hij).2.1 ht hk
  rw [opEl, ((exchange_perm hh hij).map _).sum_eq]
  simp only [pairTerms, comps, two, opp, weight, List.map_cons, List.map_nil, List.sum_cons, List.sum_nil, h1, h2, h3, add_zero, one_mul]
  congr 2
  · split_ifs <;> simp
  · split_ifs <;> simp

/-- **C118** The output of the program: the dimension, and the columns of the matrix of the exchange interaction of two spins 1/2 (with `h = 1/2`,
the eigenvalues are 1/4 and -3/4). -/
theorem C118_output {h : S} (hh : h ≠ 0) {i j : ι} (hij : i ≠ j) :
    program h i j = some (4, let q := algebraMap ℝ S (1 / 4)
      [[q, 0, 0, 0], [0, -q, h, 0], [0, h, -q, 0], [0, 0, 0, q]]) := by
  obtain ⟨hok, hc, hpre, hre⟩ := space_pair hh hij
  have hlt : min i j < max i j := min_lt_max.2 hij
  obtain ⟨op, hop, hact⟩ := C38_dense (T := S) (onlyAlone 2) hc hpre _ hre
  have hvs : (pairSpace (min i j) (max i j)).vecSize = 4 := by
    rw [vecSize, pairSpace, canon_total]
    simp [bitSum, ESpace.spin, clog22]
    rfl
  have hdim : (pairSpace (min i j) (max i j)).dim = 4 := by
    rw [pairSpace, canon_dim]
    simp [dimProd, ESpace.spin]
  have hcol : ∀ k < 4, op.apply (⟨(List.replicate 4 0).set k 1⟩ : DenseSV S) =
      .ok ⟨(List.range 4).map fun t => opEl (pairSpace (min i j) (max i j)) (exchange h i j) t k⟩ := by
    intro k hk
    have hdelta : ∀ m, ((List.replicate 4 (0 : S)).set k 1).getD m 0 = if m = k then 1 else 0 := by
      intro m
      rw [List.getD_eq_getElem?_getD, List.getElem?_set]
      by_cases hm : k = m
      · subst hm; simp [hk]
      · rw [if_neg hm, if_neg (Ne.symm hm), List.getElem?_replicate]; split_ifs <;> rfl
    obtain ⟨sv', s1, s2, s3⟩ := hact ⟨(List.replicate 4 0).set k 1⟩ (by rw [hvs]; simp) (by
      intro m hm
      rw [hdelta] at hm
      split_ifs at hm with e
      · exact (valid_pair m).2 (by omega)
      · exact absurd rfl hm)
    rw [s1]
    congr 1
    obtain ⟨d⟩ := sv'
    rw [hvs] at s2
    simp only at s2 s3
    congr 1
    refine List.ext_getElem (by simp [s2]) fun t h1 h2 => ?_
    have h3 := s3 t
    rw [opApply, if_pos ((valid_pair t).2 (by omega))] at h3
    rw [List.getD_eq_getElem _ _ h1] at h3
    rw [h3, List.getElem_map, List.getElem_range]
    simp only [hdelta]
    rw [Finset.sum_eq_single k]
    · simp
    · intro m _ hm; rw [if_neg hm, smul_zero]
    · intro hm; exact absurd (mem_basisStates.2 ((valid_pair k).2 hk)) hm
  rw [program, hok]
  simp only [hop]
  have e4 : List.range 4 = [0, 1, 2, 3] := rfl
  have o := fun t k (ht : t < 4) (hk : k < 4) => opEl_pair hh hij ht hk
  rw [e4] at hcol ⊢
  simp only [List.mapM_cons, List.mapM_nil, hcol 0 (by omega), hcol 1 (by omega), hcol 2 (by omega), hcol 3 (by omega), hdim, List.map_cons, List.map_nil]
  simp only [o 0 0 (by omega) (by omega), o 0 1 (by omega) (by omega), o 0 2 (by omega) (by omega), o 0 3 (by omega) (by omega),
    o 1 0 (by omega) (by omega), o 1 1 (by omega) (by omega), o 1 2 (by omega) (by omega), o 1 3 (by omega) (by omega),
    o 2 0 (by omega) (by omega), o 2 1 (by omega) (by omega), o 2 2 (by omega) (by omega), o 2 3 (by omega) (by omega),
    o 3 0 (by omega) (by omega), o 3 1 (by omega) (by omega), o 3 2 (by omega) (by omega), o 3 3 (by omega) (by omega)]
  have hq : algebraMap ℝ S (-(1 / 4)) = -algebraMap ℝ S (1 / 4) := map_neg _ _
  norm_num
end

open scoped Classical in
/-- Not vacuous: the published program, sites 1 and 2 with `h = 1/2`. -/
theorem c118_hypotheses : (1 / 2 : ℝ) ≠ 0 ∧ (1 : ℤ) ≠ 2 ∧
    program (1 / 2 : ℝ) (1 : ℤ) 2 = some (4, [[1 / 4, 0, 0, 0], [0, -(1 / 4), 1 / 2, 0], [0, 1 / 2, -(1 / 4), 0], [0, 0, 0, 1 / 4]]) :=
  ⟨by norm_num, by decide, C118_output (by norm_num) (by decide)⟩

end SpinPair
end LC
