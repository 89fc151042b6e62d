import Verif.Proof.PartitionProgram
import Verif.Props.BlockAction
import Verif.Proof.FockVector
/-
Proofs for C116: the basis states of the Kanamori atom and the connections between them.
-/
set_option linter.unusedSectionVars false
set_option linter.unusedSimpArgs false
set_option linter.unusedVariables false
namespace LC
namespace Atom
open HilbertSpace Expr Factory LC.Lattice
variable {ι S : Type _} [LinearOrder ι] [CommRing S] [DecidableEq S] [ConstScalar S] [ScalarLaws S] [IsDomain S] [CharZero S]
  [Star S] [Algebra ℝ S] {el : Bool → Nat → ι} {hs : HilbertSpace ι} {n : Nat}

/-- The number of electrons with spin `s` in the orbital `o`. -/
def pop (hs : HilbertSpace ι) (el : Bool → Nat → ι) (k : Nat) (s : Bool) (o : Nat) : Nat := occ hs k (ESpace.fermion (el s o))

/-- The Hilbert space of the atom. -/
structure Space (hs : HilbertSpace ι) (el : Bool → Nat → ι) (n : Nat) : Prop where
  hc : Constructed hs
  hpre : PredefinedSpaces hs
  mem : ∀ es, es ∈ hs.elementarySpaces ↔ ∃ s, ∃ o < n, es = ESpace.fermion (el s o)

theorem pop_le (A : Space hs el n) {k : Nat} (hk : ValidState hs k) (s : Bool) (o : Nat) : pop hs el k s o ≤ 1 :=
  (conf_phys A.hc A.hpre hk).fermion (el s o)

theorem Space.has (A : Space hs el n) (s : Bool) {o : Nat} (ho : o < n) : hs.has (Mode.fermion (el s o) : Mode ι).space = true := by
  have := (A.mem _).2 ⟨s, o, ho, rfl⟩
  obtain ⟨p, hp, he⟩ := List.mem_map.1 this
  obtain ⟨f, -, hl⟩ := loc_of_mem A.hc hp (es := (Mode.fermion (el s o) : Mode ι).space) (by rw [he]; rfl)
  exact hl.has

theorem Space.notForeign (A : Space hs el n) : ∀ es ∈ hs.elementarySpaces, ¬ es.Foreign := by
  intro es hes
  obtain ⟨s, o, -, rfl⟩ := (A.mem es).1 hes
  simp [ESpace.Foreign, ESpace.fermion]

theorem state_ext (A : Space hs el n) {k t : Nat} (hk : ValidState hs k) (ht : ValidState hs t)
    (h : ∀ s, ∀ o < n, pop hs el k s o = pop hs el t s o) : k = t := by
  refine conf_inj A.hc A.hpre A.notForeign hk ht ?_
  funext m
  by_cases hm : hs.has m.space = true
  · obtain ⟨f, nb, d, hl⟩ := loc_of_has A.hc hm
    obtain ⟨e, he, hkey, -, -⟩ := hl.mem
    obtain ⟨s, o, ho, rfl⟩ := (A.mem e).1 (List.mem_map.2 ⟨_, he, rfl⟩)
    have : m = .fermion (el s o) := Mode.space_inj hkey.symm
    subst this
    exact h s o ho
  · rw [Bool.not_eq_true] at hm
    rw [conf, conf, occ_not_has hm, occ_not_has hm]

/-! ### Changes of the occupation numbers -/

theorem pop_charge {m : List (Gen ι)} {k t : Nat} (h : matEl hs m t k ≠ 0) (s : Bool) (o : Nat) :
    (pop hs el t s o : Int) = pop hs el k s o + (countFermions [el s o]).mon m := by
  have := matEl_charge hs m t k [el s o] (by simp) h
  simpa [nFermions, pop] using this

/-- The list of all orbitals with spin `s`. -/
def orbitals (el : Bool → Nat → ι) (n : Nat) (s : Bool) : List ι := (List.range n).map (el s)

theorem orbitals_nodup (hd : Ordered el) (s : Bool) : (orbitals el n s).Nodup := List.nodup_range.map fun _ _ h => hd.inj _ _ _ h

theorem mem_orbitals (hd : Ordered el) {s s' : Bool} {o : Nat} : el s o ∈ orbitals el n s' ↔ s = s' ∧ o < n := by
  simp only [orbitals, List.mem_map, List.mem_range]
  constructor
  · rintro ⟨o', h1, h2⟩
    obtain ⟨rfl, rfl⟩ := hd.inj2 h2
    exact ⟨rfl, h1⟩
  · rintro ⟨rfl, h⟩
    exact ⟨o, h, rfl⟩

theorem nFermions_eq (k : Nat) (s : Bool) : nFermions hs k (orbitals el n s) = ∑ o ∈ Finset.range n, pop hs el k s o := by
  rw [nFermions, orbitals, List.map_map]
  rfl

/-- The same numbers of electrons with either spin, and the same singly occupied orbitals. -/
def SameNumbers (hs : HilbertSpace ι) (el : Bool → Nat → ι) (n k t : Nat) : Prop :=
  (∀ s, nFermions hs k (orbitals el n s) = nFermions hs t (orbitals el n s)) ∧
    ∀ o < n, (pop hs el k true o + pop hs el k false o = 1 ↔ pop hs el t true o + pop hs el t false o = 1)

theorem quad_pop (hd : Ordered el) {p q r s : Nat} {k t : Nat} (h : matEl hs (quad el p q r s) t k ≠ 0) (o : Nat) :
    ((pop hs el t true o : Int) = pop hs el k true o + (if o = q then 1 else 0) - (if o = r then 1 else 0)) ∧
    ((pop hs el t false o : Int) = pop hs el k false o + (if o = p then 1 else 0) - (if o = s then 1 else 0)) := by
  have e : ∀ s' a o', (el s' a = el s' o' ↔ o' = a) := fun s' a o' => ⟨fun h => (hd.inj _ _ _ h).symm, fun h => by rw [h]⟩
  have e1 : ∀ a o', el true a ≠ el false o' := hd.ne
  have e2 : ∀ a o', el false a ≠ el true o' := fun a o' => (hd.ne o' a).symm
  constructor
  · rw [pop_charge h true o]
    simp [Charge.mon, Charge.gen, quad, countFermions, e, e1, e2]
    split_ifs <;> omega
  · rw [pop_charge h false o]
    simp [Charge.mon, Charge.gen, quad, countFermions, e, e1, e2]
    split_ifs <;> omega

theorem pair_pop {i j : ι} {k t : Nat} (h : matEl hs (pair i j) t k ≠ 0) (s : Bool) (o : Nat) : pop hs el t s o = pop hs el k s o := by
  have := pop_charge (el := el) h s o
  have h0 : (countFermions [el s o]).mon (pair i j) = 0 := by
    simp [Charge.mon, Charge.gen, pair]
  rw [h0, add_zero] at this
  exact_mod_cast this

theorem dens_pop {i : ι} {k t : Nat} (h : matEl hs [.fermion true i, .fermion false i] t k ≠ 0) (s : Bool) (o : Nat) :
    pop hs el t s o = pop hs el k s o := by
  have := pop_charge (el := el) h s o
  have h0 : (countFermions [el s o]).mon [.fermion true i, .fermion false i] = 0 := by
    simp [Charge.mon, Charge.gen]
  rw [h0, add_zero] at this
  exact_mod_cast this

/-- An exchange conserves the quantum numbers. -/
theorem exch_same (hd : Ordered el) (A : Space hs el n) {b : Bool} {o1 o2 : Nat} (h1 : o1 < n) (h2 : o2 < n) (hne : o1 ≠ o2) {k t : Nat}
    (hk : ValidState hs k) (ht : ValidState hs t) (h : matEl hs (exch el b o1 o2) t k ≠ 0) : SameNumbers hs el n k t := by
  obtain ⟨p, q, r, s, he, -, e1, e2, e3, e4⟩ := exch_quad el b o1 o2
  rw [he] at h
  have hp := quad_pop hd h
  constructor
  · intro s'
    have h5 := matEl_charge hs _ t k (orbitals el n s') (orbitals_nodup hd s') h
    have h0 : (countFermions (orbitals el n s')).mon (quad el p q r s) = 0 := by
      have hpn : p < n := by rw [e1]; split_ifs <;> assumption
      have hsn : s < n := by rw [e4]; split_ifs <;> assumption
      subst e2 e3
      cases s' <;> simp [Charge.mon, Charge.gen, quad, countFermions, mem_orbitals hd, h1, h2, hpn, hsn]
    rw [h0, add_zero] at h5
    exact_mod_cast h5.symm
  · intro o ho
    obtain ⟨g1, g2⟩ := hp o
    have a1 := pop_le A hk true o
    have a2 := pop_le A hk false o
    have a3 := pop_le A ht true o
    have a4 := pop_le A ht false o
    subst e2 e3
    cases b <;> simp only [if_true, Bool.false_eq_true, if_false] at e1 e4 <;> subst e1 e4 <;> split_ifs at g1 g2 <;> omega

theorem SameNumbers.trans {k t u : Nat} (h : SameNumbers hs el n k t) (h' : SameNumbers hs el n t u) : SameNumbers hs el n k u :=
  ⟨fun s => (h.1 s).trans (h'.1 s), fun o ho => (h.2 o ho).trans (h'.2 o ho)⟩
theorem SameNumbers.symm {k t : Nat} (h : SameNumbers hs el n k t) : SameNumbers hs el n t k :=
  ⟨fun s => (h.1 s).symm, fun o ho => (h.2 o ho).symm⟩
theorem SameNumbers.refl (k : Nat) : SameNumbers hs el n k k := ⟨fun _ => rfl, fun _ _ => Iff.rfl⟩

/-- What the terms of the Hamiltonian do. -/
theorem term_cases (hd : Ordered el) {mu U J : S} {p : List (Gen ι) × S} (hp : p ∈ (ham el n mu U J).terms) :
    (∀ k t, matEl hs p.1 t k ≠ 0 → ∀ s o, pop hs el t s o = pop hs el k s o) ∨
      ∃ b o1 o2, o1 < n ∧ o2 < n ∧ o1 ≠ o2 ∧ p = (exch el b o1 o2, J) := by
  rw [(ham_perm hd n mu U J).mem_iff] at hp
  replace hp := (List.mem_filter.1 hp).1
  simp only [allTerms, List.mem_append, chemTerms, intraTerms, diffTerms, sameTerms, exchTerms, List.mem_map] at hp
  rcases hp with (((⟨q, _, rfl⟩ | ⟨q, _, rfl⟩) | ⟨q, _, rfl⟩) | ⟨q, h, rfl⟩) | ⟨q, h, rfl⟩
  · exact .inl fun k t h s o => dens_pop h s o
  · exact .inl fun k t h s o => pair_pop h s o
  · exact .inl fun k t h s o => pair_pop h s o
  · exact .inl fun k t h s o => pair_pop h s o
  · obtain ⟨h1, h2, h3⟩ := mem_offDiag.1 (List.mem_product.1 h).1
    exact .inr ⟨q.2, q.1.1, q.1.2, h1, h2, h3, rfl⟩

theorem exch_mem (hd : Ordered el) {mu U J : S} (hJ : J ≠ 0) {b : Bool} {o1 o2 : Nat} (h1 : o1 < n) (h2 : o2 < n) (hne : o1 ≠ o2) :
    (exch el b o1 o2, J) ∈ (ham el n mu U J).terms := by
  rw [(ham_perm hd n mu U J).mem_iff]
  refine List.mem_filter.2 ⟨List.mem_append_right _ ?_, by simpa using hJ⟩
  refine List.mem_map.2 ⟨((o1, o2), b), List.mem_product.2 ⟨mem_offDiag.2 ⟨h1, h2, hne⟩, by cases b <;> simp⟩, rfl⟩

theorem oneTerm (hd : Ordered el) (A : Space hs el n) (mu U J : S) : OneTermEach hs (ham el n mu U J) := by
  intro k t hk ht hne p hp q hq h1 h2
  rcases term_cases (hs := hs) hd hp with h | ⟨b, o1, o2, a1, a2, a3, rfl⟩
  · exact absurd (state_ext A hk ht fun s o _ => (h k t h1 s o).symm) hne
  · rcases term_cases (hs := hs) hd hq with h | ⟨b', o1', o2', b1, b2, b3, rfl⟩
    · exact absurd (state_ext A hk ht fun s o _ => (h k t h2 s o).symm) hne
    · obtain ⟨p, q, r, s, he, -, e1, e2, e3, e4⟩ := exch_quad el b o1 o2
      obtain ⟨p', q', r', s', he', -, e1', e2', e3', e4'⟩ := exch_quad el b' o1' o2'
      simp only [he, he'] at h1 h2 ⊢
      have f := quad_pop hd h1
      have f' := quad_pop hd h2
      subst e2 e3 e2' e3'
      have u1 := (f q).1
      have u2 := (f' q).1
      have u3 := (f r).1
      have u4 := (f' r).1
      have x1 : q = q' := by
        rw [u2] at u1; split_ifs at u1 <;> first | assumption | omega
      have x2 : r = r' := by
        rw [u4] at u3; split_ifs at u3 <;> first | assumption | omega
      subst x1 x2
      have v1 := (f q).2
      have v2 := (f' q).2
      have hb : b = b' := by
        cases b <;> cases b' <;> simp only [if_true, Bool.false_eq_true, if_false] at e1 e4 e1' e4' <;> subst e1 e4 e1' e4' <;>
          first | rfl | (rw [v2] at v1; split_ifs at v1 <;> omega)
      subst hb
      rw [e1, e4, e1', e4']

/-! ### Connections -/

/-- The action of a product of two creation and two annihilation operators. -/
theorem monAct_four (bd : ι → ℕ∞) {a b c d : ι} (hab : a ≠ b) (hac : a ≠ c) (had : a ≠ d) (hbc : b ≠ c) (hbd : b ≠ d) (hcd : c ≠ d)
    (x : Config ι) (xa : x (.fermion a) = 0) (xb : x (.fermion b) = 0) (xc : x (.fermion c) = 1) (xd : x (.fermion d) = 1) :
    ∃ y z, monAct bd [.fermion true a, .fermion true b, .fermion false c, .fermion false d] x = some (y, z) ∧ z ≠ 0 := by
  simp [monAct, genAct, xa, xb, xc, xd, hab, hac, had, hbc, hbd, hcd, hab.symm, hac.symm, had.symm, hbc.symm, hbd.symm, hcd.symm]

theorem exists_target (A : Space hs el n) {m : List (Gen ι)} (hm : CanonicalMonomial m) (hg : ∀ g ∈ m, hs.has g.mode.space = true) {k : Nat}
    (hk : ValidState hs k) {y : Config ι} {z : ℝ} (h : monAct (bosonDims hs) m (conf hs k) = some (y, z)) (hz : z ≠ 0) :
    ∃ t, ValidState hs t ∧ matEl hs m t k ≠ 0 := by
  obtain ⟨ma, hma⟩ := monomialAction_make_ok A.hc A.hpre hm hg
  have h1 := monomial_act A.hc A.hpre hm hma hk (1 : ℝ)
  rw [h] at h1
  obtain ⟨t, -, h2, h3, h4⟩ := h1
  refine ⟨t, h2, ?_⟩
  have hE : Encodes hs k y t := ⟨h3, h4⟩
  simpa [matEl, h, hE] using hz

/-- An exchange is possible if the orbitals are occupied suitably. -/
theorem exch_target (hd : Ordered el) (A : Space hs el n) {b : Bool} {o1 o2 : Nat} (h1 : o1 < n) (h2 : o2 < n) (hne : o1 ≠ o2) {k : Nat}
    (hk : ValidState hs k) (u1 : pop hs el k true o1 = 0) (u2 : pop hs el k true o2 = 1)
    (d1 : pop hs el k false (if b then o1 else o2) = 0) (d2 : pop hs el k false (if b then o2 else o1) = 1) :
    ∃ t, ValidState hs t ∧ matEl hs (exch el b o1 o2) t k ≠ 0 := by
  obtain ⟨p, q, r, s, he, hne2, e1, e2, e3, e4⟩ := exch_quad el b o1 o2
  have hpn : p < n := by rw [e1]; split_ifs <;> assumption
  have hsn : s < n := by rw [e4]; split_ifs <;> assumption
  rw [← e1] at d1
  rw [← e4] at d2
  subst e2 e3
  rw [he]
  obtain ⟨y, z, hy, hz⟩ := monAct_four (bosonDims hs) (hd.ne q p).symm (hd.ne r p).symm (fun h => (hne2 hne).1 (hd.inj _ _ _ h))
    (fun h => (hne2 hne).2 (hd.inj _ _ _ h)) (hd.ne q s) (hd.ne r s) (conf hs k) d1 u1 u2 d2
  refine exists_target A (canonicalMonomial_of_chain (canon_quad hd p q r s).chain) ?_ hk hy hz
  intro g hg
  simp only [quad, List.mem_cons, List.not_mem_nil, or_false] at hg
  rcases hg with rfl | rfl | rfl | rfl
  · exact A.has false hpn
  · exact A.has true h1
  · exact A.has true h2
  · exact A.has false hsn

/-- In how many orbitals the occupations of two states with spin up differ. -/
def distance (hs : HilbertSpace ι) (el : Bool → Nat → ι) (n k t : Nat) : Nat :=
  ∑ o ∈ Finset.range n, if pop hs el k true o = pop hs el t true o then 0 else 1

theorem connected (hd : Ordered el) (A : Space hs el n) {mu U J : S} (hJ : J ≠ 0) {M : Nat → ι → Prop} (hM : HalfAlone M)
    (hsmall : hs.foreachAlg.isSome → hs.dim < 2 ^ 31)
    (hre : Reachable (InSpace M hs) (ham el n mu U J)) {k t : Nat} (hk : ValidState hs k) (ht : ValidState hs t)
    (h : SameNumbers hs el n k t) : Joined hs (ham el n mu U J) k t := by
  induction hm : distance hs el n k t using Nat.strong_induction_on generalizing k with
  | _ m ih =>
  have hlek := pop_le A hk
  have hlet := pop_le A ht
  by_cases hall : ∀ o < n, pop hs el k true o = pop hs el t true o
  · have : k = t := by
      refine state_ext A hk ht fun s o ho => ?_
      have h1 := hall o ho
      have h2 := h.2 o ho
      have h3 := hlek false o
      have h4 := hlet false o
      have h5 := hlek true o
      cases s
      · omega
      · exact h1
    rw [this]
    exact .refl _
  · push Not at hall
    obtain ⟨o, ho, hne⟩ := hall
    have hU := h.1 true
    have hD := h.1 false
    rw [nFermions_eq, nFermions_eq] at hU hD
    set f : Nat → Int := fun o => (pop hs el k true o : Int) - pop hs el t true o with hf
    have hsumf : ∑ o ∈ Finset.range n, f o = 0 := by
      simp only [hf, Finset.sum_sub_distrib]
      have : ((∑ o ∈ Finset.range n, pop hs el k true o : Nat) : Int) = (∑ o ∈ Finset.range n, pop hs el t true o : Nat) := by rw [hU]
      push_cast at this
      omega
    have hg : ∀ o < n, (pop hs el k false o : Int) - pop hs el t false o = if pop hs el k true o + pop hs el k false o = 1 then - f o else f o := by
      intro o ho
      have h2 := h.2 o ho
      have h3 := hlek false o
      have h4 := hlet false o
      have h5 := hlek true o
      have h6 := hlet true o
      simp only [hf]
      split_ifs <;> omega
    have hsumg : ∑ o ∈ Finset.range n, (if pop hs el k true o + pop hs el k false o = 1 then - f o else f o) = 0 := by
      rw [← Finset.sum_congr rfl fun o ho => hg o (Finset.mem_range.1 ho), Finset.sum_sub_distrib]
      have : ((∑ o ∈ Finset.range n, pop hs el k false o : Nat) : Int) = (∑ o ∈ Finset.range n, pop hs el t false o : Nat) := by rw [hD]
      push_cast at this
      omega
    have hsp := Finset.sum_filter_add_sum_filter_not (Finset.range n) (fun o => pop hs el k true o + pop hs el k false o = 1) f
    rw [Finset.sum_ite, Finset.sum_neg_distrib] at hsumg
    rw [hsumf] at hsp
    have z1 : ∑ o ∈ (Finset.range n).filter (fun o => pop hs el k true o + pop hs el k false o = 1), f o = 0 := by omega
    have z2 : ∑ o ∈ (Finset.range n).filter (fun o => ¬ pop hs el k true o + pop hs el k false o = 1), f o = 0 := by omega
    have hfo : f o ≠ 0 := by simp only [hf]; omega
    have step : ∀ (b : Bool) (a c : Nat), a < n → c < n → f a > 0 → f c < 0 → pop hs el k false (if b then c else a) = 0 → pop hs el k false (if b then a else c) = 1 →
        Joined hs (ham el n mu U J) k t := by
      intro b a c ha hc fa fc d1 d2
      have hac : c ≠ a := by rintro rfl; omega
      have la := hlek true a
      have lc := hlet true c
      simp only [hf] at fa fc
      obtain ⟨k', v, hmat⟩ := exch_target hd A (b := b) hc ha hac hk (by omega) (by omega) d1 d2
      have hsame := exch_same hd A hc ha hac hk v hmat
      have hpop : ∀ o, (pop hs el k' true o : Int) = pop hs el k true o + (if o = c then 1 else 0) - (if o = a then 1 else 0) := by
        obtain ⟨p, q, r, s, he, -, -, e2, e3, -⟩ := exch_quad el b c a
        rw [he] at hmat
        intro o
        rw [(quad_pop hd hmat o).1, e2, e3]
      have hkk : k ≠ k' := by
        rintro rfl
        have := hpop a
        rw [if_neg hac.symm, if_pos rfl] at this
        omega
      have hlead := leads_of_one hM A.hc A.hpre hsmall _ hre (oneTerm hd A mu U J) hk v hkk (exch_mem hd hJ hc ha hac) hmat
      refine .trans _ _ _ (.rel _ _ hlead) (ih _ ?_ v (hsame.symm.trans h) rfl)
      rw [← hm]
      refine Finset.sum_lt_sum (fun o _ => ?_) ⟨a, Finset.mem_range.2 ha, ?_⟩
      · have := hpop o
        by_cases oa : o = a
        · subst oa
          rw [if_neg hac.symm, if_pos rfl] at this
          have : pop hs el k' true o = pop hs el t true o := by have := hlet true o; omega
          rw [if_pos this]; omega
        · by_cases oc : o = c
          · subst oc
            rw [if_neg hac, if_pos rfl] at this
            have : pop hs el k' true o = pop hs el t true o := by omega
            rw [if_pos this]; omega
          · rw [if_neg oa, if_neg oc] at this
            have : pop hs el k' true o = pop hs el k true o := by omega
            rw [this]
      · have := hpop a
        rw [if_neg hac.symm, if_pos rfl] at this
        rw [if_pos (by omega), if_neg (by omega)]
        omega
    by_cases hsing : pop hs el k true o + pop hs el k false o = 1
    · have hmem : o ∈ (Finset.range n).filter (fun o => pop hs el k true o + pop hs el k false o = 1) :=
        Finset.mem_filter.2 ⟨Finset.mem_range.2 ho, hsing⟩
      obtain ⟨a, ha, fa⟩ := Finset.exists_pos_of_sum_zero_of_exists_nonzero f z1 ⟨o, hmem, hfo⟩
      obtain ⟨c, hc, fc⟩ := Finset.exists_pos_of_sum_zero_of_exists_nonzero (fun o => - f o) (by rw [Finset.sum_neg_distrib, z1, neg_zero])
        ⟨o, hmem, neg_ne_zero.2 hfo⟩
      rw [Finset.mem_filter, Finset.mem_range] at ha hc
      have la := hlek true a
      have lc := hlet true c
      refine step false a c ha.1 hc.1 fa (by omega) ?_ ?_
      · simp only [hf] at fa
        simp only [Bool.false_eq_true, if_false]
        omega
      · simp only [hf] at fc
        simp only [Bool.false_eq_true, if_false]
        omega
    · have hmem : o ∈ (Finset.range n).filter (fun o => ¬ pop hs el k true o + pop hs el k false o = 1) :=
        Finset.mem_filter.2 ⟨Finset.mem_range.2 ho, hsing⟩
      obtain ⟨a, ha, fa⟩ := Finset.exists_pos_of_sum_zero_of_exists_nonzero f z2 ⟨o, hmem, hfo⟩
      obtain ⟨c, hc, fc⟩ := Finset.exists_pos_of_sum_zero_of_exists_nonzero (fun o => - f o) (by rw [Finset.sum_neg_distrib, z2, neg_zero])
        ⟨o, hmem, neg_ne_zero.2 hfo⟩
      rw [Finset.mem_filter, Finset.mem_range] at ha hc
      have la := hlek true a
      have lc := hlet true c
      have l3 := hlek false a
      have l4 := hlek false c
      refine step true a c ha.1 hc.1 fa (by omega) ?_ ?_
      · simp only [hf] at fc
        simp only [if_true]
        omega
      · simp only [hf] at fa
        simp only [if_true]
        omega

end Atom
end LC
