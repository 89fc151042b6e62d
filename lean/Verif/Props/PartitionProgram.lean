import Verif.Proof.PartitionStates
import Verif.Props.HubbardPrograms
import Verif.Props.StateVector
/-
C116: the program examples/partition.cpp for every number of orbitals.
-/
set_option linter.unusedSectionVars false
set_option linter.unusedSimpArgs false
namespace LC
namespace Atom
open HilbertSpace Expr Factory LC.Lattice SpacePartition
variable {ι S H H₁ H₂ : Type _} [LinearOrder ι] [CommRing S] [DecidableEq S] [ConstScalar S] [ScalarLaws S] [IsDomain S] [CharZero S]
  [Star S] [Algebra ℝ S] [HashImpl H Nat S] [HashImpl H₁ Nat Nat] [HashImpl H₂ Nat Nat] {el : Bool → Nat → ι} {hs : HilbertSpace ι} {n : Nat}

/-- **C116** The terms of the Hamiltonian of examples/partition.cpp; `pair i j` is the normal ordered product of two number operators. -/
theorem C116_terms (hd : Ordered el) (n : Nat) (mu U J : S) (p : List (Gen ι) × S) : p ∈ (ham el n mu U J).terms ↔ p.2 ≠ 0 ∧
    ((∃ s, ∃ o < n, p = ([.fermion true (el s o), .fermion false (el s o)], -mu)) ∨
     (∃ o < n, p = (pair (el true o) (el false o), U)) ∨
     (∃ o1 < n, ∃ o2 < n, o1 ≠ o2 ∧ p = (pair (el true o1) (el false o2), U - 2 * J)) ∨
     (∃ s, ∃ o1 < n, ∃ o2 < o1, p = (pair (el s o1) (el s o2), U - 3 * J)) ∨
     (∃ o1 < n, ∃ o2 < n, o1 ≠ o2 ∧
       p = ([.fermion true (el false o1), .fermion true (el true o1), .fermion false (el true o2), .fermion false (el false o2)], J)) ∨
     (∃ o1 < n, ∃ o2 < n, o1 ≠ o2 ∧
       p = ([.fermion true (el false o2), .fermion true (el true o1), .fermion false (el true o2), .fermion false (el false o1)], J))) := by
  rw [(ham_perm hd n mu U J).mem_iff, List.mem_filter, and_comm, decide_eq_true_eq]
  refine and_congr_right fun _ => ?_
  simp only [allTerms, List.mem_append, chemTerms, intraTerms, diffTerms, sameTerms, exchTerms, List.mem_map, or_assoc]
  constructor
  · rintro (⟨q, h, rfl⟩ | ⟨q, h, rfl⟩ | ⟨q, h, rfl⟩ | ⟨q, h, rfl⟩ | ⟨⟨q, b⟩, h, rfl⟩)
    · exact .inl ⟨q.2, q.1, List.mem_range.1 (List.mem_product.1 h).1, rfl⟩
    · exact .inr (.inl ⟨q, List.mem_range.1 h, rfl⟩)
    · obtain ⟨h1, h2, h3⟩ := mem_offDiag.1 h
      exact .inr (.inr (.inl ⟨_, h1, _, h2, h3, rfl⟩))
    · obtain ⟨h1, h2, h3⟩ := mem_below.1 (List.mem_product.1 h).1
      exact .inr (.inr (.inr (.inl ⟨_, _, h1, _, h3, rfl⟩)))
    · obtain ⟨h1, h2, h3⟩ := mem_offDiag.1 (List.mem_product.1 h).1
      cases b
      · exact .inr (.inr (.inr (.inr (.inr ⟨_, h1, _, h2, h3, rfl⟩))))
      · exact .inr (.inr (.inr (.inr (.inl ⟨_, h1, _, h2, h3, rfl⟩))))
  · rintro (⟨s, o, h, rfl⟩ | ⟨o, h, rfl⟩ | ⟨o1, h1, o2, h2, h3, rfl⟩ | ⟨s, o1, h1, o2, h2, rfl⟩ | ⟨o1, h1, o2, h2, h3, rfl⟩ | ⟨o1, h1, o2, h2, h3, rfl⟩)
    · exact .inl ⟨(o, s), List.mem_product.2 ⟨List.mem_range.2 h, by cases s <;> simp⟩, rfl⟩
    · exact .inr (.inl ⟨o, List.mem_range.2 h, rfl⟩)
    · exact .inr (.inr (.inl ⟨(o1, o2), mem_offDiag.2 ⟨h1, h2, h3⟩, rfl⟩))
    · exact .inr (.inr (.inr (.inl ⟨((o1, o2), s), List.mem_product.2 ⟨mem_below.2 ⟨h1, by simp only; omega, h2⟩, by cases s <;> simp⟩, rfl⟩)))
    · exact .inr (.inr (.inr (.inr ⟨((o1, o2), true), List.mem_product.2 ⟨mem_offDiag.2 ⟨h1, h2, h3⟩, by simp⟩, rfl⟩)))
    · exact .inr (.inr (.inr (.inr ⟨((o1, o2), false), List.mem_product.2 ⟨mem_offDiag.2 ⟨h1, h2, h3⟩, by simp⟩, rfl⟩)))

/-! ### The Hilbert space -/

theorem foreachAlg_fermions (hc : Constructed hs) (h : ∀ es ∈ hs.elementarySpaces, ∃ i, es = ESpace.fermion i) : hs.foreachAlg = none := by
  obtain ⟨l, hf, rfl⟩ := hc.canon
  rw [elementarySpaces, canon_spaces, layout_fst] at h
  have key : ∀ (l : List (ESpace ι)) (m : Nat), (∀ es ∈ l, ∃ i, es = ESpace.fermion i) → (msz l m).length ≤ 1 := by
    intro l
    induction l with
    | nil => intro m _; simp only [msz]; split_ifs <;> simp
    | cons e l ih =>
      intro m h
      obtain ⟨i, rfl⟩ := h e (by simp)
      rw [msz, if_neg (by simp [ESpace.fermion])]
      exact ih _ fun es hes => h es (by simp [hes])
  rw [canon_foreachAlg l hf, if_pos (key l 1 h)]

/-- All orbitals. -/
def allOrbitals (el : Bool → Nat → ι) (n : Nat) : List ι := (List.range n ×ˢ [true, false]).map fun q => el q.2 q.1

theorem mem_all {i : ι} : i ∈ allOrbitals el n ↔ ∃ s, ∃ o < n, i = el s o := by
  simp only [allOrbitals, List.mem_map]
  constructor
  · rintro ⟨⟨o, s⟩, h, rfl⟩
    exact ⟨s, o, List.mem_range.1 (List.mem_product.1 h).1, rfl⟩
  · rintro ⟨s, o, h, rfl⟩
    exact ⟨(o, s), List.mem_product.2 ⟨List.mem_range.2 h, by cases s <;> simp⟩, rfl⟩

theorem all_length : (allOrbitals el n).length = 2 * n := by
  simp [allOrbitals, List.length_product]; ring

theorem all_nodup (hd : Ordered el) : (allOrbitals el n).Nodup := by
  refine (List.nodup_range.product (by decide)).map ?_
  rintro ⟨a, s⟩ ⟨a', s'⟩ h
  obtain ⟨rfl, rfl⟩ := hd.inj2 h
  rfl

theorem ham_gens (hd : Ordered el) (n : Nat) {mu U J : S} (hmu : mu ≠ 0) :
    (∀ p ∈ (ham el n mu U J).terms, ∀ g ∈ p.1, ∃ d, ∃ i ∈ allOrbitals el n, g = .fermion d i) ∧
    (∀ i ∈ allOrbitals el n, ∃ p ∈ (ham el n mu U J).terms, Gen.fermion true i ∈ p.1) := by
  have key := C116_terms hd n mu U J
  constructor
  · intro p hp g hg
    rcases ((key p).1 hp).2 with ⟨s, o, h, rfl⟩ | ⟨o, h, rfl⟩ | ⟨o1, h1, o2, h2, h3, rfl⟩ | ⟨s, o1, h1, o2, h2, rfl⟩ | ⟨o1, h1, o2, h2, h3, rfl⟩ | ⟨o1, h1, o2, h2, h3, rfl⟩
    all_goals
      simp only [pair, List.mem_cons, List.not_mem_nil, or_false] at hg
    · rcases hg with rfl | rfl <;> exact ⟨_, _, mem_all.2 ⟨s, o, h, rfl⟩, rfl⟩
    · rcases hg with rfl | rfl | rfl | rfl <;> refine ⟨_, _, mem_all.2 ?_, rfl⟩
      all_goals rcases le_total (el true o) (el false o) with h' | h' <;> simp only [h', min_eq_left, min_eq_right, max_eq_left, max_eq_right] <;> exact ⟨_, _, h, rfl⟩
    · rcases hg with rfl | rfl | rfl | rfl <;> refine ⟨_, _, mem_all.2 ?_, rfl⟩
      all_goals rcases le_total (el true o1) (el false o2) with h' | h' <;> simp only [h', min_eq_left, min_eq_right, max_eq_left, max_eq_right] <;> exact ⟨_, _, by assumption, rfl⟩
    · have h3 : o2 < n := by omega
      rcases hg with rfl | rfl | rfl | rfl <;> refine ⟨_, _, mem_all.2 ?_, rfl⟩
      all_goals rcases le_total (el s o1) (el s o2) with h' | h' <;> simp only [h', min_eq_left, min_eq_right, max_eq_left, max_eq_right] <;> first | exact ⟨_, _, h1, rfl⟩ | exact ⟨_, _, h3, rfl⟩
    · rcases hg with rfl | rfl | rfl | rfl <;> first | exact ⟨_, _, mem_all.2 ⟨_, _, h1, rfl⟩, rfl⟩ | exact ⟨_, _, mem_all.2 ⟨_, _, h2, rfl⟩, rfl⟩
    · rcases hg with rfl | rfl | rfl | rfl <;> first | exact ⟨_, _, mem_all.2 ⟨_, _, h1, rfl⟩, rfl⟩ | exact ⟨_, _, mem_all.2 ⟨_, _, h2, rfl⟩, rfl⟩
  · intro i hi
    obtain ⟨s, o, h, rfl⟩ := mem_all.1 hi
    exact ⟨_, (key _).2 ⟨neg_ne_zero.2 hmu, .inl ⟨s, o, h, rfl⟩⟩, by simp⟩

/-- **C116** The Hilbert space of the program has one bit for each of the `2 n` orbitals and nothing else; it cannot be built when
there are more than 63 of them. -/
theorem C116_space (hd : Ordered el) (n : Nat) {mu U J : S} (hmu : mu ≠ 0) :
    (63 < 2 * n → ofMonomials (esConstruct none) ((ham el n mu U J).terms.map (·.1)) = .error (.tooBig (2 * n : Nat))) ∧
    (2 * n ≤ 63 → ∃ hs, ofMonomials (esConstruct none) ((ham el n mu U J).terms.map (·.1)) = .ok hs ∧ hs.dim = 2 ^ (2 * n) ∧
      hs.totalNBits = (2 * n : Nat) ∧ hs.foreachAlg = none ∧ Space hs el n ∧ Reachable (InSpace (fun _ _ => False) hs) (ham el n mu U J)) := by
  obtain ⟨g1, g2⟩ := ham_gens hd n (U := U) (J := J) hmu
  have hmem : ∀ es, es ∈ (allOrbitals el n).map ESpace.fermion ↔ ∃ m ∈ (ham el n mu U J).terms.map (·.1), ∃ g ∈ m, esConstruct none g = some es := by
    intro es
    constructor
    · intro h
      obtain ⟨i, hi, rfl⟩ := List.mem_map.1 h
      obtain ⟨p, hp, hg⟩ := g2 i hi
      exact ⟨p.1, List.mem_map.2 ⟨p, hp, rfl⟩, _, hg, rfl⟩
    · rintro ⟨m, hm, g, hg, hge⟩
      obtain ⟨p, hp, rfl⟩ := List.mem_map.1 hm
      obtain ⟨d, i, hi, rfl⟩ := g1 p hp g hg
      simp only [esConstruct, Option.some.injEq] at hge
      exact List.mem_map.2 ⟨i, hi, hge⟩
  have hnd : ((allOrbitals el n).map ESpace.fermion).Nodup := (all_nodup hd).map fun a b h => by simpa [ESpace.fermion] using h
  have hsum : (((allOrbitals el n).map ESpace.fermion).map ESpace.nBits).sum = 2 * n := by
    rw [List.map_map, ← all_length (el := el)]
    generalize allOrbitals el n = l
    induction l with
    | nil => rfl
    | cons a l ih => simp only [List.map_cons, List.sum_cons, ih, List.length_cons, Function.comp, ESpace.fermion]; omega
  have h30 := (C30_throws_iff none ((ham el n mu U J).terms.map (·.1)) _ hnd hmem (by
    intro es hes; obtain ⟨i, _, rfl⟩ := List.mem_map.1 hes; exact wf_fermion i)).2 (by
      intro m hm g hg
      obtain ⟨p, hp, rfl⟩ := List.mem_map.1 hm
      obtain ⟨d, i, hi, rfl⟩ := g1 p hp g hg
      simp [esConstruct])
  rw [hsum] at h30
  refine ⟨fun h => by rw [if_neg (by omega)] at h30; exact h30, fun h => ?_⟩
  rw [if_pos h] at h30
  obtain ⟨hs, hok⟩ := h30
  have hI := is_ham hd n mu U J
  obtain ⟨hc, hpre, hid, hre, hmodes⟩ := space_facts hFB (fun _ _ h => h.elim) none (by simp) _ hI.1 hs hok
  obtain ⟨hel, -⟩ := C30_space_of_expression hFB (fun _ _ h => h.elim) none (by simp) _ hI.1 hs hok
  have hmem2 : ∀ es, es ∈ hs.elementarySpaces ↔ es ∈ (allOrbitals el n).map ESpace.fermion := by
    intro es
    rw [hel, hmem]
    constructor
    · rintro ⟨p, hp, g, hg, h⟩; exact ⟨p.1, List.mem_map.2 ⟨p, hp, rfl⟩, g, hg, h⟩
    · rintro ⟨m, hm, g, hg, h⟩
      obtain ⟨p, hp, rfl⟩ := List.mem_map.1 hm
      exact ⟨p, hp, g, hg, h⟩
  have hperm : hs.elementarySpaces.Perm ((allOrbitals el n).map ESpace.fermion) := (List.perm_ext_iff_of_nodup (nodup_spaces hc) hnd).2 hmem2
  obtain ⟨-, b2, -, b4, -⟩ := C26_bit_ranges hs hc
  have hT : hs.totalNBits = (2 * n : Nat) := by rw [b2, (hperm.map _).sum_eq, hsum]
  have hdim : hs.dim = 2 ^ (2 * n) := by
    rw [b4, (hperm.map _).prod_eq, List.map_map, ← all_length (el := el)]
    generalize allOrbitals el n = l
    induction l with
    | nil => rfl
    | cons a l ih => simp only [List.map_cons, List.prod_cons, ih, List.length_cons, Function.comp, ESpace.fermion, pow_succ]; ring
  refine ⟨hs, hok, hdim, hT, foreachAlg_fermions hc fun es hes => ?_, ⟨hc, hpre, fun es => ?_⟩, hre⟩
  · obtain ⟨i, -, rfl⟩ := List.mem_map.1 ((hmem2 es).1 hes)
    exact ⟨i, rfl⟩
  · rw [hmem2, List.mem_map]
    constructor
    · rintro ⟨i, hi, rfl⟩
      obtain ⟨s, o, h, rfl⟩ := mem_all.1 hi
      exact ⟨s, o, h, rfl⟩
    · rintro ⟨s, o, h, rfl⟩
      exact ⟨_, mem_all.2 ⟨s, o, h, rfl⟩, rfl⟩

/-! ### Creation and annihilation operators -/

/-- `c_dag(s, o)` if `d`, otherwise `c(s, o)`. -/
def ladder (d : Bool) (i : ι) : Expr (Gen ι) S := if d then cDag i else c i

theorem ladder_terms (d : Bool) (i : ι) : (ladder d i : Expr (Gen ι) S).terms = [([.fermion d i], 1)] := by
  have h : ∀ d, (ofMonomial (1 : S) [Gen.fermion d i]).terms = [([.fermion d i], 1)] := by
    intro d
    show (if (1 : S) = 0 then [] else normalize Terms.store [Gen.fermion d i] (1 : S) []) = _
    rw [if_neg one_ne_zero, normalize_store, emits_of_canon (nfGen (fun _ _ => False) hFB) _ (canon_fb (by simp [Allowed]) (by simp)) _ one_ne_zero]
    rfl
  cases d
  · exact h false
  · exact h true

theorem ladder_leads {d : Bool} {i : ι} {k t : Nat} (h : Leads hs (ladder d i : Expr (Gen ι) S) k t) : matEl hs [.fermion d i] t k ≠ 0 := by
  intro h0
  apply h.2.2
  simp [opEl, ladder_terms, h0]

theorem ladder_pop (hd : Ordered el) {d s : Bool} {o : Nat} {k t : Nat} (h : matEl hs [.fermion d (el s o)] t k ≠ 0) (s' : Bool) (o' : Nat) :
    (pop hs el t s' o' : Int) = pop hs el k s' o' + if s' = s ∧ o' = o then (if d then 1 else -1) else 0 := by
  rw [pop_charge h s' o']
  congr 1
  by_cases h1 : s' = s ∧ o' = o
  · obtain ⟨rfl, rfl⟩ := h1
    cases d <;> simp [Charge.mon, Charge.gen, countFermions]
  · have : el s o ≠ el s' o' := fun e => h1 (by obtain ⟨rfl, rfl⟩ := hd.inj2 e; exact ⟨rfl, rfl⟩)
    rw [if_neg h1]
    cases d <;> simp [Charge.mon, Charge.gen, countFermions, this]

/-- A creation or annihilation operator changes the quantum numbers in a definite way. -/
theorem ladder_same (hd : Ordered el) (A : Space hs el n) {d s : Bool} {o : Nat} {k t k' t' : Nat} (hk : ValidState hs k) (ht : ValidState hs t)
    (hk' : ValidState hs k') (ht' : ValidState hs t') (h1 : matEl hs [.fermion d (el s o)] t k ≠ 0)
    (h2 : matEl hs [.fermion d (el s o)] t' k' ≠ 0) (h : SameNumbers hs el n k k') : SameNumbers hs el n t t' := by
  constructor
  · intro s'
    have e1 := matEl_charge hs _ t k (orbitals el n s') (orbitals_nodup hd s') h1
    have e2 := matEl_charge hs _ t' k' (orbitals el n s') (orbitals_nodup hd s') h2
    rw [← h.1 s', ← e1] at e2
    exact_mod_cast e2.symm
  · intro o' ho'
    have p1 := ladder_pop hd h1 true o'
    have p2 := ladder_pop hd h1 false o'
    have q1 := ladder_pop hd h2 true o'
    have q2 := ladder_pop hd h2 false o'
    have hh := h.2 o' ho'
    have a1 := pop_le A hk true o'
    have a2 := pop_le A hk false o'
    have a3 := pop_le A ht true o'
    have a4 := pop_le A ht false o'
    have b1 := pop_le A hk' true o'
    have b2 := pop_le A hk' false o'
    have b3 := pop_le A ht' true o'
    have b4 := pop_le A ht' false o'
    cases s <;> simp only [true_and, Bool.true_eq_false, Bool.false_eq_true, false_and, if_false, add_zero] at p1 p2 q1 q2 <;> split_ifs at p1 p2 q1 q2 <;> omega

theorem ladder_op (A : Space hs el n) (d s : Bool) {o : Nat} (ho : o < n) :
    ∃ op, OperatorOn (InSpace (fun _ _ => False) hs) hs (ladder d (el s o) : Expr (Gen ι) S) op := by
  have hre : Reachable (InSpace (fun _ _ => False) hs) (ladder d (el s o) : Expr (Gen ι) S) := by
    cases d
    · exact .ofMonomial _ _ (by simpa [AllowedOn, Allowed, Gen.mode] using A.has s ho)
    · exact .ofMonomial _ _ (by simpa [AllowedOn, Allowed, Gen.mode] using A.has s ho)
  obtain ⟨op, hop⟩ := make_ok A.hc A.hpre (reach_actsOn hFB hre)
  exact ⟨op, hre, hop⟩

/-! ### The program -/

/-- States belong to the same subspace exactly if they have the same quantum numbers. -/
def Sorted (hs : HilbertSpace ι) (el : Bool → Nat → ι) (n : Nat) (sp : SpacePartition) : Prop :=
  ∀ k t, ValidState hs k → ValidState hs t → ((∃ i, sp.Sub k i ∧ sp.Sub t i) ↔ SameNumbers hs el n k t)

open scoped Classical in
/-- The quantum numbers. -/
noncomputable def label (hs : HilbertSpace ι) (el : Bool → Nat → ι) (n k : Nat) : (Bool → Nat) × (Fin n → Bool) :=
  (fun s => nFermions hs k (orbitals el n s), fun o => decide (pop hs el k true o + pop hs el k false o = 1))

theorem label_iff {k t : Nat} : label hs el n k = label hs el n t ↔ SameNumbers hs el n k t := by
  simp only [label, Prod.mk.injEq, funext_iff, SameNumbers, decide_eq_decide, Fin.forall_iff]

theorem mergeAll_spec (hd : Ordered el) (A : Space hs el n) (hsmall : hs.foreachAlg = none) (l : List (Bool × Nat)) (hl : ∀ q ∈ l, q.2 < n)
    (sp : SpacePartition) (hp : PartitionOf H S (InSpace (fun _ _ => False) hs) hs sp) (hso : Sorted hs el n sp) :
    ∃ sp' ms, mergeAll H hs (l.map fun q => el q.1 q.2) sp = some (sp', ms) ∧ Sorted hs el n sp' ∧
      Relation.ReflTransGen (Later H S (InSpace (fun _ _ => False) hs) hs) sp sp' ∧
      List.Forall₂ (fun (q : Bool × Nat) (m : MatElems S × MatElems S) => HoldsElements hs (cDag (el q.1 q.2) : Expr (Gen ι) S) [] m.1 ∧
        HoldsElements hs (c (el q.1 q.2) : Expr (Gen ι) S) [] m.2) l ms := by
  have hsm : hs.foreachAlg.isSome → hs.dim < 2 ^ 31 := by rw [hsmall]; simp
  induction l generalizing sp with
  | nil => exact ⟨sp, [], rfl, hso, .refl, .nil⟩
  | cons q l ih =>
    obtain ⟨op1, h1⟩ := ladder_op (S := S) A true q.1 (hl q (by simp))
    obtain ⟨op2, h2⟩ := ladder_op (S := S) A false q.1 (hl q (by simp))
    obtain ⟨sp1, me1, me2, a1, a2, -, a4, -, a6, -⟩ := C57_merge_partial (H := H) hFB A.hc A.hpre hsm sp hp _ _ op1 op2 h1 h2 true
    have hp1 : PartitionOf H S (InSpace (fun _ _ => False) hs) hs sp1 := .merge _ _ hp h1 h2 a1
    have hval := C56_values (H := H) (S := S) hFB A.hc A.hpre hsm sp hp
    have hval1 := C56_values (H := H) (S := S) hFB A.hc A.hpre hsm sp1 hp1
    have hso1 : Sorted hs el n sp1 := by
      intro k t hk ht
      constructor
      · rintro ⟨i, b1, b2⟩
        rw [← label_iff]
        refine a4 _ (label hs el n) (fun k k' i c1 c2 => label_iff.2 ?_) (fun e he k k' t t' c1 c2 c3 => label_iff.2 ?_) k t i b1 b2
        · exact (hso k k' (hval.2.2.1 _ _ c1) (hval.2.2.1 _ _ c2)).1 ⟨i, c1, c2⟩
        · simp only [List.mem_cons, List.not_mem_nil, or_false] at he
          rcases he with rfl | rfl
          · exact ladder_same hd A c2.1 c2.2.1 c3.1 c3.2.1 (ladder_leads c2) (ladder_leads c3) (label_iff.1 c1)
          · exact ladder_same hd A c2.1 c2.2.1 c3.1 c3.2.1 (ladder_leads c2) (ladder_leads c3) (label_iff.1 c1)
      · intro h
        obtain ⟨i, b1, b2⟩ := (hso k t hk ht).2 h
        exact a2 k t i b1 b2
    obtain ⟨sp2, ms, b1, b2, b3, b4⟩ := ih (fun q hq => hl q (by simp [hq])) sp1 hp1 hso1
    refine ⟨sp2, (me1, me2) :: ms, ?_, b2, .head (.merge _ _ op1 op2 true me1 me2 h1 h2 a1) b3, .cons (a6 rfl) b4⟩
    have e1 : LOperator.make (cDag (el q.1 q.2) : Expr (Gen ι) S) hs = .ok op1 := h1.2
    have e2 : LOperator.make (c (el q.1 q.2) : Expr (Gen ι) S) hs = .ok op2 := h2.2
    simp only [List.map_cons, mergeAll, e1, e2, a1, b1, Option.map_some]

/-- The order in which the program takes the orbitals: spin up, then spin down. -/
def programOrder (n : Nat) : List (Bool × Nat) := (List.range n).map (fun o => (true, o)) ++ (List.range n).map fun o => (false, o)

/-- **C116** examples/partition.cpp for an atom with any number of orbitals that fits into 63 bits, any `mu ≠ 0`, `U` and `J ≠ 0`: no call fails, and
both the invariant subspaces of the Hamiltonian and the subspaces after all merges are exactly the sets of basis states with equal numbers of electrons with
spin up, equal numbers of electrons with spin down and the same singly occupied orbitals. `H_elements` and the maps returned by
`merge_subspaces` hold the non-zero matrix elements. -/
theorem C116_program (hd : Ordered el) (h63 : 2 * n ≤ 63) {mu U J : S} (hmu : mu ≠ 0) (hJ : J ≠ 0) :
    ∃ r : Result ι S, run H el n mu U J = some r ∧ r.hs.dim = 2 ^ (2 * n) ∧ Sorted r.hs el n r.sp1 ∧ Sorted r.hs el n r.sp2 ∧
      HoldsElements r.hs (ham el n mu U J) [] r.elements ∧
      List.Forall₂ (fun (q : Bool × Nat) (m : MatElems S × MatElems S) => HoldsElements r.hs (cDag (el q.1 q.2) : Expr (Gen ι) S) [] m.1 ∧
        HoldsElements r.hs (c (el q.1 q.2) : Expr (Gen ι) S) [] m.2) (programOrder n) r.merged ∧
      Space r.hs el n ∧ r.hs.foreachAlg = none ∧ OperatorOn (InSpace (fun _ _ => False) r.hs) r.hs (ham el n mu U J) r.op ∧
      SpacePartition.make H r.op r.hs.foreach r.hs.vecSize = .ok r.sp1 ∧
      Relation.ReflTransGen (Later H S (InSpace (fun _ _ => False) r.hs) r.hs) r.sp1 r.sp2 := by
  obtain ⟨hs, hok, hdim, hT, hfa, A, hre⟩ := (C116_space hd n (U := U) (J := J) hmu).2 h63
  have hsm : hs.foreachAlg.isSome → hs.dim < 2 ^ 31 := by rw [hfa]; simp
  obtain ⟨op, hop, sp, hsp, hjoin⟩ := C55_partition (H := H) hFB A.hc A.hpre hsm _ hre
  have ho : OperatorOn (InSpace (fun _ _ => False) hs) hs (ham el n mu U J) op := ⟨hre, hop⟩
  obtain ⟨sp', me, m1, m2, m3⟩ := C55_matrix_elements (H := H) hFB A.hc A.hpre hsm _ op ho [] (by simp)
  rw [hsp] at m1
  cases m1
  have hp : PartitionOf H S (InSpace (fun _ _ => False) hs) hs sp := .make _ ho hsp
  have hval := C56_values (H := H) (S := S) hFB A.hc A.hpre hsm sp hp
  have hlab : ∀ k t, Leads hs (ham el n mu U J) k t → SameNumbers hs el n k t := by
    intro k t h
    have : ∃ p ∈ (ham el n mu U J).terms, matEl hs p.1 t k ≠ 0 := by
      by_contra hn
      push Not at hn
      apply h.2.2
      rw [opEl]
      refine List.sum_eq_zero fun x hx => ?_
      obtain ⟨p, hp, rfl⟩ := List.mem_map.1 hx
      rw [hn p hp, map_zero, mul_zero]
    obtain ⟨p, hp, hmat⟩ := this
    rcases term_cases (hs := hs) hd hp with h' | ⟨b, o1, o2, a1, a2, a3, rfl⟩
    · rw [state_ext A h.1 h.2.1 fun s o _ => (h' k t hmat s o).symm]
      exact .refl _
    · exact exch_same hd A a1 a2 a3 h.1 h.2.1 hmat
  have hso : Sorted hs el n sp := by
    intro k t hk ht
    obtain ⟨i, i', b1, b2, b3⟩ := hjoin sp .refl k t hk ht
    constructor
    · rintro ⟨j, c1, c2⟩
      rw [← label_iff]
      exact C55_finest (H := H) hFB A.hc A.hpre hsm _ op ho sp hsp (label hs el n) (fun k t h => label_iff.2 (hlab k t h)) k t j c1 c2
    · intro h
      have := b3.2 (connected hd A hJ hFB hsm hre hk ht h)
      subst this
      exact ⟨i, b1, b2⟩
  obtain ⟨sp2, ms, c1, c2, c3, c4⟩ := mergeAll_spec (H := H) (S := S) hd A hfa (programOrder n) (by
    intro q hq
    simp only [programOrder, List.mem_append, List.mem_map, List.mem_range] at hq
    rcases hq with ⟨o, h, rfl⟩ | ⟨o, h, rfl⟩ <;> exact h) sp hp hso
  refine ⟨⟨hs, op, sp, me, sp2, ms⟩, ?_, hdim, hso, c2, m3, c4, A, hfa, ho, hsp, c3⟩
  have : (programOrder n).map (fun q => el q.1 q.2) = (List.range n).map (el true) ++ (List.range n).map (el false) := by
    simp [programOrder, List.map_append, Function.comp_def]
  rw [this] at c1
  simp only [run, hok, hop, hsp, m2, c1, Option.map_some]

/-- **C116** What the program merges subspaces for: afterwards every creation and annihilation operator connects a subspace to at most one
subspace. (For other Hamiltonians `merge_subspaces` can fail to achieve this, finding F6.) -/
theorem C116_one_to_one (hd : Ordered el) (h63 : 2 * n ≤ 63) {mu U J : S} (hmu : mu ≠ 0) (hJ : J ≠ 0) (r : Result ι S)
    (hr : run H el n mu U J = some r) (s : Bool) (o : Nat) (e : Expr (Gen ι) S) (he : e = cDag (el s o) ∨ e = c (el s o)) (k k' t t' i j j' : Nat)
    (hk : r.sp2.Sub k i) (hk' : r.sp2.Sub k' i) (h : Leads r.hs e k t) (h' : Leads r.hs e k' t') (ht : r.sp2.Sub t j) (ht' : r.sp2.Sub t' j') : j = j' := by
  obtain ⟨r', a1, -, -, a4, -, -, A, hfa, ho, hsp, hl⟩ := C116_program (H := H) hd h63 (U := U) hmu hJ
  rw [hr] at a1
  cases a1
  have hsm : r.hs.foreachAlg.isSome → r.hs.dim < 2 ^ 31 := by rw [hfa]; simp
  have hp := later_partition hFB A.hc A.hpre hsm (.make _ ho hsp) hl
  have hval := C56_values (H := H) (S := S) hFB A.hc A.hpre hsm r.sp2 hp
  have hs1 := (a4 k k' h.1 h'.1).1 ⟨i, hk, hk'⟩
  have key : ∃ d, e = ladder d (el s o) := by
    rcases he with rfl | rfl
    · exact ⟨true, rfl⟩
    · exact ⟨false, rfl⟩
  obtain ⟨d, rfl⟩ := key
  have hs2 := ladder_same hd A h.1 h.2.1 h'.1 h'.2.1 (ladder_leads h) (ladder_leads h') hs1
  obtain ⟨x, x1, x2⟩ := (a4 t t' h.2.1 h'.2.1).2 hs2
  exact ((hval.1 t h.2.1).unique ht x1).trans ((hval.1 t' h'.2.1).unique ht' x2).symm

/-- **C116** The last part of the program, for every subspace and every vector in it: `Hop(psi_view, phi_view)` does not throw, and `phi` becomes
the diagonal block of the Hamiltonian times `psi`; a wrong number of a subspace is detected. -/
theorem C116_act (hd : Ordered el) (h63 : 2 * n ≤ 63) {mu U J : S} (hmu : mu ≠ 0) (hJ : J ≠ 0) (r : Result ι S) (hr : run H el n mu U J = some r)
    (i : Nat) : (i < r.sp2.nSubspaces → ∃ l : List Nat, l.Pairwise (· < ·) ∧ (∀ k, k ∈ l ↔ r.sp2.Sub k i) ∧ ∀ psi : List S, psi.length = l.length →
        ∃ phi, act H₁ H₂ r i psi = some phi ∧ phi.length = l.length ∧
          ∀ a t, l[a]? = some t → phi.getD a 0 = rowTimesVector r.hs (ham el n mu U J) t l psi) ∧
      (r.sp2.nSubspaces ≤ i → ∀ psi, act H₁ H₂ r i psi = none) := by
  obtain ⟨r', a1, -, -, a4, -, -, A, hfa, ho, hsp, hl⟩ := C116_program (H := H) hd h63 (U := U) hmu hJ
  rw [hr] at a1
  cases a1
  have hsm : r.hs.foreachAlg.isSome → r.hs.dim < 2 ^ 31 := by rw [hfa]; simp
  have hp := later_partition hFB A.hc A.hpre hsm (.make _ ho hsp) hl
  obtain ⟨-, -, -, lf, sp3, hf, -⟩ := C56_bases (H := H) (S := S) hFB A.hc A.hpre hsm r.sp2 hp
  have hq : Query H S (InSpace (fun _ _ => False) r.hs) r.hs r.sp2 sp3 := .foreach lf hf
  have hp3 := hp.query hq
  obtain ⟨n3, s3⟩ := C56_queries hFB A.hc A.hpre hsm r.sp2 sp3 hp hq
  obtain ⟨b1, b2, -⟩ := C56_bases (H := H) (S := S) hFB A.hc A.hpre hsm sp3 hp3
  constructor
  · intro hi
    rw [← n3] at hi
    obtain ⟨l, s, c1, c2⟩ := C107_act_in_subspace_partial (H := H) (H₁ := H₁) (H₂ := H₂) (T := S) hFB A.hc A.hpre hsm _ r.op ho (oneTerm hd A mu U J) r.sp1 sp3 hsp
      (hl.tail (.query hq)) i hi
    obtain ⟨l', s', d1, d2, d3⟩ := b1 i hi
    rw [c1] at d1
    cases d1
    refine ⟨l, d2, fun k => (d3 k).trans (s3 k i), fun psi hpsi => ?_⟩
    obtain ⟨v, e1, e2, e3⟩ := c2 ⟨psi⟩ ⟨List.replicate l.length 0⟩ hpsi (by simp)
    refine ⟨v.sv.data, ?_, e2, e3⟩
    simp only [act, hf, c1, e1]
  · intro hi psi
    rw [← n3] at hi
    simp only [act, hf, b2 i hi]

/-! ### The number of subspaces -/

theorem exists_pop (hd : Ordered el) (A : Space hs el n) (P : Bool → Nat → Prop) [∀ s, DecidablePred (P s)] :
    ∃ t, ValidState hs t ∧ ∀ s, ∀ o < n, pop hs el t s o = if P s o then 1 else 0 := by
  classical
  let x : Config ι := fun m => if ∃ s, ∃ o < n, m = .fermion (el s o) ∧ P s o then 1 else 0
  have hx : ∀ s, ∀ o < n, x (.fermion (el s o)) = if P s o then 1 else 0 := by
    intro s o ho
    simp only [x]
    congr 1
    refine propext ⟨?_, fun h => ⟨s, o, ho, rfl, h⟩⟩
    rintro ⟨s', o', -, h2, h3⟩
    obtain ⟨rfl, rfl⟩ := hd.inj2 (Mode.fermion.inj h2)
    exact h3
  have hA : ∀ m d, hs.dimOf m.space = .ok d → x m < d := by
    intro m d hm
    simp only [x]
    have hh := MatF.has_of_dim hm
    split_ifs with h
    · obtain ⟨s, o, ho, rfl, -⟩ := h
      rw [MatF.dim_fermion A.hc A.hpre hm hh]
      omega
    · obtain ⟨f, nb, d', hl⟩ := loc_of_has A.hc hh
      have h1 := valid_occ hl (MatF.valid_zero A.hc)
      have h2 := hl.dimOf
      rw [hm] at h2
      cases h2
      omega
  have hB : ∀ m, hs.has m.space = false → x m = 0 := by
    intro m hm
    simp only [x]
    rw [if_neg]
    rintro ⟨s, o, ho, rfl, -⟩
    exact absurd ((A.has s ho).symm.trans hm) (by decide)
  obtain ⟨t, h1, h2, -⟩ := MatF.exists_state A.hc x hA hB
  exact ⟨t, h1, fun s o ho => by rw [← hx s o ho, ← h2]; rfl⟩

/-- The singly occupied orbitals. -/
def singly (hs : HilbertSpace ι) (el : Bool → Nat → ι) (n k : Nat) : Finset Nat :=
  (Finset.range n).filter fun o => pop hs el k true o + pop hs el k false o = 1

/-- How many singly occupied orbitals hold an electron with spin up. -/
def ups (hs : HilbertSpace ι) (el : Bool → Nat → ι) (n k : Nat) : Nat := ((singly hs el n k).filter fun o => pop hs el k true o = 1).card

/-- The number of doubly occupied orbitals. -/
def doubles (hs : HilbertSpace ι) (el : Bool → Nat → ι) (n k : Nat) : Nat :=
  ((Finset.range n).filter fun o => pop hs el k true o + pop hs el k false o = 2).card

theorem count_up (A : Space hs el n) {k : Nat} (hk : ValidState hs k) : nFermions hs k (orbitals el n true) = ups hs el n k + doubles hs el n k := by
  rw [nFermions_eq, ups, doubles, singly, Finset.filter_filter, Finset.card_filter, Finset.card_filter, ← Finset.sum_add_distrib]
  refine Finset.sum_congr rfl fun o _ => ?_
  have := pop_le A hk true o
  have := pop_le A hk false o
  split_ifs <;> omega

theorem count_down (A : Space hs el n) {k : Nat} (hk : ValidState hs k) :
    nFermions hs k (orbitals el n false) + ups hs el n k = (singly hs el n k).card + doubles hs el n k := by
  rw [nFermions_eq, ups, doubles, singly, Finset.filter_filter, Finset.card_filter, Finset.card_filter, Finset.card_filter, ← Finset.sum_add_distrib,
    ← Finset.sum_add_distrib]
  refine Finset.sum_congr rfl fun o _ => ?_
  have := pop_le A hk true o
  have := pop_le A hk false o
  split_ifs <;> omega

theorem same_iff (A : Space hs el n) {k t : Nat} (hk : ValidState hs k) (ht : ValidState hs t) :
    SameNumbers hs el n k t ↔ singly hs el n k = singly hs el n t ∧ ups hs el n k = ups hs el n t ∧ doubles hs el n k = doubles hs el n t := by
  have a1 := count_up A hk
  have a2 := count_down A hk
  have b1 := count_up A ht
  have b2 := count_down A ht
  have hS : (∀ o < n, (pop hs el k true o + pop hs el k false o = 1 ↔ pop hs el t true o + pop hs el t false o = 1)) ↔ singly hs el n k = singly hs el n t := by
    simp only [singly, Finset.ext_iff, Finset.mem_filter, Finset.mem_range, and_congr_right_iff]
  constructor
  · rintro ⟨h1, h2⟩
    have h3 := hS.1 h2
    have := h1 true
    have := h1 false
    rw [h3] at a2
    exact ⟨h3, by omega, by omega⟩
  · rintro ⟨h1, h2, h3⟩
    refine ⟨fun s => ?_, hS.2 h1⟩
    rw [h1] at a2
    cases s <;> omega

/-- **C116** The number of subspaces, both before and after the merges, is the sum over `p` of `(n choose p) (p + 1) (n - p + 1)`: `p` orbitals are singly
occupied, `0, …, p` of them hold an electron with spin up, `0, …, n - p` orbitals are doubly occupied. -/
theorem C116_number (hd : Ordered el) (h63 : 2 * n ≤ 63) {mu U J : S} (hmu : mu ≠ 0) (hJ : J ≠ 0) (r : Result ι S)
    (hr : run H el n mu U J = some r) : r.sp1.nSubspaces = ∑ p ∈ Finset.range (n + 1), Nat.choose n p * ((p + 1) * (n - p + 1)) ∧
      r.sp2.nSubspaces = r.sp1.nSubspaces := by
  obtain ⟨r', a1, -, a3, a4, -, -, A, hfa, ho, hsp, hl⟩ := C116_program (H := H) hd h63 (U := U) hmu hJ
  rw [hr] at a1
  cases a1
  have hsm : r.hs.foreachAlg.isSome → r.hs.dim < 2 ^ 31 := by rw [hfa]; simp
  have hp1 : PartitionOf H S (InSpace (fun _ _ => False) r.hs) r.hs r.sp1 := .make _ ho hsp
  have hp2 := later_partition hFB A.hc A.hpre hsm hp1 hl
  suffices key : ∀ sp, PartitionOf H S (InSpace (fun _ _ => False) r.hs) r.hs sp → Sorted r.hs el n sp →
      sp.nSubspaces = ∑ p ∈ Finset.range (n + 1), Nat.choose n p * ((p + 1) * (n - p + 1)) by
    exact ⟨key _ hp1 a3, (key _ hp2 a4).trans (key _ hp1 a3).symm⟩
  intro sp hp hso
  obtain ⟨v1, v2, v3, -⟩ := C56_values (H := H) (S := S) hFB A.hc A.hpre hsm sp hp
  let T := (Finset.range n).powerset.sigma fun X : Finset Nat => Finset.range (X.card + 1) ×ˢ Finset.range (n - X.card + 1)
  have hT : T.card = ∑ p ∈ Finset.range (n + 1), Nat.choose n p * ((p + 1) * (n - p + 1)) := by
    simp only [T, Finset.card_sigma, Finset.card_product, Finset.card_range]
    rw [Finset.sum_powerset_apply_card (f := fun c => (c + 1) * (n - c + 1)), Finset.card_range]
    simp only [smul_eq_mul]
  rw [← hT, ← Finset.card_range sp.nSubspaces]
  have hch : ∀ i ∈ Finset.range sp.nSubspaces, ∃ k, sp.Sub k i := fun i hi => (v2 i).1 (Finset.mem_range.1 hi)
  choose f hf using hch
  refine Finset.card_bij (fun i hi => ⟨singly r.hs el n (f i hi), ups r.hs el n (f i hi), doubles r.hs el n (f i hi)⟩) ?_ ?_ ?_
  · intro i hi
    simp only [T, Finset.mem_sigma, Finset.mem_powerset, Finset.mem_product, Finset.mem_range]
    refine ⟨Finset.filter_subset _ _, ?_, ?_⟩
    · have := Finset.card_filter_le (singly r.hs el n (f i hi)) fun o => pop r.hs el (f i hi) true o = 1
      simp only [ups]
      omega
    · have h1 : (singly r.hs el n (f i hi)).card + doubles r.hs el n (f i hi) ≤ n := by
        rw [singly, doubles, Finset.card_filter, Finset.card_filter, ← Finset.sum_add_distrib]
        calc _ ≤ ∑ o ∈ Finset.range n, 1 := Finset.sum_le_sum fun o _ => by split_ifs <;> omega
          _ = n := by simp
      omega
  · intro i hi j hj h
    simp only [Sigma.mk.injEq, heq_eq_eq, Prod.mk.injEq] at h
    have h1 := (same_iff A (v3 _ _ (hf i hi)) (v3 _ _ (hf j hj))).2 h
    obtain ⟨m, m1, m2⟩ := (hso _ _ (v3 _ _ (hf i hi)) (v3 _ _ (hf j hj))).2 h1
    exact ((v1 _ (v3 _ _ (hf i hi))).unique (hf i hi) m1).trans ((v1 _ (v3 _ _ (hf j hj))).unique (hf j hj) m2).symm
  · rintro ⟨X, a, b⟩ hX
    simp only [T, Finset.mem_sigma, Finset.mem_powerset, Finset.mem_product, Finset.mem_range] at hX
    obtain ⟨hX1, hX2, hX3⟩ := hX
    obtain ⟨Y, hY, hYc⟩ := Finset.exists_subset_card_eq (s := X) (n := a) (by omega)
    have hcard : (Finset.range n \ X).card = n - X.card := by rw [Finset.card_sdiff_of_subset hX1, Finset.card_range]
    obtain ⟨Z, hZ, hZc⟩ := Finset.exists_subset_card_eq (s := Finset.range n \ X) (n := b) (by omega)
    obtain ⟨t, ht, hpop⟩ := exists_pop hd A (fun s o => if s = true then o ∈ Y ∨ o ∈ Z else (o ∈ X ∧ o ∉ Y) ∨ o ∈ Z)
    have e1 : ∀ o < n, pop r.hs el t true o = if o ∈ Y ∨ o ∈ Z then 1 else 0 := fun o ho => by simpa using hpop true o ho
    have e2 : ∀ o < n, pop r.hs el t false o = if (o ∈ X ∧ o ∉ Y) ∨ o ∈ Z then 1 else 0 := fun o ho => by simpa using hpop false o ho
    have hZX : ∀ o ∈ Z, o < n ∧ o ∉ X := fun o ho => by simpa using hZ ho
    have hYX : ∀ o ∈ Y, o ∈ X := fun o ho => hY ho
    have hXn : ∀ o ∈ X, o < n := fun o ho => Finset.mem_range.1 (hX1 ho)
    have hsum : ∀ o < n, (pop r.hs el t true o + pop r.hs el t false o = 1 ↔ o ∈ X) ∧ (pop r.hs el t true o + pop r.hs el t false o = 2 ↔ o ∈ Z) := by
      intro o ho
      rw [e1 o ho, e2 o ho]
      have := hZX o
      have := hYX o
      by_cases c1 : o ∈ X <;> by_cases c2 : o ∈ Y <;> by_cases c3 : o ∈ Z <;> simp_all
    have s1 : singly r.hs el n t = X := by
      ext o
      simp only [singly, Finset.mem_filter, Finset.mem_range]
      exact ⟨fun h => ((hsum o h.1).1).1 h.2, fun h => ⟨hXn o h, (hsum o (hXn o h)).1.2 h⟩⟩
    have s2 : ups r.hs el n t = a := by
      rw [ups, s1, ← hYc]
      congr 1
      ext o
      simp only [Finset.mem_filter]
      constructor
      · rintro ⟨h1, h2⟩
        rw [e1 o (hXn o h1)] at h2
        by_contra hY'
        rw [if_neg (by rintro (h | h); exact hY' h; exact (hZX o h).2 h1)] at h2
        omega
      · intro h
        exact ⟨hYX o h, by rw [e1 o (hXn o (hYX o h)), if_pos (.inl h)]⟩
    have s3 : doubles r.hs el n t = b := by
      rw [doubles, ← hZc]
      congr 1
      ext o
      simp only [Finset.mem_filter, Finset.mem_range]
      exact ⟨fun h => ((hsum o h.1).2).1 h.2, fun h => ⟨(hZX o h).1, (hsum o (hZX o h).1).2.2 h⟩⟩
    obtain ⟨i, hi, -⟩ := v1 t ht
    have hi' : i ∈ Finset.range sp.nSubspaces := Finset.mem_range.2 ((v2 i).2 ⟨t, hi⟩)
    refine ⟨i, hi', ?_⟩
    obtain ⟨g1, g2, g3⟩ := (same_iff A (v3 _ _ (hf i hi')) ht).1 ((hso _ _ (v3 _ _ (hf i hi')) ht).1 ⟨i, hf i hi', hi⟩)
    rw [g1, g2, g3, s1, s2, s3]

/-- The index sequences of the program: "dn" orbitals come before "up" orbitals. -/
def exAtom (s : Bool) (o : Nat) : Bool ×ₗ Nat := toLex (s, o)

attribute [local instance] frontHash in
open scoped Classical in
/-- Non-vacuity: the program as published, with three orbitals: 64 states, 44 subspaces before and after the merges, and the last part of
    main(), which acts in subspace 24, succeeds for every vector of the right size. -/
theorem c116_hypotheses : Ordered exAtom ∧ ∃ r : Result (Bool ×ₗ Nat) ℂ, run Unit exAtom 3 (1 : ℂ) 1 1 = some r ∧ r.hs.dim = 64 ∧
    r.sp1.nSubspaces = 44 ∧ r.sp2.nSubspaces = 44 ∧ ∃ psi phi : List ℂ, psi.length = phi.length ∧ act Unit Unit r 24 psi = some phi := by
  have hd : Ordered exAtom := by
    refine ⟨fun s o o' h => ?_, fun o o' => ?_⟩
    · exact (Prod.mk.inj (toLex.injective h)).2
    · exact Prod.Lex.toLex_lt_toLex.2 (.inl (show (false : Bool) < true by decide))
  obtain ⟨r, a1, a2, -⟩ := C116_program (H := Unit) hd (n := 3) (by decide) (one_ne_zero : (1 : ℂ) ≠ 0) (U := 1) (one_ne_zero : (1 : ℂ) ≠ 0)
  obtain ⟨b1, b2⟩ := C116_number (H := Unit) hd (n := 3) (by decide) (one_ne_zero : (1 : ℂ) ≠ 0) (U := 1) (one_ne_zero : (1 : ℂ) ≠ 0) r a1
  have b3 : r.sp1.nSubspaces = 44 := b1.trans (by decide)
  obtain ⟨l, -, -, c3⟩ := (C116_act (H := Unit) (H₁ := Unit) (H₂ := Unit) hd (n := 3) (by decide) (one_ne_zero : (1 : ℂ) ≠ 0) (U := 1)
    (one_ne_zero : (1 : ℂ) ≠ 0) r a1 24).1 (by omega)
  obtain ⟨phi, d1, d2, -⟩ := c3 (List.replicate l.length 0) (by simp)
  exact ⟨hd, r, a1, by rw [a2]; rfl, b3, by omega, _, phi, by rw [d2]; simp, d1⟩

end Atom
end LC
