import Verif.Proof.BasisIndex
import Verif.Props.FockProducts
import Verif.Props.HilbertSpace
import Verif.Proof.PartOps
/-
C108: `basis_state_index()`.
-/
set_option linter.unusedSectionVars false
namespace LC
open HilbertSpace
variable {ι : Type _} [LinearOrder ι] {hs : HilbertSpace ι}

/-- **C108** The sum of `basis_state_index(es, n)` over different elementary spaces of `hs`, with numbers `n` below their
dimensions, is a basis state index of `hs`, in which each of the named spaces is in the state `n` and all others are in
the state 0. Nothing overflows. -/
theorem C108_sum (hc : Constructed hs) (l : List (ESpace ι × Nat)) (h1 : NamedOnce l) (h2 : NumbersFit hs l) :
    ∃ s, sumIndex hs l = .ok s ∧ ValidState hs s ∧ s < hs.vecSize ∧ (∀ p ∈ l, occ hs s p.1 = p.2) ∧
      ∀ es, (∀ p ∈ l, p.1.eqOp es = false) → occ hs s es = 0 := by
  obtain ⟨s, a, b, c, d⟩ := sumIndex_spec hc l h1 h2
  refine ⟨s, a, b, ?_, c, d⟩
  rw [SpacePartition.vecSize_eq hc]; exact b.1

/-- One space: `|0⟩ … |0⟩|n⟩|0⟩ … |0⟩`. -/
theorem C108_single (hc : Constructed hs) (es : ESpace ι) (n d : Nat) (hd : hs.dimOf es = .ok d) (hn : n < d) :
    ∃ s, hs.basisStateIndex es n = .ok s ∧ ValidState hs s ∧ s < hs.vecSize ∧ occ hs s es = n ∧
      ∀ es', es.eqOp es' = false → occ hs s es' = 0 := by
  obtain ⟨s, a, b, c, d', e⟩ := C108_sum hc [(es, n)] (List.pairwise_singleton _ _)
    (by intro p hp; simp only [List.mem_singleton] at hp; subst hp; exact ⟨d, hd, hn⟩)
  obtain ⟨f, nb, d1, hl⟩ := loc_of_has hc (MatF.has_of_dim hd)
  have hdd := hl.dimOf
  rw [hd] at hdd
  cases hdd
  have hb := basisStateIndex_loc hl (hn.trans_le hl.le)
  refine ⟨s, ?_, b, c, d' (es, n) (by simp), fun es' h => e es' (by simpa using h)⟩
  rw [sumIndex, hb] at a
  simp only [sumIndex, bind, Except.bind, pure, Except.pure, Nat.add_zero] at a
  rw [hb, ← a, Nat.mod_eq_of_lt]
  have h1 := hl.fits
  have h2 := hl.small
  calc n * 2 ^ f < 2 ^ nb * 2 ^ f := Nat.mul_lt_mul_of_pos_right (hn.trans_le hl.le) (Nat.two_pow_pos _)
    _ = 2 ^ (nb + f) := (pow_add _ _ _).symm
    _ ≤ 2 ^ 64 := Nat.pow_le_pow_right (by norm_num) (by omega)

/-- Every basis state index is the sum of the `basis_state_index(es, n)` of its own components, in whatever order they
are added. -/
theorem C108_decomposition (hc : Constructed hs) (s : Nat) (hs' : ValidState hs s) (l : List (ESpace ι × Nat)) (h1 : NamedOnce l)
    (h2 : NamesAll hs l) (h3 : ∀ p ∈ l, hs.has p.1 = true ∧ p.2 = occ hs s p.1) : sumIndex hs l = .ok s := by
  obtain ⟨t, a, b, c, d⟩ := sumIndex_spec hc l h1 fun p hp => by
    obtain ⟨k1, k2⟩ := h3 p hp
    obtain ⟨f, nb, d, hl⟩ := loc_of_has hc k1
    refine ⟨d, hl.dimOf, ?_⟩
    rw [k2, occ_loc hl]
    exact valid_occ hl hs'
  rw [a, state_ext hc b.1 hs'.1 fun es => ?_]
  by_cases hh : hs.has es = true
  · obtain ⟨f, nb, d', hl⟩ := loc_of_has hc hh
    obtain ⟨e, he, hk, _, _⟩ := hl.mem
    obtain ⟨p, hp, hpe⟩ := h2 e (List.mem_map.2 ⟨_, he, rfl⟩)
    rw [ESpace.eqOp_iff] at hpe
    have hl' : Loc hs p.1 f nb d' := by
      obtain ⟨f', nb', d'', hl'⟩ := loc_of_has hc (h3 p hp).1
      by_cases hx : f' = f ∧ nb' = nb ∧ d'' = d'
      · obtain ⟨rfl, rfl, rfl⟩ := hx; exact hl'
      · obtain ⟨g, hg, hl2⟩ := loc_of_mem hc he (es := p.1) hpe.symm
        simp only [BitRange.mk.injEq] at hg
        have : g = f := by omega
        subst this
        rename_i q1 q2
        rw [q1, q2] at hl2
        exact hl2
    rw [occ_loc hl, occ_loc hl, ← occ_loc hl', ← occ_loc hl' s, c p hp, (h3 p hp).2]
  · rw [Bool.not_eq_true] at hh
    rw [occ_not_has hh, occ_not_has hh]

/-- The sums over all elementary spaces give exactly the basis states, each from one choice of numbers. -/
theorem C108_all_states (hc : Constructed hs) (s : Nat) :
    ValidState hs s ↔ ∃ n : ESpace ι → Nat, (∀ es ∈ hs.elementarySpaces, n es < es.dim) ∧
      sumIndex hs (hs.elementarySpaces.map fun es => (es, n es)) = .ok s ∧ ∀ es ∈ hs.elementarySpaces, n es = occ hs s es := by
  have hn : ∀ n : ESpace ι → Nat, NamedOnce (hs.elementarySpaces.map fun es => (es, n es)) := fun n => by
    obtain ⟨l, hf, rfl⟩ := hc.canon
    have hel : (canon l).elementarySpaces = l := by
      unfold elementarySpaces; rw [canon_spaces, layout_fst]
    rw [hel, NamedOnce, List.pairwise_map]
    refine List.Pairwise.imp ?_ hf.sorted
    intro a b h
    rw [← Bool.not_eq_true, ESpace.eqOp_iff]
    exact ne_of_lt h
  have hmem : ∀ es ∈ hs.elementarySpaces, hs.dimOf es = .ok es.dim := fun es he => by
    obtain ⟨p, hp, rfl⟩ := List.mem_map.1 he
    obtain ⟨f, _, hl⟩ := loc_of_mem hc hp rfl
    exact hl.dimOf
  constructor
  · intro h
    refine ⟨occ hs s, fun es he => ?_, ?_, fun _ _ => rfl⟩
    · obtain ⟨p, hp, rfl⟩ := List.mem_map.1 he
      obtain ⟨f, _, hl⟩ := loc_of_mem hc hp rfl
      rw [occ_loc hl]; exact valid_occ hl h
    · refine C108_decomposition hc s h _ (hn _) (fun es he => ⟨_, List.mem_map.2 ⟨es, he, rfl⟩, ?_⟩) fun p hp => ?_
      · rw [ESpace.eqOp_iff]
      · obtain ⟨es, he, rfl⟩ := List.mem_map.1 hp
        exact ⟨MatF.has_of_dim (hmem es he), rfl⟩
  · rintro ⟨n, h1, h2, _⟩
    obtain ⟨t, a, b, _⟩ := sumIndex_spec hc _ (hn n) fun p hp => by
      obtain ⟨es, he, rfl⟩ := List.mem_map.1 hp
      exact ⟨_, hmem es he, h1 es he⟩
    rw [h2] at a
    cases a
    exact b

/-- A space that is not part of `hs` is reported. -/
theorem C108_missing (hs : HilbertSpace ι) (es : ESpace ι) (n : Nat) (h : hs.has es = false) :
    hs.basisStateIndex es n = .error .notFound := by
  unfold basisStateIndex bitRange
  unfold HilbertSpace.has at h
  rw [Option.isSome_eq_false_iff, Option.isNone_iff_eq_none] at h
  rw [h]

/-- **F48** The assertion accepts every `n` below 2^`n_bits()`, also those from the dimension of the space on, and the index
returned for these is no basis state (it is not visited by `foreach`, and belongs to no vector the library produces). -/
theorem C108_F48_assertion (hc : Constructed hs) (es : ESpace ι) (he : es ∈ hs.elementarySpaces) (n : Nat) :
    (basisStateAssert es n = true ↔ n < 2 ^ es.nBits) ∧
    (es.dim ≤ n → n < 2 ^ es.nBits → ∃ s, hs.basisStateIndex es n = .ok s ∧ s < hs.vecSize ∧ ¬ ValidState hs s) := by
  refine ⟨by simp [basisStateAssert, Nat.shiftLeft_eq], fun h1 h2 => ?_⟩
  obtain ⟨p, hp, rfl⟩ := List.mem_map.1 he
  obtain ⟨f, _, hl⟩ := loc_of_mem hc hp rfl
  have hb := basisStateIndex_loc hl h2
  refine ⟨_, hb, ?_, fun hv => ?_⟩
  · rw [SpacePartition.vecSize_eq hc]
    calc n * 2 ^ f < 2 ^ p.1.nBits * 2 ^ f := Nat.mul_lt_mul_of_pos_right h2 (Nat.two_pow_pos _)
      _ = 2 ^ (f + p.1.nBits) := by rw [pow_add, Nat.mul_comm]
      _ ≤ _ := Nat.pow_le_pow_right (by norm_num) hl.fits
  · have := valid_occ hl hv
    unfold field at this
    rw [Nat.mul_div_cancel _ (Nat.two_pow_pos _), Nat.mod_eq_of_lt h2] at this
    omega

/-- For spaces whose dimension is a power of two the assertion is exact. -/
theorem C108_assertion_exact (es : ESpace ι) (h : es.dim = 2 ^ es.nBits) (n : Nat) : basisStateAssert es n = true ↔ n < es.dim := by
  simp [basisStateAssert, Nat.shiftLeft_eq, h]

/-- Concrete spaces meet the hypotheses: a fermion, a boson with 5 states and a spin 1. -/
theorem c108_hypotheses : ∃ hs : HilbertSpace Nat, Constructed hs ∧
    sumIndex hs [(ESpace.spin 3 0, 2), (ESpace.fermion 0, 1), (ESpace.boson 5 0, 4)] = .ok 41 ∧
    NamedOnce [(ESpace.spin 3 0, 2), (ESpace.fermion 0, 1), (ESpace.boson 5 (0 : Nat), 4)] ∧
    NumbersFit hs [(ESpace.spin 3 0, 2), (ESpace.fermion 0, 1), (ESpace.boson 5 0, 4)] ∧
    NamesAll hs [(ESpace.spin 3 0, 2), (ESpace.fermion 0, 1), (ESpace.boson 5 0, 4)] ∧
    -- F48: accepted, but no basis state
    basisStateAssert (ESpace.spin 3 (0 : Nat)) 3 = true ∧ hs.basisStateIndex (ESpace.spin 3 0) 3 = .ok 48 ∧ ¬ ValidState hs 48 ∧
    -- with assertions disabled, numbers that are too large name states of the next space
    hs.basisStateIndex (ESpace.fermion 0) 2 = hs.basisStateIndex (ESpace.boson 5 0) 1 := by
  refine ⟨_, Constructed.ofArgs (l := [ESpace.fermion 0, ESpace.boson 5 0, ESpace.spin 3 0]) ?_ rfl, by decide +kernel, ?_, ?_,
    by unfold NamesAll; decide +kernel, by decide +kernel, by decide +kernel, by decide +kernel, by decide +kernel⟩
  · simp only [List.mem_cons, List.not_mem_nil, or_false, forall_eq_or_imp, forall_eq]
    exact ⟨wf_fermion _, wf_boson _ (by decide) _, wf_spin _ (by decide) _⟩
  · unfold NamedOnce; decide +kernel
  · simp only [NumbersFit, List.mem_cons, List.not_mem_nil, or_false, forall_eq_or_imp, forall_eq]
    exact ⟨⟨3, by decide +kernel, by decide⟩, ⟨2, by decide +kernel, by decide⟩, ⟨5, by decide +kernel, by decide⟩⟩

end LC
