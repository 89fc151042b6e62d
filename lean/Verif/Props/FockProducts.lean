import Verif.Proof.FockOp
import Verif.Props.LOperator
import Mathlib.LinearAlgebra.Complex.Module
/-
C39, C41: products and adjoints of linear operators.
-/
set_option linter.unusedSectionVars false
namespace LC
open HilbertSpace Expr
variable {ι S T : Type _} [LinearOrder ι] {hs : HilbertSpace ι} [CommRing S] [DecidableEq S] [ConstScalar S] [ScalarLaws S]
  [IsDomain S] [CharZero S] [Algebra ℝ S] [AddCommGroup T] [Module S T] [DecidableEq T] {M : Nat → ι → Prop}

/-- **C39** `L(a*b) v = L(a) (L(b) v)`, provided that, for the basis states in `v`, the terms of `b` do not cross the cutoffs
of the bosonic modes. -/
theorem C39_products [Star S] (hM : HalfAlone M) (hc : Constructed hs) (hpre : PredefinedSpaces hs)
    (a b : Expr (Gen ι) S) (ha : Reachable (InSpace M hs) a) (hb : Reachable (InSpace M hs) b) :
    ∃ opA opB opAB, LOperator.make a hs = .ok opA ∧ LOperator.make b hs = .ok opB ∧ LOperator.make (a * b) hs = .ok opAB ∧
      ∀ v : DenseSV T, v.data.length = hs.vecSize → (∀ k, v.data.getD k 0 ≠ 0 → ValidState hs k ∧ StaysWithin hs b k) →
        ∃ vb vab, opB.apply v = .ok vb ∧ opA.apply vb = .ok vab ∧ opAB.apply v = .ok vab := by
  obtain ⟨opA, o1, A⟩ := C38_dense (T := T) hM hc hpre a ha
  obtain ⟨opB, o2, B⟩ := C38_dense (T := T) hM hc hpre b hb
  obtain ⟨opAB, o3, AB⟩ := C38_dense (T := T) hM hc hpre (a * b) (ha.mul hb)
  refine ⟨opA, opB, opAB, o1, o2, o3, fun v hv hk => ?_⟩
  obtain ⟨vb, b1, b2, b3⟩ := B v hv fun k h => (hk k h).1
  have hvb : ∀ k, vb.data.getD k 0 ≠ 0 → ValidState hs k := by
    intro k h
    rw [b3] at h
    unfold opApply at h
    by_contra hn
    rw [if_neg hn] at h
    exact h rfl
  obtain ⟨vab, a1, a2, a3⟩ := A vb b2 hvb
  obtain ⟨w, w1, w2, w3⟩ := AB v hv fun k h => (hk k h).1
  refine ⟨vb, vab, b1, a1, ?_⟩
  rw [w1]
  have : w = vab := by
    have hd : w.data = vab.data := by
      refine List.ext_getElem (w2.trans a2.symm) fun i h1 h2 => ?_
      have e1 : w.data.getD i 0 = w.data[i] := by simp [h1]
      have e2 : vab.data.getD i 0 = vab.data[i] := by simp [h2]
      rw [← e1, ← e2, w3, a3]
      unfold opApply
      by_cases hi : ValidState hs i
      · rw [if_pos hi, if_pos hi]
        have : ∀ s ∈ basisStates hs, opEl hs a i s • vb.data.getD s 0
            = ∑ k ∈ basisStates hs, (opEl hs a i s * opEl hs b s k) • v.data.getD k 0 := by
          intro s hs'
          rw [b3]
          unfold opApply
          rw [if_pos (mem_basisStates.1 hs'), Finset.smul_sum]
          exact Finset.sum_congr rfl fun k _ => (mul_smul _ _ _).symm
        rw [Finset.sum_congr rfl this, Finset.sum_comm]
        refine Finset.sum_congr rfl fun k hk' => ?_
        rw [← Finset.sum_smul]
        simp only
        by_cases h0 : v.data.getD k 0 = 0
        · rw [h0, smul_zero, smul_zero]
        · rw [opEl_mul hM hc hpre ha hb hi (hk k h0).1 (hk k h0).2]
      · rw [if_neg hi, if_neg hi]
    cases w; cases vab; simp only at hd; rw [hd]
  rw [this]

/-- **C39** Without bosonic modes in `hs` there is no further condition: `L(a*b) v = L(a) (L(b) v)` for all vectors of the
Hilbert space. -/
theorem C39_products_fermions_spins [Star S] (hM : HalfAlone M) (hc : Constructed hs) (hpre : PredefinedSpaces hs)
    (hnb : ∀ es ∈ hs.elementarySpaces, es.algebraId ≠ -2)
    (a b : Expr (Gen ι) S) (ha : Reachable (InSpace M hs) a) (hb : Reachable (InSpace M hs) b) :
    ∃ opA opB opAB, LOperator.make a hs = .ok opA ∧ LOperator.make b hs = .ok opB ∧ LOperator.make (a * b) hs = .ok opAB ∧
      ∀ v : DenseSV T, v.data.length = hs.vecSize → (∀ k, v.data.getD k 0 ≠ 0 → ValidState hs k) →
        ∃ vb vab, opB.apply v = .ok vb ∧ opA.apply vb = .ok vab ∧ opAB.apply v = .ok vab := by
  obtain ⟨opA, opB, opAB, h1, h2, h3, h⟩ := C39_products (T := T) hM hc hpre a b ha hb
  refine ⟨opA, opB, opAB, h1, h2, h3, fun v hv hk => h v hv fun k h0 => ⟨hk k h0, fun p _ n x _ i hi => ?_⟩⟩
  obtain ⟨f, nb, d, hl⟩ := loc_of_has hc hi
  obtain ⟨e, he, hkey, _, _⟩ := hl.mem
  rw [ESpace.key_eq_iff] at hkey
  exact absurd hkey.1 (hnb e (List.mem_map.2 ⟨_, he, rfl⟩))

/-- **C39** With bosons: it suffices that the occupation number of every bosonic mode plus the number of its creation
operators in any term of `b` stays below the dimension. -/
theorem C39_products_bosons [Star S] (hM : HalfAlone M) (hc : Constructed hs) (hpre : PredefinedSpaces hs)
    (a b : Expr (Gen ι) S) (ha : Reachable (InSpace M hs) a) (hb : Reachable (InSpace M hs) b) :
    ∃ opA opB opAB, LOperator.make a hs = .ok opA ∧ LOperator.make b hs = .ok opB ∧ LOperator.make (a * b) hs = .ok opAB ∧
      ∀ v : DenseSV T, v.data.length = hs.vecSize → (∀ k, v.data.getD k 0 ≠ 0 → ValidState hs k ∧
        ∀ p ∈ b.terms, ∀ i d, hs.dimOf (ESpace.boson 1 i) = .ok d → conf hs k (.boson i) + p.1.count (.boson true i) < d) →
        ∃ vb vab, opB.apply v = .ok vb ∧ opA.apply vb = .ok vab ∧ opAB.apply v = .ok vab := by
  obtain ⟨opA, opB, opAB, h1, h2, h3, h⟩ := C39_products (T := T) hM hc hpre a b ha hb
  refine ⟨opA, opB, opAB, h1, h2, h3, fun v hv hk => h v hv fun k h0 => ⟨(hk k h0).1, ?_⟩⟩
  refine staysWithin_of_count fun p hp i hi => ?_
  obtain ⟨f, nb, d, hl⟩ := loc_of_has hc hi
  have := (hk k h0).2 p hp i d hl.dimOf
  rw [loc_bosonDims hl]
  exact_mod_cast this

/-- The vector `|k⟩` of the given length. -/
def unitVec (len k : Nat) : DenseSV S := ⟨(List.replicate len 0).set k 1⟩

theorem unitVec_getD (len k j : Nat) (hk : k < len) : (unitVec (S := S) len k).data.getD j 0 = if j = k then 1 else 0 := by
  unfold unitVec
  by_cases hj : j < len
  · simp only [List.getD_eq_getElem?_getD, List.getElem?_set, List.length_replicate, hk, if_true]
    by_cases e : j = k
    · subst e; simp
    · rw [if_neg (fun h => e h.symm), if_neg e]; simp [hj]
  · have : j ≠ k := by omega
    simp only [List.getD_eq_getElem?_getD, List.getElem?_set, List.length_replicate, hk, if_true]
    rw [if_neg (fun h => this h.symm), if_neg this]
    simp [hj]

theorem opApply_unit (e : Expr (Gen ι) S) {t k : Nat} (ht : ValidState hs t) (hk : ValidState hs k) (ψ : Nat → S)
    (hψ : ∀ j, ψ j = if j = k then 1 else 0) : opApply hs e ψ t = opEl hs e t k := by
  unfold opApply
  rw [if_pos ht, Finset.sum_eq_single k]
  · rw [hψ, if_pos rfl, smul_eq_mul, mul_one]
  · intro j _ hj; rw [hψ, if_neg hj, smul_zero]
  · intro h; exact absurd (mem_basisStates.2 hk) h

/-- **C41** The operator of `conj(e)` is the adjoint of the operator of `e`: for all basis states `m`, `n` the amplitude of `m`
in `L(conj(e))|n⟩` is the complex conjugate of the amplitude of `n` in `L(e)|m⟩`. (`hreal`: real constants are
self-conjugate in `S`, which holds for `ℝ` and `ℂ`.) -/
theorem C41_adjoint [StarRing S] (hreal : ∀ x : ℝ, star (algebraMap ℝ S x) = algebraMap ℝ S x) (hM : HalfAlone M)
    (hc : Constructed hs) (hpre : PredefinedSpaces hs) (e : Expr (Gen ι) S) (he : Reachable (InSpace M hs) e) :
    ∃ op opc, LOperator.make e hs = .ok op ∧ LOperator.make e.conj hs = .ok opc ∧
      ∀ m n, ValidState hs m → ValidState hs n → ∃ v w : DenseSV S,
        op.apply (unitVec hs.vecSize m : DenseSV S) = .ok v ∧ opc.apply (unitVec hs.vecSize n : DenseSV S) = .ok w ∧
        w.data.getD m 0 = star (v.data.getD n 0) := by
  obtain ⟨op, o1, A⟩ := C38_dense (T := S) hM hc hpre e he
  obtain ⟨opc, o2, B⟩ := C38_dense (T := S) hM hc hpre e.conj he.conj
  refine ⟨op, opc, o1, o2, fun m n hm hn => ?_⟩
  have h63 := (C26_bit_ranges hs hc).2.2.1
  have hvs : hs.vecSize = 2 ^ hs.totalNBits.toNat := by unfold vecSize; rw [pow2_eq (by omega)]
  have hlen : ∀ k, (unitVec hs.vecSize k : DenseSV S).data.length = hs.vecSize := by intro k; simp [unitVec]
  have hu : ∀ k, ValidState hs k → ∀ j, (unitVec hs.vecSize k : DenseSV S).data.getD j 0 = if j = k then 1 else 0 :=
    fun k hk j => unitVec_getD _ _ _ (by rw [hvs]; exact hk.1)
  have hsup : ∀ k, ValidState hs k → ∀ j, (unitVec hs.vecSize k : DenseSV S).data.getD j 0 ≠ 0 → ValidState hs j := by
    intro k hk j h
    rw [hu k hk] at h
    split at h
    · rename_i e; rw [e]; exact hk
    · exact absurd rfl h
  obtain ⟨v, v1, _, v2⟩ := A _ (hlen m) (hsup m hm)
  obtain ⟨w, w1, _, w2⟩ := B _ (hlen n) (hsup n hn)
  refine ⟨v, w, v1, w1, ?_⟩
  rw [v2, w2, opApply_unit _ hm hn _ (hu n hn), opApply_unit _ hn hm _ (hu m hm), opEl_conj hreal hM hc hpre he hm hn]

open Factory

theorem smallSpace {l : List (ESpace Nat)} (hw : ∀ es ∈ l, es.Wf)
    (hp : ∀ es ∈ l, (es.algebraId = -3 → ∃ i, es = ESpace.fermion i) ∧ (es.algebraId = -2 → ∃ d i, es = ESpace.boson d i) ∧
      (es.algebraId = -1 → ∃ m i, m < 2 ^ 31 ∧ es = ESpace.spin m i))
    (hel : (HilbertSpace.ofArgs l).toOption.map HilbertSpace.elementarySpaces = some l) :
    ∃ hs, HilbertSpace.ofArgs l = .ok hs ∧ Constructed hs ∧ PredefinedSpaces hs ∧ hs.elementarySpaces = l := by
  cases h : HilbertSpace.ofArgs l with
  | error e => rw [h] at hel; simp [Except.toOption] at hel
  | ok hs =>
    rw [h] at hel
    simp only [Except.toOption, Option.map_some, Option.some.injEq] at hel
    refine ⟨hs, rfl, Constructed.ofArgs hw h, ?_, hel⟩
    intro es hes
    rw [hel] at hes
    exact hp es hes

open scoped Classical in
/-- The hypotheses of C39 and C41 are met: `ℂ` has self-conjugate real constants, and there are Hilbert spaces with and without
bosonic modes, expressions on them and states with room for the creation operators. -/
theorem c39_hypotheses : (∀ x : ℝ, star (algebraMap ℝ ℂ x) = algebraMap ℝ ℂ x) ∧
    (∃ hs : HilbertSpace Nat, Constructed hs ∧ PredefinedSpaces hs ∧ HalfAlone (fun n (_ : Nat) => n = 2) ∧
      hs.dimOf (ESpace.boson 1 0) = .ok 3 ∧ hs.vecSize = 8 ∧
      Reachable (S := ℂ) (InSpace (fun n _ => n = 2) hs) (aDag 0 * c 0 : Expr (Gen Nat) ℂ) ∧
      ValidState hs 3 ∧ conf hs 3 (.boson 0) + [Gen.fermion false 0, Gen.boson true 0].count (.boson true 0) < 3) ∧
    (∃ hs : HilbertSpace Nat, Constructed hs ∧ PredefinedSpaces hs ∧ (∀ es ∈ hs.elementarySpaces, es.algebraId ≠ -2) ∧
      hs.vecSize = 8 ∧ Reachable (S := ℂ) (InSpace (fun n _ => n = 3) hs) (cDag 0 * spin 3 .plus 0 : Expr (Gen Nat) ℂ)) := by
  refine ⟨fun x => Complex.conj_ofReal x, ?_, ?_⟩
  · obtain ⟨hs, hof, h1, h2, h3⟩ := smallSpace (l := [ESpace.fermion 0, ESpace.boson 3 0])
      (by simp only [List.mem_cons, List.not_mem_nil, or_false, forall_eq_or_imp, forall_eq]; exact ⟨wf_fermion _, wf_boson _ (by decide) _⟩)
      (by simp only [List.mem_cons, List.not_mem_nil, or_false, forall_eq_or_imp, forall_eq]
          exact ⟨⟨fun _ => ⟨_, rfl⟩, by simp [ESpace.fermion], by simp [ESpace.fermion]⟩,
            ⟨by simp [ESpace.boson], fun _ => ⟨_, _, rfl⟩, by simp [ESpace.boson]⟩⟩)
      (by decide +kernel)
    have facts : ((HilbertSpace.ofArgs [ESpace.fermion 0, ESpace.boson 3 0]).toOption.map fun hs : HilbertSpace Nat =>
      (decide (hs.vecSize = 8) && hs.has (ESpace.boson 1 0) && hs.has (ESpace.fermion 0) && decide (ValidState hs 3) &&
        decide (conf hs 3 (.boson 0) = 1) && decide ((hs.dimOf (ESpace.boson 1 0)).toOption = some 3))) = some true := by decide +kernel
    rw [hof] at facts
    simp only [Except.toOption, Option.map_some, Option.some.injEq, Bool.and_eq_true, decide_eq_true_eq] at facts
    obtain ⟨⟨⟨⟨⟨f1, f2⟩, f3⟩, f4⟩, f5⟩, f6⟩ := facts
    refine ⟨hs, h1, h2, fun i n _ h => h, ?_, f1, ?_, f4, ?_⟩
    · cases hd : hs.dimOf (ESpace.boson 1 0) with
      | error e => rw [hd] at f6; simp at f6
      | ok d => rw [hd] at f6; simp at f6; rw [f6]
    · refine .mul (.ofMonomial _ _ ?_) (.ofMonomial _ _ ?_)
      · simp only [List.mem_singleton, forall_eq]; exact ⟨trivial, f2⟩
      · simp only [List.mem_singleton, forall_eq]; exact ⟨trivial, f3⟩
    · rw [f5]; decide
  · obtain ⟨hs, hof, h1, h2, h3⟩ := smallSpace (l := [ESpace.fermion 0, ESpace.spin 3 0])
      (by simp only [List.mem_cons, List.not_mem_nil, or_false, forall_eq_or_imp, forall_eq]; exact ⟨wf_fermion _, wf_spin _ (by decide) _⟩)
      (by simp only [List.mem_cons, List.not_mem_nil, or_false, forall_eq_or_imp, forall_eq]
          exact ⟨⟨fun _ => ⟨_, rfl⟩, by simp [ESpace.fermion], by simp [ESpace.fermion]⟩,
            ⟨by simp [ESpace.spin], by simp [ESpace.spin], fun _ => ⟨_, _, by norm_num, rfl⟩⟩⟩)
      (by decide +kernel)
    have facts : ((HilbertSpace.ofArgs [ESpace.fermion 0, ESpace.spin 3 0]).toOption.map fun hs : HilbertSpace Nat =>
      (decide (hs.vecSize = 8) && hs.has (ESpace.spin 3 0) && hs.has (ESpace.fermion 0))) = some true := by decide +kernel
    rw [hof] at facts
    simp only [Except.toOption, Option.map_some, Option.some.injEq, Bool.and_eq_true, decide_eq_true_eq] at facts
    obtain ⟨⟨f1, f2⟩, f3⟩ := facts
    refine ⟨hs, h1, h2, ?_, f1, ?_⟩
    · rw [h3]
      simp only [List.mem_cons, List.not_mem_nil, or_false, forall_eq_or_imp, forall_eq]
      exact ⟨by simp [ESpace.fermion], by simp [ESpace.spin]⟩
    · refine .mul (.ofMonomial _ _ ?_) (.ofMonomial _ _ ?_)
      · simp only [List.mem_singleton, forall_eq]; exact ⟨trivial, f3⟩
      · simp only [List.mem_singleton, forall_eq]; exact ⟨rfl, f2⟩

end LC
