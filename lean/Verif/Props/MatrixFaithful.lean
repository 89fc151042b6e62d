import Verif.Proof.MatrixFaithful
import Verif.Props.FockProducts
import Verif.Props.Relations
/-
C106: linear operators determine the expressions they are made from.
-/
set_option linter.unusedSectionVars false
set_option linter.unusedSimpArgs false
namespace LC
open HilbertSpace Expr
variable {ι S : Type _} [LinearOrder ι] {hs : HilbertSpace ι} [CommRing S] [DecidableEq S] [ConstScalar S] [ScalarLaws S]
  [IsDomain S] [CharZero S] [Algebra ℝ S]

/-- **C106** For expressions with fermions, bosons and spins 1/2 of `hs`, in which no bosonic creation or annihilation operator
occurs as often as there are states of its mode: the two linear operators act alike on all basis vectors if and only if the two
expressions compare equal. -/
theorem C106_operators_determine_expressions [Star S] (hc : Constructed hs) (hpre : PredefinedSpaces hs) (a b : Expr (Gen ι) S)
    (ha : Reachable (InSpace (fun n _ => n = 2) hs) a) (hb : Reachable (InSpace (fun n _ => n = 2) hs) b)
    (hfew : ∀ p ∈ a.terms ++ b.terms, ∀ dag i d, hs.dimOf (ESpace.boson 1 i) = .ok d → p.1.count (.boson dag i) < d) :
    ∃ opA opB, LOperator.make a hs = .ok opA ∧ LOperator.make b hs = .ok opB ∧
      ((∀ k, ValidState hs k → opA.apply (unitVec hs.vecSize k : DenseSV S) = opB.apply (unitVec hs.vecSize k : DenseSV S))
        ↔ a.eqOp b = true) := by
  have hM : HalfAlone (fun n (_ : ι) => n = 2) := fun _ _ _ h => h
  obtain ⟨opA, o1, A⟩ := C38_dense (T := S) hM hc hpre a ha
  obtain ⟨opB, o2, B⟩ := C38_dense (T := S) hM hc hpre b hb
  refine ⟨opA, opB, o1, o2, fun h => ?_, fun h => ?_⟩
  · have h63 := (C26_bit_ranges hs hc).2.2.1
    have hvs : hs.vecSize = 2 ^ hs.totalNBits.toNat := by unfold vecSize; rw [pow2_eq (by omega)]
    have hlen : ∀ k, (unitVec hs.vecSize k : DenseSV S).data.length = hs.vecSize := by intro k; simp [unitVec]
    have hu : ∀ k, ValidState hs k → ∀ j, (unitVec hs.vecSize k : DenseSV S).data.getD j 0 = if j = k then 1 else 0 :=
      fun k hk j => unitVec_getD _ _ _ (by rw [hvs]; exact hk.1)
    have hsup : ∀ k, ValidState hs k → ∀ j, (unitVec hs.vecSize k : DenseSV S).data.getD j 0 ≠ 0 → ValidState hs j := by
      intro k hk j h
      rw [hu k hk] at h
      split at h
      · rename_i e; rw [e]; exact hk
      · exact absurd rfl h
    have hab : ∀ t k, ValidState hs t → ValidState hs k → opEl hs a t k = opEl hs b t k := by
      intro t k ht hk
      obtain ⟨v, v1, _, v2⟩ := A _ (hlen k) (hsup k hk)
      obtain ⟨w, w1, _, w2⟩ := B _ (hlen k) (hsup k hk)
      have hvw : v = w := by
        have := h k hk
        rw [v1, w1] at this
        cases this; rfl
      rw [← opApply_unit a ht hk _ (hu k hk), ← opApply_unit b ht hk _ (hu k hk), ← v2, ← w2, hvw]
    have hwa : a.WF := ha.wf (conjOK (fun _ _ => True)).good
    have hwb : b.WF := hb.wf (conjOK (fun _ _ => True)).good
    have hd := ha.sub hb
    have hsub : ∀ t k, opEl hs (a - b) t k = opEl hs a t k - opEl hs b t k := by
      intro t k
      have h1 : opEl hs (a - b + b) t k = opEl hs (a - b) t k + opEl hs b t k := opEl_add _ _ _ _
      have h2 : a - b + b = a := by
        refine Expr.ext_coeff (wf_add (wf_sub hwa hwb) hwb) hwa fun k => ?_
        rw [coeff_add (wf_sub hwa hwb) hwb, coeff_sub hwa hwb, sub_add_cancel]
      rw [h2] at h1
      rw [h1, add_sub_cancel_right]
    have hempty := MatF.empty_of_matEl hc hpre (e := a - b) (wf_sub hwa hwb) (reach_canon hM hd) (fun p hp dag i d hdim => by
        have hne : (a - b).coeff p.1 ≠ 0 := by
          rw [coeff, Terms.coeff, Terms.find?_of_mem (wf_sub hwa hwb).1 hp]
          exact (wf_sub hwa hwb).2 p hp
        rw [coeff_sub hwa hwb] at hne
        have hmem : (∃ v, (p.1, v) ∈ a.terms) ∨ ∃ v, (p.1, v) ∈ b.terms := by
          by_contra hn
          push Not at hn
          have hz : ∀ e : Expr (Gen ι) S, (∀ v, (p.1, v) ∉ e.terms) → e.coeff p.1 = 0 := by
            intro e he
            rw [coeff, Terms.coeff]
            cases hf : e.terms.find? p.1 with
            | none => rfl
            | some v => exact absurd (Terms.find?_mem hf) (he v)
          rw [hz a hn.1, hz b hn.2, sub_zero] at hne
          exact hne rfl
        rcases hmem with ⟨v, hv⟩ | ⟨v, hv⟩
        · exact hfew (p.1, v) (List.mem_append.2 (Or.inl hv)) dag i d hdim
        · exact hfew (p.1, v) (List.mem_append.2 (Or.inr hv)) dag i d hdim)
      (fun t k ht hk => by rw [hsub, hab t k ht hk, sub_self])
    rw [eqOp_iff]
    refine Expr.ext_coeff hwa hwb fun k => ?_
    have : (a - b).coeff k = 0 := by rw [coeff, hempty]; rfl
    rw [coeff_sub hwa hwb] at this
    exact sub_eq_zero.1 this
  · rw [eqOp_iff] at h
    subst h
    rw [o1] at o2
    cases o2
    exact fun _ _ => rfl

variable {M : Nat → ι → Prop}

/-- Operators with the same matrix elements act alike. -/
theorem apply_eq_of_opEl [Star S] (hM : HalfAlone M) (hc : Constructed hs) (hpre : PredefinedSpaces hs) (a b : Expr (Gen ι) S)
    (ha : Reachable (InSpace M hs) a) (hb : Reachable (InSpace M hs) b)
    (h : ∀ t k, ValidState hs t → ValidState hs k → opEl hs a t k = opEl hs b t k) :
    ∃ opA opB, LOperator.make a hs = .ok opA ∧ LOperator.make b hs = .ok opB ∧
      ∀ v : DenseSV S, v.data.length = hs.vecSize → (∀ k, v.data.getD k 0 ≠ 0 → ValidState hs k) → opA.apply v = opB.apply v := by
  obtain ⟨opA, o1, A⟩ := C38_dense (T := S) hM hc hpre a ha
  obtain ⟨opB, o2, B⟩ := C38_dense (T := S) hM hc hpre b hb
  refine ⟨opA, opB, o1, o2, fun v hl hv => ?_⟩
  obtain ⟨x, x1, x2, x3⟩ := A v hl hv
  obtain ⟨y, y1, y2, y3⟩ := B v hl hv
  rw [x1, y1]
  have hd : x.data = y.data := by
    refine List.ext_getElem (x2.trans y2.symm) fun i h1 h2 => ?_
    have e1 : x.data.getD i 0 = x.data[i] := by simp [h1]
    have e2 : y.data.getD i 0 = y.data[i] := by simp [h2]
    rw [← e1, ← e2, x3, y3]
    unfold opApply
    by_cases hi : ValidState hs i
    · rw [if_pos hi, if_pos hi]
      exact Finset.sum_congr rfl fun k hk => by rw [h i k hi (mem_basisStates.1 hk)]
    · rw [if_neg hi, if_neg hi]
  cases x; cases y; simp only at hd; rw [hd]

/-- **C106**, limits: as soon as a creation operator occurs as often as there are states, the matrix is zero, but the expression
is not: `(a†)^d` on a mode with `d` states. -/
theorem C106_limit_bosons [Star S] (hc : Constructed hs) (hpre : PredefinedSpaces hs) (i : ι) (d : Nat)
    (hd : hs.dimOf (ESpace.boson 1 i) = .ok d) :
    ∃ opA op0, LOperator.make (Expr.ofMonomial (1 : S) (List.replicate d (.boson true i))) hs = .ok opA ∧
      LOperator.make (0 : Expr (Gen ι) S) hs = .ok op0 ∧
      (∀ v : DenseSV S, v.data.length = hs.vecSize → (∀ k, v.data.getD k 0 ≠ 0 → ValidState hs k) → opA.apply v = op0.apply v) ∧
      (Expr.ofMonomial (1 : S) (List.replicate d (.boson true i)) : Expr (Gen ι) S).eqOp 0 = false := by
  have hM : HalfAlone (fun n (_ : ι) => n = 2) := fun _ _ _ h => h
  have hhas : hs.has (ESpace.boson 1 i) = true := MatF.has_of_dim hd
  have hr : Reachable (S := S) (InSpace (fun n _ => n = 2) hs) (Expr.ofMonomial 1 (List.replicate d (.boson true i))) :=
    .ofMonomial _ _ fun g hg => by rw [List.eq_of_mem_replicate hg]; exact ⟨trivial, hhas⟩
  have hcan : CanonMon (AllowedOn (fun n (_ : ι) => n = 2) fun k => hs.has k.space = true) (List.replicate d (Gen.boson true i)) := by
    refine ⟨fun g hg => by rw [List.eq_of_mem_replicate hg]; exact ⟨trivial, hhas⟩, ?_, fun g hg p hp hle => ?_⟩
    · exact List.isChain_replicate_of_rel d ⟨ngt_refl _, rfl⟩
    · rw [List.eq_of_mem_replicate hg]; rfl
  have hterms : (Expr.ofMonomial (1 : S) (List.replicate d (.boson true i)) : Expr (Gen ι) S).terms = [(List.replicate d (.boson true i), 1)] := by
    simp only [ofMonomial, if_neg (one_ne_zero : (1 : S) ≠ 0)]
    rw [normalize_store, emits_of_canon (nfGen_on hM) _ hcan _ one_ne_zero]; rfl
  obtain ⟨opA, op0, h1, h2, h3⟩ := apply_eq_of_opEl (S := S) hM hc hpre _ 0 hr .zero fun t k ht hk => by
    unfold opEl
    rw [hterms]
    have hz : matEl hs (List.replicate d (Gen.boson true i)) t k = 0 := by
      have hno : NormalOrdered (List.replicate d (Gen.boson true i)) := normalOrdered_of_chain hcan.chain
      have hB : ∀ dag j, Gen.boson dag j ∈ List.replicate d (Gen.boson true i) → HasBoson hs j := fun dag j h => (hcan.mem _ h).2
      unfold matEl
      rw [monAct_trunc hno hB (conf_within hc hk)]
      cases hm : monAct (fun _ => ⊤) (List.replicate d (Gen.boson true i)) (conf hs k) with
      | none => rfl
      | some p =>
        obtain ⟨n, x⟩ := p
        simp only
        rw [if_neg]
        intro hw
        have h1 := hw i hhas
        have h2 := MatF.monAct_count hm (.boson i)
        obtain ⟨f, nb, d', hl⟩ := loc_of_has hc (es := (Mode.boson i).space) hhas
        have hdd : d' = d := by have := hl.dimOf; rw [show (Mode.boson i).space = ESpace.boson 1 i from rfl, hd] at this; cases this; rfl
        rw [loc_bosonDims hl, hdd] at h1
        have h1' : n (.boson i) < d := by exact_mod_cast h1
        simp only [MatF.lower, MatF.raise, List.count_replicate_self] at h2
        rw [List.count_eq_zero.2 (by simp)] at h2
        omega
    rw [show (0 : Expr (Gen ι) S).terms = [] from rfl]
    simp [hz]
  refine ⟨opA, op0, h1, h2, h3, ?_⟩
  rw [← Bool.not_eq_true, eqOp_iff]
  intro e
  rw [e] at hterms
  cases hterms

/-- **C106**, limits: spins above 1/2. `S_+ S_- + S_z² - S_z` and the number `S(S+1)` are the same operator for every spin, but for
`S > 1/2` the expressions compare unequal. -/
theorem C106_limit_spins [Star S] (hc : Constructed hs) (hpre : PredefinedSpaces hs) (m : Nat) (i : ι) (hm : 3 ≤ m)
    (hhas : hs.has (ESpace.spin m i) = true) :
    ∃ opA opB, LOperator.make (Factory.spin m .plus i * Factory.spin m .minus i + Factory.spin m .z i * Factory.spin m .z i
          - Factory.spin m .z i : Expr (Gen ι) S) hs = .ok opA ∧
      LOperator.make (Expr.const (algebraMap ℝ S (spinS m * (spinS m + 1))) : Expr (Gen ι) S) hs = .ok opB ∧
      (∀ v : DenseSV S, v.data.length = hs.vecSize → (∀ k, v.data.getD k 0 ≠ 0 → ValidState hs k) → opA.apply v = opB.apply v) ∧
      (Factory.spin m .plus i * Factory.spin m .minus i + Factory.spin m .z i * Factory.spin m .z i
          - Factory.spin m .z i : Expr (Gen ι) S).eqOp (Expr.const (algebraMap ℝ S (spinS m * (spinS m + 1)))) = false := by
  have hM : HalfAlone (fun n (_ : ι) => n = m) := fun _ n h h' => h'.trans h.symm
  have hg : ∀ c, Reachable (S := S) (InSpace (fun n _ => n = m) hs) (Factory.spin m c i) := fun c =>
    .ofMonomial _ _ fun g hg => by rw [List.mem_singleton.1 hg]; exact ⟨rfl, hhas⟩
  have hr := ((hg .plus).mul (hg .minus)).add ((hg .z).mul (hg .z)) |>.sub (hg .z)
  have hk : Reachable (S := S) (InSpace (fun n _ => n = m) hs) (Expr.const (algebraMap ℝ S (spinS m * (spinS m + 1)))) := .const _
  obtain ⟨opA, opB, h1, h2, h3⟩ := apply_eq_of_opEl hM hc hpre _ _ hr hk fun t k ht hk' => by
    rw [opEl_fock hc hpre (reach_normalOn hM hr) ht hk', opEl_fock hc hpre (reach_normalOn hM hk) ht hk']
    have hrep := represents_of_textbook (S := S) (halfAlone_pos hM) (fock_textbook (ι := ι) (S := S) (M := fun n i => n = m ∧ 1 ≤ n)
      fun n i h => h.2)
    have hpos := fun c => reach_pos hM hc hpre (hg c)
    have hph := conf_phys hc hpre hk'
    have e1 : ∀ c, evalExpr (fockGen S) (Factory.spin m c i : Expr (Gen ι) S) = fockGen S (.spin m c i) := by
      intro c
      unfold evalExpr evalTerms
      rw [show (Factory.spin m c i : Expr (Gen ι) S).terms = [([.spin m c i], 1)] from ofMonomial_single_terms _]
      simp [evalMon]
    rw [eval_sub, eval_add, eval_mul hrep (hpos _) (hpos _), eval_mul hrep (hpos _) (hpos _), e1, e1, e1, eval_const]
    rw [LinearMap.sub_apply, LinearMap.add_apply, Module.End.mul_apply, Module.End.mul_apply, fock_pm_ket (by omega) hph, fock_z_ket hph,
      map_smul, fock_z_ket hph, smul_smul, ← map_mul, ← add_smul, ← map_add, ← sub_smul, ← map_sub, Module.algebraMap_end_apply]
    have : ((m : ℝ) - conf hs k (.spin m i)) * conf hs k (.spin m i) + ((conf hs k (.spin m i) : ℝ) - spinS m) * ((conf hs k (.spin m i) : ℝ) - spinS m)
        - ((conf hs k (.spin m i) : ℝ) - spinS m) = spinS m * (spinS m + 1) := by unfold spinS; ring
    rw [this]
  refine ⟨opA, opB, h1, h2, h3, ?_⟩
  rw [← Bool.not_eq_true, eqOp_iff]
  intro e
  have := congrArg (fun e => e.coeff [.spin m .plus i, .spin m .minus i]) e
  simp only [Factory.spin] at this
  rw [coeff_sub (wf_add (wf2 _ _) (wf2 _ _)) (wf1 _), coeff_add (wf2 _ _) (wf2 _ _), coeff_mul_single, coeff_mul_single, coeff_const] at this
  rw [emits_ok (by simp [GenOps.gt, Gen.gtOp, Gen.greater, Gen.algebraId, SpinComp.toNat])
      (by simp [GenOps.simplifyProd, Gen.simplifyProd]; omega) _ one_ne_zero,
    emits_ok (ngt_refl _) (by simp [GenOps.simplifyProd, Gen.simplifyProd]; omega) _ one_ne_zero] at this
  rw [show (ofMonomial (1 : S) [Gen.spin m .z i]).coeff [.spin m .plus i, .spin m .minus i] = 0 by
    rw [coeff, ofMonomial_single_terms]; rfl] at this
  simp [Terms.sumAt] at this

open Factory in
open scoped Classical in
/-- The hypotheses of C106 are met: a fermionic mode, a bosonic mode with three states and a spin 1/2, and different expressions
with two bosonic creation operators. -/
theorem c106_hypotheses : ∃ hs : HilbertSpace Nat, Constructed hs ∧ PredefinedSpaces hs ∧
    hs.dimOf (ESpace.boson 1 0) = .ok 3 ∧ hs.has (ESpace.spin 2 0) = true ∧
    ∃ a b : Expr (Gen Nat) ℂ, Reachable (InSpace (fun n _ => n = 2) hs) a ∧ Reachable (InSpace (fun n _ => n = 2) hs) b ∧
      a.terms = [([.fermion true 0, .boson true 0, .boson true 0, .spin 2 .z 0], 1)] ∧ b.terms = [([.spin 2 .plus 0], 1)] ∧
      a.eqOp b = false ∧
      ∀ p ∈ a.terms ++ b.terms, ∀ dag i d, hs.dimOf (ESpace.boson 1 i) = .ok d → p.1.count (.boson dag i) < d := by
  obtain ⟨hs, hof, h1, h2, h3⟩ := smallSpace (l := [ESpace.fermion 0, ESpace.boson 3 0, ESpace.spin 2 0])
    (by simp only [List.mem_cons, List.not_mem_nil, or_false, forall_eq_or_imp, forall_eq]
        exact ⟨wf_fermion _, wf_boson _ (by decide) _, wf_spin _ (by decide) _⟩)
    (by simp only [List.mem_cons, List.not_mem_nil, or_false, forall_eq_or_imp, forall_eq]
        exact ⟨⟨fun _ => ⟨_, rfl⟩, by simp [ESpace.fermion], by simp [ESpace.fermion]⟩,
          ⟨by simp [ESpace.boson], fun _ => ⟨_, _, rfl⟩, by simp [ESpace.boson]⟩,
          ⟨by simp [ESpace.spin], by simp [ESpace.spin], fun _ => ⟨_, _, by norm_num, rfl⟩⟩⟩)
    (by decide +kernel)
  have facts : ((HilbertSpace.ofArgs [ESpace.fermion 0, ESpace.boson 3 0, ESpace.spin 2 0]).toOption.map fun hs : HilbertSpace Nat =>
    (hs.has (ESpace.fermion 0) && hs.has (ESpace.boson 1 0) && hs.has (ESpace.spin 2 0) &&
      decide ((hs.dimOf (ESpace.boson 1 0)).toOption = some 3))) = some true := by decide +kernel
  rw [hof] at facts
  simp only [Except.toOption, Option.map_some, Option.some.injEq, Bool.and_eq_true, decide_eq_true_eq] at facts
  obtain ⟨⟨⟨f1, f2⟩, f3⟩, f4⟩ := facts
  have hd : hs.dimOf (ESpace.boson 1 0) = .ok 3 := by
    cases hd : hs.dimOf (ESpace.boson 1 0) with
    | error e => rw [hd] at f4; simp at f4
    | ok d => rw [hd] at f4; simp at f4; rw [f4]
  have hM : HalfAlone (fun n (_ : Nat) => n = 2) := fun _ _ _ h => h
  have hmem : ∀ g ∈ [Gen.fermion true 0, .boson true 0, .boson true 0, .spin 2 .z 0], InSpace (fun n _ => n = 2) hs g := by
    simp only [List.mem_cons, List.not_mem_nil, or_false, forall_eq_or_imp, forall_eq]
    exact ⟨⟨trivial, f1⟩, ⟨trivial, f2⟩, ⟨trivial, f2⟩, ⟨rfl, f3⟩⟩
  have hcan : CanonMon (InSpace (fun n _ => n = 2) hs) [Gen.fermion true 0, .boson true 0, .boson true 0, .spin 2 .z 0] := by
    refine ⟨hmem, ?_, ?_⟩
    · simp [OKPair, GenOps.gt, Gen.gtOp, Gen.greater, Gen.algebraId, GenOps.simplifyProd, Gen.simplifyProd]
    · intro g hg p hp hle
      simp only [List.mem_cons, List.not_mem_nil, or_false] at hg
      rcases hg with rfl | rfl | rfl | rfl <;> rfl
  have ha : (Expr.ofMonomial (1 : ℂ) [Gen.fermion true 0, .boson true 0, .boson true 0, .spin 2 .z 0]).terms
      = [([.fermion true 0, .boson true 0, .boson true 0, .spin 2 .z 0], 1)] := by
    simp only [ofMonomial, if_neg (one_ne_zero : (1 : ℂ) ≠ 0)]
    rw [normalize_store, emits_of_canon (nfGen_on hM) _ hcan _ one_ne_zero]; rfl
  have hb : (Expr.ofMonomial (1 : ℂ) [Gen.spin 2 .plus 0]).terms = [([.spin 2 .plus 0], 1)] := ofMonomial_single_terms _
  refine ⟨hs, h1, h2, hd, f3, Expr.ofMonomial 1 [Gen.fermion true 0, .boson true 0, .boson true 0, .spin 2 .z 0],
    Expr.ofMonomial 1 [Gen.spin 2 .plus 0], .ofMonomial _ _ hmem, .ofMonomial _ _ ?_, ha, hb, ?_, ?_⟩
  · simp only [List.mem_singleton, forall_eq]; exact ⟨rfl, f3⟩
  · rw [← Bool.not_eq_true, eqOp_iff]
    intro e
    rw [e, hb] at ha
    simp at ha
  · rw [ha, hb]
    simp only [List.cons_append, List.nil_append, List.mem_cons, List.not_mem_nil, or_false, forall_eq_or_imp, forall_eq]
    refine ⟨fun dag i d hdim => ?_, fun dag i d hdim => ?_⟩
    · by_cases hi : i = 0
      · subst hi
        rw [hd] at hdim
        cases hdim
        cases dag <;> simp [List.count_cons]
      · obtain ⟨f, nb, d', hl⟩ := loc_of_has h1 (MatF.has_of_dim hdim)
        have := hl.pos
        have hdd := hl.dimOf
        rw [hdim] at hdd
        cases hdd
        cases dag <;> simp [List.count_cons, Ne.symm hi, this]
    · obtain ⟨f, nb, d', hl⟩ := loc_of_has h1 (MatF.has_of_dim hdim)
      have := hl.pos
      have hdd := hl.dimOf
      rw [hdim] at hdd
      cases hdd
      simp [List.count_cons, this]

end LC
