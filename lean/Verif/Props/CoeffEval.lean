import Verif.Proof.Polynomial
import Verif.Props.JaynesCummings
/-
C110: coefficients of a type that can be evaluated, such as the polynomials of examples/parametric_loperator.cpp. Expressions are
computed with such coefficients and evaluated later: the result is the same as if they were computed with the values.
-/
set_option linter.unusedSectionVars false
set_option linter.unusedSimpArgs false
namespace LC
open HilbertSpace Expr

section general
variable {G S K : Type _} [GenOps G] [LawfulGen G] [ScalarOps S] [CommRing K] [DecidableEq K] [ConstScalar K] [ScalarLaws K]

/-- **C110** For every program that computes an expression with coefficients of type `S`, over every algebra, and every evaluation `φ`
of the coefficients: evaluating the coefficients of the result gives the coefficients of the expression that the same program
computes from evaluated literals. -/
theorem C110_evaluate {φ : S → K} (h : Evaluation φ) (p : ScalarProg G S) (k : List G) :
    p.run.valueAt φ k = (p.eval φ).exact.coeff k := by
  have := (Any.CoeffEval.exact_rel h p).at_ k
  show Any.CoeffEval.tval φ p.run.terms k = _
  rw [← this, coeff, Any.CoeffEval.tval, Terms.coeff]
  cases (p.eval φ).exact.terms.find? k <;> rfl

/-- **C110** Hence the operators are the same: every sum over the terms that depends linearly on the coefficients (the represented
operator, a matrix element, …) may be computed from the evaluated coefficients. -/
theorem C110_evaluated_operator {M : Type _} [AddCommGroup M] [Module K M] {φ : S → K} (h : Evaluation φ) (p : ScalarProg G S)
    (ρ : List G → M) :
    ((p.run.evaluated φ).terms.map fun q => q.2 • ρ q.1).sum = ((p.eval φ).exact.terms.map fun q => q.2 • ρ q.1).sum := by
  have r := Any.CoeffEval.exact_rel h p
  let _ := Any.CoeffEval.ringOps K
  rw [evaluated, List.map_map]
  exact (Any.CoeffEval.sum_congr r.sorted r.sorted' r.at_ (fun m x => x • ρ m) fun m => zero_smul _ _).symm

end general

section parametric
variable {ι S K Args : Type _} [LinearOrder ι] {hs : HilbertSpace ι} [ScalarOps S] [CommRing K] [DecidableEq K] [ConstScalar K]
  [ScalarLaws K] [IsDomain K] [CharZero K] [Star K] [Algebra ℝ K] {M : Nat → ι → Prop}

theorem ScalarProg.reachable {G : Type _} [GenOps G] {P : G → Prop} (p : ScalarProg G S) (h : p.All P) : Any.Reachable P p.run := by
  induction p with
  | zero => exact .zero
  | const x => exact .const x
  | monomial x m => exact .ofMonomial x m h
  | add p q ihp ihq => exact (ihp h.1).add (ihq h.2)
  | sub p q ihp ihq => exact (ihp h.1).sub (ihq h.2)
  | mul p q ihp ihq => exact (ihp h.1).mul (ihq h.2)
  | neg p ih => exact (ih h).neg
  | smul x p ih => exact (ih h).smulPrefix x
  | muls p x ih => exact (ih h).smulPostfix x
  | addScalar p x ih => exact (ih h).addScalar x
  | addAssignScalar p x ih => exact (ih h).addAssignScalar x
  | subScalar p x ih => exact (ih h).subScalar x
  | scalarSub x p ih => exact (ih h).scalarSub x

theorem ScalarProg.exact_reachable {G : Type _} [GenOps G] {P : G → Prop} (φ : S → K) (p : ScalarProg G S) (h : p.All P) :
    Reachable P (p.eval φ).exact := by
  induction p with
  | zero => exact .zero
  | const x => exact .const _
  | monomial x m => exact .ofMonomial _ m h
  | add p q ihp ihq => exact (ihp h.1).add (ihq h.2)
  | sub p q ihp ihq => exact (ihp h.1).sub (ihq h.2)
  | mul p q ihp ihq => exact (ihp h.1).mul (ihq h.2)
  | neg p ih => exact (ih h).neg
  | smul x p ih => exact (ih h).smulPrefix _
  | muls p x ih => exact (ih h).smulPostfix _
  | addScalar p x ih => exact (ih h).addScalar _
  | addAssignScalar p x ih => exact (ih h).addAssignScalar _
  | subScalar p x ih => exact (ih h).subScalar _
  | scalarSub x p ih => exact (ih h).scalarSub _

theorem run_actsOn (hM : HalfAlone M) (p : ScalarProg (Gen ι) S) (hp : p.All (InSpace M hs)) (φ : S → K) :
    ActsOn hs (p.run.evaluated φ) := by
  intro q hq
  obtain ⟨q', hq', rfl⟩ := List.mem_map.1 hq
  have := (Any.good_reachable (Any.monInv_canon (nfGen_on hM)) conjOK_on.mem (p.reachable hp)).canon q' hq'
  exact ⟨canonicalMonomial_of_chain this.chain, fun g hg => (this.mem g hg).2⟩

theorem opApply_evaluated {φ : S → K} (h : Evaluation φ) (p : ScalarProg (Gen ι) S) (ψ : Nat → K) (t : Nat) :
    opApply hs (p.run.evaluated φ) ψ t = opApply hs (p.eval φ).exact ψ t := by
  unfold opApply
  refine if_congr Iff.rfl (Finset.sum_congr rfl fun k _ => ?_) rfl
  congr 1
  simpa only [opEl, smul_eq_mul] using C110_evaluated_operator h p fun m => algebraMap ℝ K (matEl hs m t k)

/-- **C110** Parametric operators: `make_param_loperator(e, hs)`, where `e` is computed with coefficients that are functions of
arguments, gives, for all arguments, the vectors of the operator of the expression computed from the values of the literals. -/
theorem C110_parametric (hM : HalfAlone M) (hc : Constructed hs) (hpre : PredefinedSpaces hs) (φ : Args → S → K)
    (h : ∀ a, Evaluation (φ a)) (p : ScalarProg (Gen ι) S) (hp : p.All (InSpace M hs)) :
    ∃ op, ParamLOperator.make (p.run.evaluated fun c a => φ a c) hs = .ok op ∧ ∀ a, ∃ opA,
      LOperator.make (p.eval (φ a)).exact hs = .ok opA ∧ ∀ sv : DenseSV K, sv.data.length = hs.vecSize →
        (∀ k, sv.data.getD k 0 ≠ 0 → ValidState hs k) →
        ∃ sv', op.apply sv a = .ok sv' ∧ opA.apply sv = .ok sv' ∧ sv'.data.length = hs.vecSize := by
  obtain ⟨l, hl⟩ := makeLoop_ok hc hpre (p.run.evaluated fun c a => φ a c).terms fun q hq => by
    obtain ⟨q', hq', rfl⟩ := List.mem_map.1 hq
    exact run_actsOn hM p hp (fun _ => (0 : K)) (q'.1, 0) (List.mem_map.2 ⟨q', hq', rfl⟩)
  have hmk : ParamLOperator.make (p.run.evaluated fun c a => φ a c) hs = .ok ⟨l⟩ := by simp [ParamLOperator.make, LOperator.make, hl]
  refine ⟨⟨l⟩, hmk, fun a => ?_⟩
  obtain ⟨opA, hA, A⟩ := C38_dense (T := K) hM hc hpre _ (p.exact_reachable (φ a) hp)
  refine ⟨opA, hA, fun sv h1 h2 => ?_⟩
  obtain ⟨u, u1, u2, u3⟩ := A sv h1 h2
  have hat := C40_at (p.run.evaluated fun c a => φ a c) hs a
  have e1 : (⟨(p.run.evaluated fun c a => φ a c).terms.map fun q => (q.1, q.2 a)⟩ : Expr (Gen ι) K) = p.run.evaluated (φ a) := by
    simp only [evaluated, List.map_map]; rfl
  rw [hmk, e1] at hat
  obtain ⟨w, w1, _, w2, w3⟩ := actImpl_spec (V := DenseSV K) (W := DenseSV K) hc hpre (e := p.run.evaluated (φ a)) (op := (⟨l⟩ : ParamLOperator Args K).at a)
    hat.symm (fun q hq => (run_actsOn hM p hp (φ a) q hq).1) sv (ZerosLike.zerosLike sv) trivial (LawfulZeros.zeros sv trivial).1 h2 (by
      intro k _ q _ t ht _
      rw [(LawfulZeros.zeros sv trivial).2.1]
      show t < sv.data.length
      rw [h1, SpacePartition.vecSize_eq hc]; exact ht.1)
  have z := LawfulZeros.zeros sv trivial
  have hw : ∀ n, n < w.data.length ↔ n < sv.data.length := fun n => iff_of_eq (congrArg (n ∈ ·) (w2.trans z.2.1))
  have hlen : w.data.length = sv.data.length := by
    have e1 := hw sv.data.length
    have e2 := hw w.data.length
    omega
  have hget : ∀ t, w.data.getD t 0 = u.data.getD t 0 := fun t => by
    have := w3 t
    rw [z.2.2, zero_add, opApply_evaluated (h a)] at this
    rw [u3]; exact this
  have huw : w = u := by
    cases w; cases u
    congr 1
    refine List.ext_getElem (by rw [hlen, u2, h1]) fun i h3 h4 => ?_
    have := hget i
    simpa [List.getD_eq_getElem?_getD, h3, h4] using this
  refine ⟨u, ?_, u1, u2⟩
  rw [(C40_parametric (W := DenseSV K) (⟨l⟩ : ParamLOperator Args K) a sv sv []).1, LOperator.apply, w1, huw]
end parametric

/-- **C110** The polynomials of the example are such a type: `operator()(x)` is an evaluation, for all `x`. -/
theorem C110_polynomials {R : Type _} [CommRing R] [DecidableEq R] [ConstScalar R] (x : R) :
    Evaluation (fun p : Poly R => p.call x) := Poly.evaluation x

/-- The value of a polynomial is the sum of coefficients times powers. -/
theorem C110_polynomial_value {R : Type _} [CommRing R] (p : Poly R) (x : R) :
    p.call x = ∑ i ∈ Finset.range p.coeffs.length, p.coeffs.getD i 0 * x ^ i := Poly.call_eq p x

namespace Displaced
open JaynesCummings (K F cfg cfg_phys F_adag F_a0 F_a fockVec_one)

theorem eval_displaced (w0 g : Poly ℝ) (x : ℝ) :
    evalExpr F ((displaced w0 g).eval fun p => p.call x).exact =
      (w0.call x) • ((F (.boson true ()) - algebraMap ℝ _ (g.call x)) * (F (.boson false ()) - algebraMap ℝ _ (g.call x)))
        + algebraMap ℝ _ (w0.call x / 2) := by
  have hr : Represents ℝ Reg.PH F := represents_of_textbook Reg.halfAlone (fock_textbook (fun n i hn => by rw [Reg.halfOnly] at hn; omega))
  have ev := Poly.evaluation (R := ℝ) x
  have r : ∀ d, Reachable FBS (Expr.ofMonomial (1 : ℝ) [Gen.boson d ()]) := fun d => .ofMonomial _ _ (by simp [FBS])
  have g1 : ∀ d, evalExpr F (Expr.ofMonomial (1 : ℝ) [Gen.boson d ()]) = F (.boson d ()) := fun d =>
    (eval_ofMonomial hr 1 _ (by simp [Reg.PH, Allowed, Reg.halfOnly])).trans (by simp [evalMon])
  have c1 : (ScalarOps.makeConst (.integer 1) : Poly ℝ).call x = 1 := by rw [ev.makeConst, ConstScalar.mk_integer]; simp
  have c2 : (w0.scale 0.5).call x = w0.call x / 2 := by rw [Poly.call_scale]; norm_num; ring
  simp only [displaced, ScalarProg.eval, ScalarProg.exact, c1, c2, addScalar_eq, subScalar_eq]
  rw [eval_add, eval_mul hr (FBS.inP (.smulPrefix _ ((r _).sub (.const _)))) (FBS.inP ((r _).sub (.const _))), eval_smul, eval_sub, eval_sub,
    g1, g1, eval_const, eval_const, smul_mul_assoc]

theorem all (w0 g : Poly ℝ) {P : Gen Unit → Prop} (h : ∀ d, P (.boson d ())) : (displaced w0 g).All P := by
  simp [displaced, ScalarProg.All, h]

theorem act (w0 g : Poly ℝ) (x : ℝ) :
    evalExpr F ((displaced w0 g).eval fun p => p.call x).exact (K 0 0) =
      (w0.call x * (1 / 2 + g.call x ^ 2)) • K 0 0 + (- (w0.call x * g.call x)) • K 1 0 := by
  rw [eval_displaced]
  simp only [LinearMap.add_apply, LinearMap.smul_apply, Module.End.mul_apply, LinearMap.sub_apply, Module.algebraMap_end_apply,
    map_sub, map_smul, map_zero, F_a0 (s := 0) (by norm_num), F_adag (n := 0) (s := 0) (by norm_num)]
  simp
  module

theorem act1 (w0 g : Poly ℝ) (x : ℝ) (hg : g.call x = 0) :
    evalExpr F ((displaced w0 g).eval fun p => p.call x).exact (K 1 0) = (w0.call x * (3 / 2)) • K 1 0 := by
  have h1 : F (.boson false ()) (K 1 0) = K 0 0 := by
    have := F_a (n := 0) (s := 0) (by norm_num)
    simpa using this
  have h2 : F (.boson true ()) (K 0 0) = K 1 0 := by
    have := F_adag (n := 0) (s := 0) (by norm_num)
    simpa using this
  rw [eval_displaced, hg, map_zero]
  simp only [LinearMap.add_apply, LinearMap.smul_apply, Module.End.mul_apply, LinearMap.sub_apply, LinearMap.zero_apply, sub_zero, h1, h2,
    Module.algebraMap_end_apply]
  module

theorem cfg_inj {n m : Nat} (h : cfg n 0 = cfg m 0) : n = m := congrFun h (.boson ())

theorem K_apply (n m : Nat) : (K n 0) ⟨cfg m 0, cfg_phys (by norm_num)⟩ = if m = n then 1 else 0 := by
  rw [K, ket, dif_pos (cfg_phys (by norm_num))]
  by_cases h : m = n
  · subst h; rw [if_pos rfl, Finsupp.single_eq_same]
  · rw [if_neg h, Finsupp.single_eq_of_ne]
    intro he
    exact h (cfg_inj (congrArg Subtype.val he))

/-- Some term of the expression contains a generator. -/
theorem has_generator (w0 g : Poly ℝ) {x : ℝ} (hw : w0.call x ≠ 0) : ∃ q ∈ (displaced w0 g).run.terms, q.1 ≠ [] := by
  by_contra hn
  push Not at hn
  have e := C110_evaluated_operator (Poly.evaluation (R := ℝ) x) (displaced w0 g) (evalMon F)
  obtain ⟨c, hc⟩ : ∃ c : ℝ, (((displaced w0 g).run.evaluated fun p => p.call x).terms.map fun q => q.2 • evalMon F q.1).sum = algebraMap ℝ _ c := by
    rw [evaluated]
    simp only
    clear e
    revert hn
    generalize (displaced w0 g).run.terms = l
    intro hn
    induction l with
    | nil => exact ⟨0, by simp⟩
    | cons q l ih =>
      obtain ⟨c, hc⟩ := ih fun q hq => hn q (List.mem_cons_of_mem _ hq)
      refine ⟨q.2.call x + c, ?_⟩
      rw [List.map_cons, List.map_cons, List.sum_cons, hc, hn q List.mem_cons_self, map_add]
      simp [evalMon, Algebra.algebraMap_eq_smul_one]
  rw [hc] at e
  have e : algebraMap ℝ _ c = evalExpr F ((displaced w0 g).eval fun p => p.call x).exact := e
  have h0 := congrArg (fun f : Module.End ℝ (FockSpace Unit ℝ) => f (K 0 0)) e
  simp only [act, Module.algebraMap_end_apply] at h0
  have a0 := congrArg (fun v : FockSpace Unit ℝ => v ⟨cfg 0 0, cfg_phys (by norm_num)⟩) h0
  have a1 := congrArg (fun v : FockSpace Unit ℝ => v ⟨cfg 1 0, cfg_phys (by norm_num)⟩) h0
  simp only [Finsupp.smul_apply, Finsupp.add_apply, K_apply, smul_eq_mul] at a0 a1
  norm_num at a0 a1
  have hg : g.call x = 0 := by tauto
  have h1 := congrArg (fun f : Module.End ℝ (FockSpace Unit ℝ) => f (K 1 0)) e
  simp only [act1 w0 g x hg, Module.algebraMap_end_apply] at h1
  have b1 := congrArg (fun v : FockSpace Unit ℝ => v ⟨cfg 1 0, cfg_phys (by norm_num)⟩) h1
  simp only [Finsupp.smul_apply, K_apply, smul_eq_mul] at b1
  rw [hg] at a0
  norm_num at a0 b1
  apply hw
  linarith

theorem space_eq (w0 g : Poly ℝ) {x : ℝ} (hw : w0.call x ≠ 0) {dim : Nat} (hd : 0 < dim) :
    if dim ≤ 2 ^ 63 then displacedSpace w0 g dim = .ok (canon [ESpace.boson dim ()]) ∧ Constructed (canon [ESpace.boson dim ()])
    else ∃ e, displacedSpace w0 g dim = .error e := by
  have hgen : ∀ q ∈ ((displaced w0 g).run.terms.map (·.1)).flatten, esConstruct (some dim) q = some (ESpace.boson dim ()) := by
    intro q hq
    obtain ⟨m, hm, hqm⟩ := List.mem_flatten.1 hq
    obtain ⟨t, ht, rfl⟩ := List.mem_map.1 hm
    have hM : HalfAlone fun (_ : Nat) (_ : Unit) => False := fun _ _ h => h.elim
    have hP := all w0 g (P := AllowedOn (fun _ _ => False) fun k => k = .boson ()) (fun d => ⟨trivial, rfl⟩)
    have := ((Any.good_reachable (Any.monInv_canon (nfGen_on hM)) conjOK_on.mem
      ((displaced w0 g).reachable hP)).canon t ht).mem q hqm
    cases q with
    | boson d i => rfl
    | fermion d i => exact absurd this.2 (by simp [Gen.mode])
    | spin n c i => exact absurd this.2 (by simp [Gen.mode])
  have hwf : ∀ q ∈ ((displaced w0 g).run.terms.map (·.1)).flatten, ∀ es, esConstruct (some dim) q = some es → es.Wf := by
    intro q hq es he
    rw [hgen q hq] at he
    cases he
    exact wf_boson _ hd _
  obtain ⟨l, h1, h2, h3, h4⟩ := (ofMonomials_spec _ _ hwf).2.1 (fun q hq => by rw [hgen q hq]; rfl)
  obtain ⟨q, hq, hne⟩ := has_generator w0 g hw
  have hl : l = [ESpace.boson dim ()] := by
    have hall : ∀ es ∈ l, es = ESpace.boson dim () := fun es he => by
      obtain ⟨q, hq, hqe⟩ := h2 es he
      rw [hgen q hq] at hqe
      cases hqe; rfl
    match l, h1, hall, h3 with
    | [], _, _, h3 =>
      obtain ⟨y, hy⟩ := List.exists_mem_of_ne_nil _ hne
      obtain ⟨_, es', _, he, _⟩ := h3 y (List.mem_flatten.2 ⟨q.1, List.mem_map.2 ⟨q, hq, rfl⟩, hy⟩)
      simp at he
    | [e], _, hall, _ => rw [hall e (by simp)]
    | e :: e' :: l, h1, hall, _ =>
      rw [hall e (by simp), hall e' (by simp)] at h1
      have := (List.pairwise_cons.1 h1).1 _ List.mem_cons_self
      simp at this
  subst hl
  have hb : bitSum [ESpace.boson dim ()] = Nat.clog 2 dim := by simp [ESpace.boson]
  rw [hb] at h4
  have hiff : 63 < Nat.clog 2 dim ↔ ¬ dim ≤ 2 ^ 63 := by
    rw [not_le, Nat.lt_clog_iff_pow_lt (by norm_num)]
  by_cases hdim : dim ≤ 2 ^ 63
  · rw [if_pos hdim]
    have : ¬ 63 < Nat.clog 2 dim := fun h => hiff.1 h hdim
    rw [if_neg this] at h4
    exact ⟨h4, .ofMonomials hwf h4⟩
  · rw [if_neg hdim]
    rw [if_pos (hiff.2 hdim)] at h4
    exact ⟨_, h4⟩

variable {dim : Nat}

theorem conf_single (s : Nat) (hs : s < dim) : ValidState (canon [ESpace.boson dim ()]) s ∧ conf (canon [ESpace.boson dim ()]) s = cfg s 0 := by
  have hp : s < 2 ^ Nat.clog 2 dim := hs.trans_le (Nat.le_pow_clog (by norm_num) _)
  constructor
  · refine ⟨by rw [canon_total]; simpa [ESpace.boson] using hp, fun p hp' => ?_⟩
    rw [canon_spaces] at hp'
    simp only [layout, List.mem_singleton] at hp'
    subst hp'
    simp [ESpace.boson, Nat.mod_eq_of_lt hp, hs]
  · have hlt : (ESpace.boson dim ()).ltOp (ESpace.boson dim ()) = false := by
      rw [Bool.eq_false_iff, ne_eq, ESpace.ltOp_iff]; exact lt_irrefl _
    funext k
    cases k with
    | boson j =>
      rw [conf, occ_key (es' := ESpace.boson dim ()) (by rfl), occ, bitRange, canon_spaces]
      simp only [layout, findSpace, hlt]
      simp [cfg, ESpace.boson, Nat.mod_eq_of_lt hp]
    | fermion j =>
      rw [conf, occ, bitRange, canon_spaces]
      simp [layout, findSpace, Mode.space, ESpace.fermion, ESpace.boson, ESpace.ltOp, cfg]
    | spin n j =>
      rw [conf, occ, bitRange, canon_spaces]
      simp [layout, findSpace, Mode.space, ESpace.spin, ESpace.boson, ESpace.ltOp, cfg]

theorem valid_single (s : Nat) : ValidState (canon [ESpace.boson dim ()]) s → s < dim := by
  intro h
  have h1 := h.1
  have h2 := h.2 (ESpace.boson dim (), ⟨0, (0 : Int) + (ESpace.boson dim ()).nBits - 1⟩) (by rw [canon_spaces]; simp [layout])
  rw [canon_total] at h1
  simp [ESpace.boson] at h1 h2
  rwa [Nat.mod_eq_of_lt h1] at h2


theorem space_pre (hs : HilbertSpace Unit) (h : hs = canon [ESpace.boson dim ()]) :
    PredefinedSpaces hs ∧ ∀ es ∈ hs.elementarySpaces, ¬ es.Foreign := by
  subst h
  have hel : (canon [ESpace.boson dim ()]).elementarySpaces = [ESpace.boson dim ()] := by
    unfold elementarySpaces; rw [canon_spaces, layout_fst]
  constructor
  · intro es he
    rw [hel, List.mem_singleton] at he
    subst he
    refine ⟨by simp [ESpace.boson], fun _ => ⟨_, _, rfl⟩, by simp [ESpace.boson]⟩
  · intro es he
    rw [hel, List.mem_singleton] at he
    subst he
    simp [ESpace.Foreign, ESpace.boson]

/-- **C110** examples/parametric_loperator.cpp, for all polynomials `w0` (not identically zero) and `g`, every number of bosonic states
`2 ≤ dim ≤ 2^63` and all values of the parameter: the program constructs the Hilbert space and the operator, and `Hop(|0⟩, λ)` is
`ω₀ (1/2 + g(λ)²) |0⟩ - ω₀ g(λ) |1⟩`. -/
theorem _root_.LC.C110_displaced_oscillator (w0 g : Poly ℝ) (hw : ∃ x, w0.call x ≠ 0) (hd : 2 ≤ dim) (hd' : dim ≤ 2 ^ 63) :
    ∃ hs op, displacedSpace w0 g dim = .ok hs ∧
      ParamLOperator.make ((displaced w0 g).run.evaluated fun c x => c.call x) hs = .ok op ∧
      ∀ x, ∃ ket, op.apply (displacedKet0 hs) x = .ok ket ∧ ket.data.length = hs.vecSize ∧
        ∀ i, ket.data.getD i 0 = if i = 0 then w0.call x * (1 / 2 + g.call x ^ 2) else if i = 1 then - (w0.call x * g.call x) else 0 := by
  obtain ⟨x0, hx0⟩ := hw
  have hsp := space_eq w0 g hx0 (dim := dim) (by omega)
  rw [if_pos hd'] at hsp
  obtain ⟨hsp, hc⟩ := hsp
  obtain ⟨hpre, hnf⟩ := space_pre (dim := dim) _ rfl
  have hlt : (ESpace.boson dim ()).ltOp (ESpace.boson dim ()) = false := by
    rw [Bool.eq_false_iff, ne_eq, ESpace.ltOp_iff]; exact lt_irrefl _
  have hhas : (canon [ESpace.boson dim ()]).has (Mode.boson ()).space = true := by
    rw [HilbertSpace.has, findSpace_key (es' := ESpace.boson dim ()) (by rfl), canon_spaces]
    simp only [layout, findSpace, hlt]
    rfl
  have hM : HalfAlone fun (_ : Nat) (_ : Unit) => False := fun _ _ h => h.elim
  have hall : (displaced w0 g).All (InSpace (fun _ _ => False) (canon [ESpace.boson dim ()])) := all w0 g fun d => ⟨trivial, hhas⟩
  obtain ⟨op, h1, h2⟩ := C110_parametric hM hc hpre (fun (x : ℝ) (c : Poly ℝ) => c.call x) (fun x => Poly.evaluation x) (displaced w0 g) hall
  refine ⟨_, op, hsp, h1, fun x => ?_⟩
  obtain ⟨opA, h3, h4⟩ := h2 x
  obtain ⟨opA', h5, h6⟩ := C109_fock_action (S := ℝ) hM hc hpre hnf _ ((displaced w0 g).exact_reachable (fun c => c.call x) hall)
  rw [h3] at h5
  cases h5
  have v := fun n hn => conf_single (dim := dim) n hn
  have hlen : 0 < (canon [ESpace.boson dim ()]).vecSize := by
    rw [SpacePartition.vecSize_eq hc]; exact Nat.two_pow_pos _
  have k0 : ∀ k, (displacedKet0 (canon [ESpace.boson dim ()])).data.getD k 0 = if k = 0 then 1 else 0 :=
    JaynesCummings.vec1_getD hlen 1
  have kv : ∀ k, (displacedKet0 (canon [ESpace.boson dim ()])).data.getD k 0 ≠ 0 → ValidState (canon [ESpace.boson dim ()]) k := by
    intro k hk
    rw [k0] at hk
    have : k = 0 := by by_contra h; rw [if_neg h] at hk; exact hk rfl
    rw [this]; exact (v 0 (by omega)).1
  have kl : (displacedKet0 (canon [ESpace.boson dim ()])).data.length = (canon [ESpace.boson dim ()]).vecSize := by simp [displacedKet0]
  obtain ⟨ket, a1, a2, a3⟩ := h4 _ kl kv
  obtain ⟨ket', b1, b2, b3, b4⟩ := h6 _ kl kv
  rw [a2] at b1
  cases b1
  refine ⟨ket, a1, a3, fun i => ?_⟩
  by_cases hi : i < dim
  · obtain ⟨v1, v2⟩ := v i hi
    have := b3 i v1
    simp only [k0, fockVec_one (v 0 (by omega)).1, (v 0 (by omega)).2, one_smul, v2] at this
    have e := act w0 g x
    have e := congrArg (fun v : FockSpace Unit ℝ => v ⟨cfg i 0, cfg_phys (by norm_num)⟩) e
    simp only [Finsupp.smul_apply, Finsupp.add_apply, K_apply, smul_eq_mul] at e
    rw [this]
    refine e.trans ?_
    by_cases h0 : i = 0
    · subst h0; simp
    · by_cases h1 : i = 1
      · subst h1; simp
      · simp [h0, h1]
  · rw [b4 i fun h => hi (valid_single i h), if_neg (by omega), if_neg (by omega)]

end Displaced

/-- The constants of the program: `w0 = 2`, `g(λ) = 3λ`, 16 bosonic states; for `λ = 1` the result is `19|0⟩ - 6|1⟩`. -/
theorem c110_hypotheses : ∃ hs op ket, displacedSpace ⟨[2], by simp⟩ ⟨[0, 3], by simp⟩ 16 = .ok hs ∧
    ParamLOperator.make ((displaced ⟨[2], by simp⟩ ⟨[0, 3], by simp⟩).run.evaluated fun c (x : ℝ) => c.call x) hs = .ok op ∧
    op.apply (displacedKet0 hs) 1 = .ok ket ∧ ket.data.getD 0 0 = 19 ∧ ket.data.getD 1 0 = -6 ∧ ket.data.getD 2 0 = 0 := by
  obtain ⟨hs, op, h1, h2, h3⟩ := C110_displaced_oscillator (dim := 16) ⟨[2], by simp⟩ ⟨[0, 3], by simp⟩
    ⟨0, by norm_num [Poly.call]⟩ (by norm_num) (by norm_num)
  obtain ⟨ket, k1, _, k2⟩ := h3 1
  refine ⟨hs, op, ket, h1, h2, k1, ?_, ?_, ?_⟩ <;> rw [k2] <;> norm_num [Poly.call]

/-- A coefficient may evaluate to zero without being zero: the term is stored, its value is 0, and the expression computed with the
value is zero. -/
example : ((ScalarProg.monomial (⟨[0, 1], by simp⟩ : Poly ℚ) [Gen.boson true ()]).run.terms.map (·.1)) = [[Gen.boson true ()]] ∧
    (ScalarProg.monomial (⟨[0, 1], by simp⟩ : Poly ℚ) [Gen.boson true ()]).run.valueAt (fun p => p.call 0) [Gen.boson true ()] = 0 ∧
    ((ScalarProg.monomial (⟨[0, 1], by simp⟩ : Poly ℚ) [Gen.boson true ()]).eval fun p => p.call 0).exact.terms = [] := by
  decide +kernel

end LC
