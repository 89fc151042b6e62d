import Verif.Proof.LOpReach
import Verif.Proof.StateVec
import Verif.Props.MonomialAction
import Verif.Spec.Scalars
/-
C30, C38, C40: linear operators. `opApply hs e ψ` (Spec/LOperator.lean) is the matrix of `e`, with textbook matrix elements,
applied to the amplitudes `ψ`.
-/
set_option linter.unusedSectionVars false
namespace LC
open HilbertSpace Expr
variable {ι S T V W : Type _} [LinearOrder ι] {hs : HilbertSpace ι} [CommRing S] [DecidableEq S] [ConstScalar S] [ScalarLaws S]
  [IsDomain S] [CharZero S] [Star S] [Algebra ℝ S] [AddCommGroup T] [Module S T] [StateVec V T] [StateVec W T]
  [LawfulSV V T] [LawfulSV W T]

/-- Generators acting on the elementary spaces of `hs`; where there is a spin 1/2 there is no other spin with the same
indices. -/
abbrev InSpace (M : Nat → ι → Prop) (hs : HilbertSpace ι) : Gen ι → Prop := AllowedOn M fun k => hs.has k.space = true

/-- **C38** For every expression `e` over the generators of `hs`, `make_loperator(e, hs)` succeeds, and the operator acts
on every vector as the sum of coefficients times monomials: `op(src, dst)` sets `dst` to matrix times `src`. The state
vectors may be of any types that behave as state vectors (`DenseSV` and `SparseSV` do); the stored amplitudes of `src` belong to
basis states of `hs`, and `dst` has room for the basis states connected to them. -/
theorem C38_operator_action {M : Nat → ι → Prop} (hM : HalfAlone M) (hc : Constructed hs) (hpre : PredefinedSpaces hs)
    (e : Expr (Gen ι) S) (he : Reachable (InSpace M hs) e) :
    ∃ op, LOperator.make e hs = .ok op ∧ ∀ (src : V) (dst : W), LawfulSV.inv src → LawfulSV.inv dst →
      (∀ k ∈ LawfulSV.visited src, ValidState hs k) →
      (∀ k ∈ LawfulSV.visited src, ∀ p ∈ e.terms, ∀ t, ValidState hs t → matEl hs p.1 t k ≠ 0 → t ∈ LawfulSV.dom dst) →
      ∃ dst', op.applyTo src dst = .ok dst' ∧ LawfulSV.inv dst' ∧ LawfulSV.dom dst' = LawfulSV.dom dst ∧
        ∀ t, LawfulSV.amp dst' t = opApply hs e (LawfulSV.amp src) t := by
  obtain ⟨op, hop⟩ := make_ok hc hpre (reach_actsOn hM he)
  refine ⟨op, hop, fun src dst h1 h2 h3 h4 => ?_⟩
  obtain ⟨z1, z2, z3⟩ := LawfulSV.zero dst h2
  obtain ⟨w, e1, e2, e3, e4⟩ := actImpl_spec hc hpre hop (fun p hp => (reach_actsOn hM he p hp).1) src (StateVec.setZeros dst)
    h1 z1 h3 (by rw [z2]; exact h4)
  exact ⟨w, e1, e2, e3.trans z2, fun t => by rw [e4, z3, zero_add]⟩

/-- **C38** The same for `op(sv)`, `op * sv`. -/
theorem C38_operator_action_value {M : Nat → ι → Prop} (hM : HalfAlone M) (hc : Constructed hs) (hpre : PredefinedSpaces hs)
    (e : Expr (Gen ι) S) (he : Reachable (InSpace M hs) e) [ZerosLike V] [LawfulZeros V] :
    ∃ op, LOperator.make e hs = .ok op ∧ ∀ (sv : V), LawfulSV.inv sv → (∀ k ∈ LawfulSV.visited sv, ValidState hs k) →
      (∀ k ∈ LawfulSV.visited sv, ∀ p ∈ e.terms, ∀ t, ValidState hs t → matEl hs p.1 t k ≠ 0 → t ∈ LawfulSV.dom sv) →
      ∃ sv', op.apply sv = .ok sv' ∧ LawfulSV.inv sv' ∧ LawfulSV.dom sv' = LawfulSV.dom sv ∧
        ∀ t, LawfulSV.amp sv' t = opApply hs e (LawfulSV.amp sv) t := by
  obtain ⟨op, hop⟩ := make_ok hc hpre (reach_actsOn hM he)
  refine ⟨op, hop, fun sv h1 h3 h4 => ?_⟩
  obtain ⟨z1, z2, z3⟩ := LawfulZeros.zeros sv h1
  obtain ⟨w, e1, e2, e3, e4⟩ := actImpl_spec hc hpre hop (fun p hp => (reach_actsOn hM he p hp).1) sv (ZerosLike.zerosLike sv)
    h1 z1 h3 (by rw [z2]; exact h4)
  exact ⟨w, e1, e2, e3.trans z2, fun t => by rw [e4, z3, zero_add]⟩

/-- **C38** For `std::vector`s with `vec_size()` elements no further conditions are needed except that amplitudes of
indices that are not basis states are zero. -/
theorem C38_dense [DecidableEq T] {M : Nat → ι → Prop} (hM : HalfAlone M) (hc : Constructed hs) (hpre : PredefinedSpaces hs)
    (e : Expr (Gen ι) S) (he : Reachable (InSpace M hs) e) :
    ∃ op, LOperator.make e hs = .ok op ∧ ∀ sv : DenseSV T, sv.data.length = hs.vecSize →
      (∀ k, sv.data.getD k 0 ≠ 0 → ValidState hs k) →
      ∃ sv', op.apply sv = .ok sv' ∧ sv'.data.length = hs.vecSize ∧
        ∀ t, sv'.data.getD t 0 = opApply hs e (fun k => sv.data.getD k 0) t := by
  obtain ⟨op, hop, h⟩ := C38_operator_action_value (V := DenseSV T) hM hc hpre e he
  refine ⟨op, hop, fun sv hlen hv => ?_⟩
  have h63 := (C26_bit_ranges hs hc).2.2.1
  have hvs : hs.vecSize = 2 ^ hs.totalNBits.toNat := by unfold vecSize; rw [pow2_eq (by omega)]
  obtain ⟨sv', h1, _, h2, h3⟩ := h sv trivial hv (fun _ _ _ _ t ht _ => by
    show t < sv.data.length
    rw [hlen, hvs]; exact ht.1)
  refine ⟨sv', h1, ?_, h3⟩
  have : ∀ n, n < sv'.data.length ↔ n < sv.data.length := fun n => by
    have := congrArg (n ∈ ·) h2
    exact iff_of_eq this
  have e1 := this sv.data.length
  have e2 := this sv'.data.length
  omega

/-- **C38** Linear in the vector: if `u = x v + y w` amplitude-wise, then `op(u) = x op(v) + y op(w)`. -/
theorem C38_linear_in_vector {M : Nat → ι → Prop} (hM : HalfAlone M) (hc : Constructed hs) (hpre : PredefinedSpaces hs)
    (e : Expr (Gen ι) S) (he : Reachable (InSpace M hs) e) (op : LOperator S) (hop : LOperator.make e hs = .ok op)
    (x y : S) (u v w u' v' w' : DenseSV T) [DecidableEq T] (hu : u.data.length = hs.vecSize) (hv : v.data.length = hs.vecSize)
    (hw : w.data.length = hs.vecSize) (vv : ∀ k, v.data.getD k 0 ≠ 0 → ValidState hs k)
    (vw : ∀ k, w.data.getD k 0 ≠ 0 → ValidState hs k)
    (hlin : ∀ k, u.data.getD k 0 = x • v.data.getD k 0 + y • w.data.getD k 0)
    (h1 : op.apply u = .ok u') (h2 : op.apply v = .ok v') (h3 : op.apply w = .ok w') (t : Nat) :
    u'.data.getD t 0 = x • v'.data.getD t 0 + y • w'.data.getD t 0 := by
  obtain ⟨op', hop', h⟩ := C38_dense (T := T) hM hc hpre e he
  rw [hop] at hop'
  cases hop'
  have vu : ∀ k, u.data.getD k 0 ≠ 0 → ValidState hs k := by
    intro k hk
    by_contra hn
    have a1 : v.data.getD k 0 = 0 := by by_contra h; exact hn (vv k h)
    have a2 : w.data.getD k 0 = 0 := by by_contra h; exact hn (vw k h)
    rw [hlin, a1, a2, smul_zero, smul_zero, add_zero] at hk
    exact hk rfl
  obtain ⟨_, g1, _, g4⟩ := h u hu vu
  obtain ⟨_, g2, _, g5⟩ := h v hv vv
  obtain ⟨_, g3, _, g6⟩ := h w hw vw
  rw [h1] at g1; rw [h2] at g2; rw [h3] at g3
  cases g1; cases g2; cases g3
  rw [g4, g5, g6]
  exact opApply_linear e x y _ _ _ hlin t

/-- **C38** Linear in the expression: `L(a+b) = L(a) + L(b)` and `L(x*a) = x L(a)`, on every vector. -/
theorem C38_linear_in_expression [DecidableEq T] {M : Nat → ι → Prop} (hM : HalfAlone M) (hc : Constructed hs)
    (hpre : PredefinedSpaces hs) (a b : Expr (Gen ι) S) (ha : Reachable (InSpace M hs) a) (hb : Reachable (InSpace M hs) b) (x : S) :
    ∃ opA opB opAB opX, LOperator.make a hs = .ok opA ∧ LOperator.make b hs = .ok opB ∧ LOperator.make (a + b) hs = .ok opAB ∧
      LOperator.make (x • a) hs = .ok opX ∧ ∀ v : DenseSV T, v.data.length = hs.vecSize →
      (∀ k, v.data.getD k 0 ≠ 0 → ValidState hs k) → ∃ va vb vab vx, opA.apply v = .ok va ∧ opB.apply v = .ok vb ∧
        opAB.apply v = .ok vab ∧ opX.apply v = .ok vx ∧
        ∀ t, vab.data.getD t 0 = va.data.getD t 0 + vb.data.getD t 0 ∧ vx.data.getD t 0 = x • va.data.getD t 0 := by
  obtain ⟨opA, o1, A⟩ := C38_dense (T := T) hM hc hpre a ha
  obtain ⟨opB, o2, B⟩ := C38_dense (T := T) hM hc hpre b hb
  obtain ⟨opAB, o3, AB⟩ := C38_dense (T := T) hM hc hpre (a + b) (ha.add hb)
  obtain ⟨opX, o4, X⟩ := C38_dense (T := T) hM hc hpre (x • a) (.smulPrefix x ha)
  refine ⟨opA, opB, opAB, opX, o1, o2, o3, o4, fun v hv vv => ?_⟩
  obtain ⟨va, a1, _, a2⟩ := A v hv vv
  obtain ⟨vb, b1, _, b2⟩ := B v hv vv
  obtain ⟨vab, ab1, _, ab2⟩ := AB v hv vv
  obtain ⟨vx, x1, _, x2⟩ := X v hv vv
  refine ⟨va, vb, vab, vx, a1, b1, ab1, x1, fun t => ⟨?_, ?_⟩⟩
  · rw [ab2, a2, b2, opApply_add]
  · rw [x2, a2, opApply_smul]

/-- `op(v, v)` with the same object as source and destination loses the vector: the result is zero. -/
theorem C38_aliased_call_gives_zero [DecidableEq T] (op : LOperator S) (v : DenseSV T) :
    op.applyAliased v = .ok v.setZeros := by
  have : ∀ (l : List T) n, DenseSV.foreachFrom n (l.map fun _ => (0 : T)) = [] := by
    intro l
    induction l with
    | nil => intro n; rfl
    | cons a l ih => intro n; rw [List.map_cons, DenseSV.foreachFrom, if_pos rfl, ih]
  simp only [LOperator.applyAliased, LOperator.actImpl, StateVec.setZeros, StateVec.foreach, DenseSV.setZeros, this, applyAll]

/-! ### C40: parametric operators -/

variable {Args : Type _}

theorem atLoop_eq (args : Args) (l : List (MonomialAction × (Args → S))) (op : LOperator S) :
    ParamLOperator.atLoop args l op = ⟨op.actions ++ l.map fun p => (p.1, p.2 args)⟩ := by
  induction l generalizing op with
  | nil => simp [ParamLOperator.atLoop]
  | cons p l ih => simp [ParamLOperator.atLoop, ih, LOperator.addMonomialAction]

theorem paramTerms_eq (args : Args) (pre : List S) (l : List (MonomialAction × (Args → S))) (k : Nat) (a : T) (w : W) :
    paramTerms (pre ++ l.map fun p => p.2 args) k a l pre.length w = applyTerms k a (l.map fun p => (p.1, p.2 args)) w := by
  induction l generalizing pre w with
  | nil => simp [paramTerms, applyTerms]
  | cons p l ih =>
    obtain ⟨ma, f⟩ := p
    have hco : pre ++ List.map (fun p => p.2 args) ((ma, f) :: l) = (pre ++ [f args]) ++ List.map (fun p => p.2 args) l := by simp
    have ih' := ih (pre ++ [f args])
    rw [List.length_append, List.length_singleton] at ih'
    simp only [paramTerms, List.map_cons, applyTerms, applyTerm]
    cases ma.act k (1 : S) with
    | ub => rfl
    | zero => simp only; rw [← ih']; simp
    | nonzero i c =>
      have hget : (pre ++ f args :: List.map (fun p => p.2 args) l)[pre.length]? = some (f args) := by simp
      simp only [hget]
      cases StateVec.updateAdd w i ((f args * c) • a) with
      | error e => rfl
      | ok w' => simp only; rw [← ih']; simp

theorem paramAll_eq (args : Args) (acts : List (MonomialAction × (Args → S))) (l : List (Nat × T)) (w : W) :
    paramAll acts (acts.map fun p => p.2 args) l w = applyAll (acts.map fun p => (p.1, p.2 args)) l w := by
  induction l generalizing w with
  | nil => rfl
  | cons q l ih =>
    obtain ⟨k, a⟩ := q
    have := paramTerms_eq args [] acts k a w
    simp only [List.nil_append, List.length_nil] at this
    simp only [paramAll, applyAll, this]
    split
    · rfl
    · exact ih _

theorem paramActImpl_eq (op : ParamLOperator Args S) (args : Args) (v : V) (w : W) :
    op.actImpl v w [] args = match (op.at args).actImpl v w with
      | .error e => .error e
      | .ok w' => .ok (w', op.actions.map fun p => p.2 args) := by
  unfold ParamLOperator.actImpl LOperator.actImpl ParamLOperator.at
  simp only [atLoop_eq, List.nil_append, paramAll_eq]
  cases StateVec.foreach v <;> rfl

/-- **C40** All ways to apply a parametric operator agree: `op(v, args)`, `op(src, dst, args)` and
`act_and_store_coeffs(src, dst, coeffs, args)` (whatever `coeffs` contains) give the same vector as the non-parametric operator
`op.at(args)`; the stored coefficients are the values of the coefficient functions. -/
theorem C40_parametric (op : ParamLOperator Args S) (args : Args) [ZerosLike V] (v : V) (w : W) (coeffs : List S) :
    op.apply v args = (op.at args).apply v ∧ op.applyTo v w args = (op.at args).applyTo v w ∧
    op.actAndStoreCoeffs v w coeffs args = ((op.at args).applyTo v w).map fun w' => (w', op.actions.map fun p => p.2 args) := by
  refine ⟨?_, ?_, ?_⟩
  · simp only [ParamLOperator.apply, LOperator.apply, paramActImpl_eq]
    cases (op.at args).actImpl v (ZerosLike.zerosLike v) <;> rfl
  · simp only [ParamLOperator.applyTo, LOperator.applyTo, paramActImpl_eq]
    cases (op.at args).actImpl v (StateVec.setZeros w) <;> rfl
  · simp only [ParamLOperator.actAndStoreCoeffs, LOperator.applyTo, paramActImpl_eq]
    cases (op.at args).actImpl v (StateVec.setZeros w) <;> rfl

/-- **C40** `op.at(args)` is the operator of the expression with evaluated coefficients. -/
theorem C40_at (e : Expr (Gen ι) (Args → S)) (hs : HilbertSpace ι) (args : Args) :
    (ParamLOperator.make e hs).map (·.at args) = LOperator.make (⟨e.terms.map fun p => (p.1, p.2 args)⟩ : Expr (Gen ι) S) hs := by
  have : ∀ l : List (List (Gen ι) × (Args → S)), LOperator.makeLoop hs (l.map fun p => (p.1, p.2 args))
      = (LOperator.makeLoop hs l).map (List.map fun p => (p.1, p.2 args)) := by
    intro l
    induction l with
    | nil => rfl
    | cons p l ih =>
      obtain ⟨m, f⟩ := p
      simp only [List.map_cons, LOperator.makeLoop, ih]
      cases MonomialAction.make m hs with
      | error e => rfl
      | ok a => cases LOperator.makeLoop hs l <;> rfl
  simp only [ParamLOperator.make, LOperator.make, this]
  cases LOperator.makeLoop hs e.terms with
  | error e => rfl
  | ok l => simp [Except.map, ParamLOperator.at, atLoop_eq]

end LC

namespace LC
open HilbertSpace Expr
variable {ι S : Type _} [LinearOrder ι] [CommRing S] [DecidableEq S] [ConstScalar S] [ScalarLaws S]
  [IsDomain S] [CharZero S] [Star S] [Algebra ℝ S]

theorem esConstruct_key {bd : Option Nat} {g g' : Gen ι} {es es' : ESpace ι} (h : esConstruct bd g = some es)
    (h' : esConstruct bd g' = some es') (hk : es.key = es'.key) : es = es' := by
  rw [ESpace.key_eq_iff] at hk
  cases g <;> cases g' <;> cases bd <;> simp [esConstruct] at h h' <;> subst h <;> subst h' <;>
    simp_all [ESpace.fermion, ESpace.boson, ESpace.spin]

/-- **C30** `make_hilbert_space(e)`: if it does not throw, the Hilbert space contains the elementary spaces of the
generators in `e` and no others, and `make_loperator(e, hs)` does not throw. -/
theorem C30_space_of_expression {M : Nat → ι → Prop} (hM : HalfAlone M) (hM2 : ∀ n i, M n i → 2 ≤ n ∧ n < 2 ^ 31)
    (bosonDim : Option Nat) (hbd : ∀ d, bosonDim = some d → 0 < d) (e : Expr (Gen ι) S) (he : Reachable (Allowed M) e)
    (hs : HilbertSpace ι) (h : ofMonomials (esConstruct bosonDim) (e.terms.map (·.1)) = .ok hs) :
    (∀ es, es ∈ hs.elementarySpaces ↔ ∃ p ∈ e.terms, ∃ g ∈ p.1, esConstruct bosonDim g = some es) ∧
    ∃ op, LOperator.make e hs = .ok op := by
  have hcan := he.allCanon (nfGen M hM) (conjOK M)
  have hwf : ∀ p ∈ e.terms, ∀ g ∈ p.1, ∀ es, esConstruct bosonDim g = some es → es.Wf := by
    intro p hp g hg es hes
    have hall := (hcan p hp).mem g hg
    cases g with
    | fermion d i => simp [esConstruct] at hes; subst hes; exact wf_fermion i
    | boson d i =>
      cases bosonDim with
      | none => simp [esConstruct] at hes
      | some d => simp [esConstruct] at hes; subst hes; exact wf_boson d (hbd d rfl) i
    | spin m c i => simp [esConstruct] at hes; subst hes; exact wf_spin m (by have := (hM2 m i hall).1; omega) i
  have hwf' : ∀ g ∈ (e.terms.map (·.1)).flatten, ∀ es, esConstruct bosonDim g = some es → es.Wf := by
    intro g hg es hes
    obtain ⟨m, hm, hgm⟩ := List.mem_flatten.1 hg
    obtain ⟨p, hp, rfl⟩ := List.mem_map.1 hm
    exact hwf p hp g hgm es hes
  have hc : Constructed hs := .ofMonomials hwf' h
  obtain ⟨l, hfit, rfl, hl1, hl2⟩ := (ofMonomials_spec _ _ hwf').1 hs h
  have hel : (canon l).elementarySpaces = l := by unfold elementarySpaces; rw [canon_spaces, layout_fst]
  have hmem : ∀ es, es ∈ l ↔ ∃ p ∈ e.terms, ∃ g ∈ p.1, esConstruct bosonDim g = some es := by
    intro es
    constructor
    · intro hes
      obtain ⟨g, hg, hge⟩ := hl1 es hes
      obtain ⟨m, hm, hgm⟩ := List.mem_flatten.1 hg
      obtain ⟨p, hp, rfl⟩ := List.mem_map.1 hm
      exact ⟨p, hp, g, hgm, hge⟩
    · rintro ⟨p, hp, g, hg, hge⟩
      obtain ⟨es1, es', h1, h2, h3⟩ := hl2 g (List.mem_flatten.2 ⟨_, List.mem_map.2 ⟨p, hp, rfl⟩, hg⟩)
      rw [hge] at h1; cases h1
      obtain ⟨g', _, hg'⟩ := hl1 es' h2
      rw [← esConstruct_key hg' hge h3]; exact h2
  refine ⟨by rw [hel]; exact hmem, make_ok hc ?_ ?_⟩
  · intro es hes
    rw [hel, hmem] at hes
    obtain ⟨p, hp, g, hg, hge⟩ := hes
    have hall := (hcan p hp).mem g hg
    cases g with
    | fermion d i =>
      simp [esConstruct] at hge; subst hge
      exact ⟨fun _ => ⟨_, rfl⟩, by simp [ESpace.fermion], by simp [ESpace.fermion]⟩
    | boson d i =>
      cases bosonDim with
      | none => simp [esConstruct] at hge
      | some d =>
        simp [esConstruct] at hge; subst hge
        exact ⟨by simp [ESpace.boson], fun _ => ⟨_, _, rfl⟩, by simp [ESpace.boson]⟩
    | spin m c i =>
      simp [esConstruct] at hge; subst hge
      exact ⟨by simp [ESpace.spin], by simp [ESpace.spin], fun _ => ⟨_, _, (hM2 m i hall).2, rfl⟩⟩
  · intro p hp
    refine ⟨canonicalMonomial_of_chain (hcan p hp).chain, fun g hg => ?_⟩
    obtain ⟨es, es', h1, h2, h3⟩ := hl2 g (List.mem_flatten.2 ⟨_, List.mem_map.2 ⟨p, hp, rfl⟩, hg⟩)
    have hk : es.key = g.mode.space.key := by
      rw [ESpace.key_eq_iff]
      cases g <;> cases bosonDim <;> simp [esConstruct] at h1 <;> subst h1 <;>
        simp [Gen.mode, Mode.space, ESpace.fermion, ESpace.boson, ESpace.spin]
    obtain ⟨r, hr⟩ : ∃ r, (es', r) ∈ (canon l).spaces := by
      have : es' ∈ (canon l).spaces.map (·.1) := by rw [canon_spaces, layout_fst]; exact h2
      obtain ⟨⟨a, b⟩, hq, rfl⟩ := List.mem_map.1 this
      exact ⟨b, hq⟩
    exact (loc_of_mem hc hr (h3.trans hk)).choose_spec.2.has

/-- **C30** When `make_hilbert_space(e)` throws: iff there is a boson and no dimension has been given for bosons
(`es_construction_failure`), or the elementary spaces need more than 63 bits (`hilbert_space_too_big`). `l` is any list of the
elementary spaces of the generators in `e` without repetitions. -/
theorem C30_throws_iff (bosonDim : Option Nat) (ms : List (List (Gen ι))) (l : List (ESpace ι)) (hl : l.Nodup)
    (hmem : ∀ es, es ∈ l ↔ ∃ m ∈ ms, ∃ g ∈ m, esConstruct bosonDim g = some es) (hwf : ∀ es ∈ l, es.Wf) :
    ((∃ m ∈ ms, ∃ g ∈ m, esConstruct bosonDim g = none) → ofMonomials (esConstruct bosonDim) ms = .error .esConstruction) ∧
    ((∀ m ∈ ms, ∀ g ∈ m, esConstruct bosonDim g ≠ none) →
      if (l.map ESpace.nBits).sum ≤ 63 then ∃ hs, ofMonomials (esConstruct bosonDim) ms = .ok hs
      else ofMonomials (esConstruct bosonDim) ms = .error (.tooBig ((l.map ESpace.nBits).sum))) := by
  have hwf' : ∀ g ∈ ms.flatten, ∀ es, esConstruct bosonDim g = some es → es.Wf := by
    intro g hg es hes
    obtain ⟨m, hm, hgm⟩ := List.mem_flatten.1 hg
    exact hwf es ((hmem es).2 ⟨m, hm, g, hgm, hes⟩)
  obtain ⟨_, h2, h3⟩ := ofMonomials_spec (esConstruct bosonDim) ms hwf'
  constructor
  · rintro ⟨m, hm, g, hg, hge⟩
    exact h3 ⟨g, List.mem_flatten.2 ⟨m, hm, hg⟩, hge⟩
  · intro hall
    obtain ⟨l', s1, s2, s3, s4⟩ := h2 fun g hg => by
      obtain ⟨m, hm, hgm⟩ := List.mem_flatten.1 hg
      exact Option.isSome_iff_ne_none.2 (hall m hm g hgm)
    have hperm : l.Perm l' := by
      rw [List.perm_ext_iff_of_nodup hl]
      · intro es
        rw [hmem]
        constructor
        · rintro ⟨m, hm, g, hg, hge⟩
          obtain ⟨es1, es', h1, h2, h3⟩ := s3 g (List.mem_flatten.2 ⟨m, hm, hg⟩)
          rw [hge] at h1; cases h1
          obtain ⟨g', _, hg'⟩ := s2 es' h2
          rw [← esConstruct_key hg' hge h3]; exact h2
        · intro hes
          obtain ⟨g, hg, hge⟩ := s2 es hes
          obtain ⟨m, hm, hgm⟩ := List.mem_flatten.1 hg
          exact ⟨m, hm, g, hgm, hge⟩
      · refine List.Pairwise.imp ?_ s1
        rintro a _ hab rfl
        exact absurd hab (by simp)
    have hb : bitSum l' = (l.map ESpace.nBits).sum := (bitSum_perm hperm).symm
    rw [hb] at s4
    split at s4
    · rw [if_neg (by omega)]; exact s4
    · rw [if_pos (by omega)]; exact ⟨_, s4⟩

end LC

namespace LC
open HilbertSpace Expr Factory

/-- **C29 (finding F1)** Consequence of the incomplete copies of Hilbert spaces: no operator with a fermionic generator can be
built on a copy of a Hilbert space; the constructor of its monomial action throws. -/
theorem C29_F1_no_fermions_on_copies {ι : Type _} [LinearOrder ι] (hs : HilbertSpace ι) (m : List (Gen ι)) (hm : m ≠ []) :
    ∃ e, FermionAction.make m hs.copy = .error e := by
  unfold FermionAction.make
  rw [if_neg (by simpa using hm)]
  split
  · exact ⟨_, rfl⟩
  · have : hs.copy.algebraBitRange (-3) = .error .noAlgebra := rfl
    rw [this]
    exact ⟨_, rfl⟩

open scoped Classical in
/-- The hypotheses of the theorems C38 are met: a mixed expression with complex coefficients on a Hilbert space with
fermions, a boson, a spin-1 and a user-defined space. -/
theorem c38_hypotheses : ∃ hs : HilbertSpace Nat, Constructed hs ∧ PredefinedSpaces hs ∧ HalfAlone (fun n (_ : Nat) => n = 3) ∧
    Reachable (S := ℂ) (InSpace (fun n _ => n = 3) hs)
      (Complex.I • (cDag 0 * c 2) + aDag 0 * spin 3 .plus 0 : Expr (Gen Nat) ℂ) ∧
    (∃ k, ValidState hs k ∧ k ≠ 0) ∧ hs.vecSize = 512 := by
  obtain ⟨hs, hof, hc, hpre, _, _, hv⟩ := act_hypotheses
  have hhas : ∀ k : Mode Nat, k ∈ ([.fermion 0, .fermion 2, .boson 0, .spin 3 0] : List (Mode Nat)) → hs.has k.space = true := by
    have : ∀ k ∈ ([.fermion 0, .fermion 2, .boson 0, .spin 3 0] : List (Mode Nat)),
        ((HilbertSpace.ofArgs actSpaces).toOption.map fun hs => hs.has k.space) = some true := by decide +kernel
    intro k hk
    have := this k hk
    rw [hof] at this
    simpa [Except.toOption] using this
  refine ⟨hs, hc, hpre, fun i n h => absurd (show (2:Nat) = 3 from h) (by decide), ?_, ⟨_, hv, by decide⟩, ?_⟩
  · refine .add (.smulPrefix _ (.mul (.ofMonomial _ _ ?_) (.ofMonomial _ _ ?_))) (.mul (.ofMonomial _ _ ?_) (.ofMonomial _ _ ?_))
    · simp only [List.mem_singleton, forall_eq]; exact ⟨trivial, hhas (.fermion 0) (by simp)⟩
    · simp only [List.mem_singleton, forall_eq]; exact ⟨trivial, hhas (.fermion 2) (by simp)⟩
    · simp only [List.mem_singleton, forall_eq]; exact ⟨trivial, hhas (.boson 0) (by simp)⟩
    · simp only [List.mem_singleton, forall_eq]; exact ⟨rfl, hhas (.spin 3 0) (by simp)⟩
  · have : ((HilbertSpace.ofArgs actSpaces).toOption.map fun hs => hs.vecSize) = some 512 := by decide +kernel
    rw [hof] at this
    simpa [Except.toOption] using this

end LC
