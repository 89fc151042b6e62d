import Verif.Proof.FloatBound
import Verif.Props.LOperator
import Verif.Props.AnyScalar
import Mathlib.Analysis.Complex.Exponential
/-
C98: linear operators with floating-point coefficients acting on vectors of floating-point numbers.
`opApply hs e ψ` (Spec/LOperator.lean) is the exact matrix-vector product with textbook matrix elements.
-/
set_option linter.unusedSectionVars false
set_option linter.unusedSimpArgs false
namespace LC
open Classical HilbertSpace
variable {ι D S T V W 𝕜 : Type _} [LinearOrder ι] [RCLike 𝕜] {hs : HilbertSpace ι}
variable [AmpOps T] [CoefOps D S T] [StateVec V T] [StateVec W T] [FloatSV V T] [FloatSV W T]
variable {u tol : ℝ} {vS : S → 𝕜} {vT : T → 𝕜} {fS : S → Prop} {fT : T → Prop}

/-- **C98** `make_loperator(e, hs)` succeeds; `op(src, dst)` does not read or write outside its tables and vectors, and every
amplitude of the result that is finite differs from the exact one by at most

`((1+u)^(N+3d+2) - 1) * Σ_k |e|_{tk} |ψ_k|  +  tol * Σ_{k : is_zero(ψ_k)} |e|_{tk}`,

where `N` is the number of terms of `e`, `d` the length of its longest monomial, `ψ` the amplitudes of `src`. Destinations that do
not store amplitudes passing `is_zero` add another `tol * N * (1+u)^N`. Infinities and NaNs in other places do not matter. -/
theorem C98_error_bound (R : Rounding (D := D) u tol vS vT fS fT) (hc : Constructed hs) (hpre : PredefinedSpaces hs)
    (e : Expr (Gen ι) S) (he : ActsOn hs e) :
    ∃ op, LOperator.make e hs = .ok op ∧ ∀ (src : V) (dst : W), FloatSV.inv src → FloatSV.inv dst →
      (∀ k ∈ FloatSV.visited src, ValidState hs k) →
      (∀ k ∈ FloatSV.visited src, ∀ p ∈ e.terms, ∀ t, ValidState hs t → matEl hs p.1 t k ≠ 0 → t ∈ FloatSV.dom dst) →
      ∃ dst', Flo.applyTo op src dst = .ok dst' ∧ FloatSV.inv dst' ∧ FloatSV.dom dst' = FloatSV.dom dst ∧
        ∀ t, fT (FloatSV.amp dst' t) →
          ‖vT (FloatSV.amp dst' t) - opApply hs (e.values vS) (fun k => vT (FloatSV.amp src k)) t‖ ≤
            ((1 + u) ^ (e.terms.length + 3 * e.degree + 2) - 1) *
                ∑ k ∈ basisStates hs, absEl hs (e.values vS) t k * ‖vT (FloatSV.amp src k)‖
              + tol * ∑ k ∈ basisStates hs with AmpOps.isZero (FloatSV.amp src k) = true, absEl hs (e.values vS) t k
              + dropErr u tol (FloatSV.drop W) e.terms.length := by
  obtain ⟨op, hop⟩ := make_ok hc hpre he
  refine ⟨op, hop, fun src dst h1 h2 h3 h4 => ?_⟩
  obtain ⟨z1, z2, z3⟩ := FloatSV.zero dst h2
  obtain ⟨w, e1, e2, e3, e4⟩ := Flo.actImpl_bound R hc hpre hop (fun p hp => (he p hp).1) src (StateVec.setZeros dst)
    h1 z1 z3 h3 (by rw [z2]; exact h4)
  exact ⟨w, e1, e2, e3.trans z2, e4⟩

/-- **C98** The same for `op(sv)`, `op * sv`. -/
theorem C98_error_bound_value [ZerosLike V] [FloatZeros V] (R : Rounding (D := D) u tol vS vT fS fT) (hc : Constructed hs)
    (hpre : PredefinedSpaces hs) (e : Expr (Gen ι) S) (he : ActsOn hs e) :
    ∃ op, LOperator.make e hs = .ok op ∧ ∀ sv : V, FloatSV.inv sv →
      (∀ k ∈ FloatSV.visited sv, ValidState hs k) →
      (∀ k ∈ FloatSV.visited sv, ∀ p ∈ e.terms, ∀ t, ValidState hs t → matEl hs p.1 t k ≠ 0 → t ∈ FloatSV.dom sv) →
      ∃ sv', Flo.apply op sv = .ok sv' ∧ FloatSV.inv sv' ∧ FloatSV.dom sv' = FloatSV.dom sv ∧
        ∀ t, fT (FloatSV.amp sv' t) →
          ‖vT (FloatSV.amp sv' t) - opApply hs (e.values vS) (fun k => vT (FloatSV.amp sv k)) t‖ ≤
            ((1 + u) ^ (e.terms.length + 3 * e.degree + 2) - 1) *
                ∑ k ∈ basisStates hs, absEl hs (e.values vS) t k * ‖vT (FloatSV.amp sv k)‖
              + tol * ∑ k ∈ basisStates hs with AmpOps.isZero (FloatSV.amp sv k) = true, absEl hs (e.values vS) t k
              + dropErr u tol (FloatSV.drop V) e.terms.length := by
  obtain ⟨op, hop⟩ := make_ok hc hpre he
  refine ⟨op, hop, fun sv h1 h3 h4 => ?_⟩
  obtain ⟨z1, z2, z3⟩ := FloatZeros.zeros sv h1
  obtain ⟨w, e1, e2, e3, e4⟩ := Flo.actImpl_bound R hc hpre hop (fun p hp => (he p hp).1) sv (ZerosLike.zerosLike sv)
    h1 z1 z3 h3 (by rw [z2]; exact h4)
  exact ⟨w, e1, e2, e3.trans z2, e4⟩

/-- **C98** `std::vector`s with `vec_size()` elements that pass `is_zero` at indices that are not basis states. -/
theorem C98_dense (R : Rounding (D := D) u tol vS vT fS fT) (hc : Constructed hs) (hpre : PredefinedSpaces hs)
    (e : Expr (Gen ι) S) (he : ActsOn hs e) :
    ∃ op, LOperator.make e hs = .ok op ∧ ∀ sv : FloVec T, sv.data.length = hs.vecSize →
      (∀ k, k < hs.vecSize → AmpOps.isZero (sv.data.getD k AmpOps.zero) = false → ValidState hs k) →
      ∃ sv', Flo.apply op sv = .ok sv' ∧ sv'.data.length = hs.vecSize ∧
        ∀ t, fT (sv'.data.getD t AmpOps.zero) →
          ‖vT (sv'.data.getD t AmpOps.zero) - opApply hs (e.values vS) (fun k => vT (sv.data.getD k AmpOps.zero)) t‖ ≤
            ((1 + u) ^ (e.terms.length + 3 * e.degree + 2) - 1) *
                ∑ k ∈ basisStates hs, absEl hs (e.values vS) t k * ‖vT (sv.data.getD k AmpOps.zero)‖
              + tol * ∑ k ∈ basisStates hs with AmpOps.isZero (sv.data.getD k AmpOps.zero) = true, absEl hs (e.values vS) t k := by
  obtain ⟨op, hop, h⟩ := C98_error_bound_value (V := FloVec T) R hc hpre e he
  refine ⟨op, hop, fun sv hlen hv => ?_⟩
  have h63 := (C26_bit_ranges hs hc).2.2.1
  have hvs : hs.vecSize = 2 ^ hs.totalNBits.toNat := by unfold vecSize; rw [pow2_eq (by omega)]
  obtain ⟨sv', h1, _, h2, h3⟩ := h sv trivial (fun k hk => hv k (hlen ▸ hk.1) hk.2) (fun _ _ _ _ t ht _ => by
    show t < sv.data.length
    rw [hlen, hvs]; exact ht.1)
  refine ⟨sv', h1, ?_, fun t ht => ?_⟩
  · have : ∀ n, n < sv'.data.length ↔ n < sv.data.length := fun n => by
      have := congrArg (n ∈ ·) h2
      exact iff_of_eq this
    have e1 := this sv.data.length
    have e2 := this sv'.data.length
    omega
  · have := h3 t ht
    simpa [dropErr, FloatSV.drop, FloatSV.amp] using this

/-- **C98** `sparse_state_vector`s with stored amplitudes at basis states only. -/
theorem C98_sparse {H : Type _} [HashImpl H Nat T] (R : Rounding (D := D) u tol vS vT fS fT) (hc : Constructed hs)
    (hpre : PredefinedSpaces hs) (e : Expr (Gen ι) S) (he : ActsOn hs e) :
    ∃ op, LOperator.make e hs = .ok op ∧ ∀ sv : FloSparse H T, (sv.data.items.map Prod.fst).Nodup →
      (∀ k, sv.data.find? k ≠ none → ValidState hs k) →
      ∃ sv', Flo.apply op sv = .ok sv' ∧ (sv'.data.items.map Prod.fst).Nodup ∧
        ∀ t, fT (sv'.getElement t) →
          ‖vT (sv'.getElement t) - opApply hs (e.values vS) (fun k => vT (sv.getElement k)) t‖ ≤
            ((1 + u) ^ (e.terms.length + 3 * e.degree + 2) - 1) *
                ∑ k ∈ basisStates hs, absEl hs (e.values vS) t k * ‖vT (sv.getElement k)‖
              + tol * ∑ k ∈ basisStates hs with AmpOps.isZero (sv.getElement k) = true, absEl hs (e.values vS) t k
              + tol * e.terms.length * (1 + u) ^ e.terms.length := by
  obtain ⟨op, hop, h⟩ := C98_error_bound_value (V := FloSparse H T) R hc hpre e he
  refine ⟨op, hop, fun sv hn hv => ?_⟩
  obtain ⟨sv', h1, h2, _, h3⟩ := h sv hn hv (fun _ _ _ _ t _ _ => Set.mem_univ _)
  refine ⟨sv', h1, h2, fun t ht => ?_⟩
  have := h3 t ht
  simpa [dropErr, FloatSV.drop, FloatSV.amp] using this

/-- **C98** Every expression that a program builds, with any mixture of scalar types, over the generators of `hs`. -/
theorem C98_programs {U : Type _} {El : U → Type _} [ScalarFamily U El] {s : U} [CoefOps D (El s) T] {vS : El s → 𝕜}
    {fS : El s → Prop} (R : Rounding (D := D) u tol vS vT fS fT) {M : Nat → ι → Prop} (hM : HalfAlone M) (hc : Constructed hs)
    (hpre : PredefinedSpaces hs) (e : Expr (Gen ι) (El s)) (he : MixedReachable (InSpace M hs) s e) :
    ∃ op, LOperator.make e hs = .ok op ∧ ∀ sv : FloVec T, sv.data.length = hs.vecSize →
      (∀ k, k < hs.vecSize → AmpOps.isZero (sv.data.getD k AmpOps.zero) = false → ValidState hs k) →
      ∃ sv', Flo.apply op sv = .ok sv' ∧ sv'.data.length = hs.vecSize ∧
        ∀ t, fT (sv'.data.getD t AmpOps.zero) →
          ‖vT (sv'.data.getD t AmpOps.zero) - opApply hs (e.values vS) (fun k => vT (sv.data.getD k AmpOps.zero)) t‖ ≤
            ((1 + u) ^ (e.terms.length + 3 * e.degree + 2) - 1) *
                ∑ k ∈ basisStates hs, absEl hs (e.values vS) t k * ‖vT (sv.data.getD k AmpOps.zero)‖
              + tol * ∑ k ∈ basisStates hs with AmpOps.isZero (sv.data.getD k AmpOps.zero) = true, absEl hs (e.values vS) t k :=
  C98_dense R hc hpre e fun p hp =>
    have h := (good_mixedReachable (Any.monInv_canon (nfGen_on hM)) conjOK_on.mem he).canon p hp
    ⟨canonicalMonomial_of_chain h.chain, fun g hg => (h.mem g hg).2⟩

/-- **C98** In exact arithmetic with an exact zero test the result is exact. -/
theorem C98_exact_limit (R : Rounding (D := D) 0 0 vS vT fS fT) (hc : Constructed hs) (hpre : PredefinedSpaces hs)
    (e : Expr (Gen ι) S) (he : ActsOn hs e) :
    ∃ op, LOperator.make e hs = .ok op ∧ ∀ sv : FloVec T, sv.data.length = hs.vecSize →
      (∀ k, k < hs.vecSize → AmpOps.isZero (sv.data.getD k AmpOps.zero) = false → ValidState hs k) →
      ∃ sv', Flo.apply op sv = .ok sv' ∧ ∀ t, fT (sv'.data.getD t AmpOps.zero) →
        vT (sv'.data.getD t AmpOps.zero) = opApply hs (e.values vS) (fun k => vT (sv.data.getD k AmpOps.zero)) t := by
  obtain ⟨op, hop, h⟩ := C98_dense R hc hpre e he
  refine ⟨op, hop, fun sv h1 h2 => ?_⟩
  obtain ⟨sv', e1, _, e2⟩ := h sv h1 h2
  refine ⟨sv', e1, fun t ht => ?_⟩
  have := e2 t ht
  simp only [add_zero, one_pow, sub_self, zero_mul, norm_le_zero_iff] at this
  exact sub_eq_zero.1 this

/-- The factor in the bound is of first order in `u`: at most `2 n u` as long as `n u ≤ 1`. -/
theorem C98_first_order (n : Nat) (hu : 0 ≤ u) (hn : n * u ≤ 1) : (1 + u) ^ n - 1 ≤ 2 * n * u := by
  have h1 : (1 + u) ^ n ≤ Real.exp (n * u) := by
    rw [Real.exp_nat_mul]
    exact pow_le_pow_left₀ (by linarith) (by linarith [Real.add_one_le_exp u]) n
  have h0 : 0 ≤ n * u := by positivity
  have h2 := Real.abs_exp_sub_one_le (x := n * u) (by rw [abs_of_nonneg h0]; exact hn)
  rw [abs_of_nonneg h0] at h2
  have := (abs_le.1 h2).2
  linarith

/-- **C98** (finding F43) The second term of the bound is real: amplitudes of a `std::vector` that pass `is_zero` are skipped,
however large the operator. A vector that consists of such amplitudes is mapped to zero. -/
theorem C98_tiny_amplitudes_are_lost (op : LOperator S) (v : FloVec T) (h : ∀ a ∈ v.data, AmpOps.isZero a = true) :
    Flo.apply op v = .ok ⟨List.replicate v.data.length AmpOps.zero⟩ := by
  have : ∀ (l : List T) n, (∀ a ∈ l, AmpOps.isZero a = true) → FloVec.foreachFrom n l = [] := by
    intro l
    induction l with
    | nil => intro n _; rfl
    | cons a l ih => intro n hl; rw [FloVec.foreachFrom, if_pos (hl a (by simp)), ih _ fun b hb => hl b (by simp [hb])]
  simp only [Flo.apply, Flo.actImpl, StateVec.foreach, this v.data 0 h, Flo.applyAll, ZerosLike.zerosLike]

/-! ### The hypotheses can be met: an arithmetic that rounds and overflows -/

namespace Sloppy
/-- Real numbers below `10^300` in absolute value; `none` is an overflow. -/
abbrev Num := Option ℝ

/-- The unit roundoff of `double`. -/
noncomputable def eps : ℝ := 2⁻¹ ^ 53
theorem eps_pos : 0 < eps := by unfold eps; positivity

/-- Rounding away from zero, or overflow. -/
noncomputable def rnd (x : ℝ) : Num := if |x * (1 + eps)| ≤ 10 ^ 300 then some (x * (1 + eps)) else none

noncomputable def val (x : Num) : ℝ := x.getD 0
abbrev fin (x : Num) : Prop := x ≠ none

noncomputable instance : AmpOps Num where
  zero := some 0
  isZero x := match x with | none => false | some a => decide (|a| < 100 * (2 * eps))
  add x y := x.bind fun a => y.bind fun b => rnd (a + b)

noncomputable instance : CoefOps ℝ Num Num where
  const := some
  mul x y := x.bind fun a => y.bind fun b => rnd (a * b)
  scale x y := x.bind fun a => y.bind fun b => rnd (a * b)
  one := 1
  minusOne := -1
  sqrt n := Real.sqrt n * (1 + eps)
  pow x n := x ^ n * (1 + eps)

theorem rnd_err {x : ℝ} (h : rnd x ≠ none) : ‖val (rnd x) - x‖ ≤ eps * ‖x‖ := by
  unfold rnd at *
  split at h
  · next hx =>
    rw [if_pos hx]
    have : val (some (x * (1 + eps))) - x = eps * x := by simp only [val, Option.getD_some]; ring
    rw [this, norm_mul, Real.norm_of_nonneg eps_pos.le]
  · exact absurd rfl h

theorem two_steps {x : ℝ} : ‖x * (1 + eps) - x‖ ≤ ((1 + eps) ^ 2 - 1) * ‖x‖ := by
  have e : x * (1 + eps) - x = eps * x := by ring
  rw [e, norm_mul, Real.norm_of_nonneg eps_pos.le]
  have := eps_pos
  have := norm_nonneg x
  nlinarith [mul_nonneg (mul_nonneg eps_pos.le eps_pos.le) (norm_nonneg x), mul_nonneg eps_pos.le (norm_nonneg x)]

theorem rounding : Rounding (D := ℝ) eps (100 * (2 * eps)) val val fin fin where
  u_nonneg := eps_pos.le
  tol_nonneg := by have := eps_pos; positivity
  mul a b h := by
    cases a with
    | none => exact absurd rfl h
    | some a =>
      cases b with
      | none => exact absurd rfl h
      | some b => exact ⟨by simp, by simp, rnd_err h⟩
  scale a b h := by
    cases a with
    | none => exact absurd rfl h
    | some a =>
      cases b with
      | none => exact absurd rfl h
      | some b => exact ⟨by simp, by simp, rnd_err h⟩
  add a b h := by
    cases a with
    | none => exact absurd rfl h
    | some a =>
      cases b with
      | none => exact absurd rfl h
      | some b => exact ⟨by simp, by simp, rnd_err h⟩
  one := rfl
  minusOne := rfl
  sqrt n _ := by
    have := two_steps (x := Real.sqrt n)
    rwa [Real.norm_of_nonneg (Real.sqrt_nonneg _)] at this
  pow x n _ := two_steps
  zero := ⟨by simp [AmpOps.zero], rfl⟩
  isZero a h := by
    cases a with
    | none => simp [AmpOps.isZero] at h
    | some a => exact ⟨by simp, by simp [AmpOps.isZero] at h; simp [val]; linarith⟩

/-- An operator with two terms on a Hilbert space with fermions, bosons and a spin: `C98_dense`, `C98_sparse` apply. -/
theorem c98_hypotheses : ∃ hs : HilbertSpace Nat, Constructed hs ∧ PredefinedSpaces hs ∧
    ActsOn hs (⟨[([], some 3), (actMonomial, some (1 / 7))]⟩ : Expr (Gen Nat) Num) ∧ ∃ k, ValidState hs k ∧ k ≠ 0 := by
  obtain ⟨hs, hof, hc, hpre, hm, _, hv⟩ := act_hypotheses
  have hhas : ∀ g ∈ actMonomial, hs.has g.mode.space = true := by
    have : ∀ g ∈ actMonomial, ((HilbertSpace.ofArgs actSpaces).toOption.map fun hs => hs.has g.mode.space) = some true := by
      decide +kernel
    intro g hg
    have := this g hg
    rw [hof] at this
    simpa [Except.toOption] using this
  refine ⟨hs, hc, hpre, fun p hp => ?_, _, hv, by decide⟩
  simp only [List.mem_cons, List.not_mem_nil, or_false] at hp
  rcases hp with rfl | rfl
  · exact ⟨⟨[], [], [], rfl, ⟨[], [], rfl, by simp, by simp⟩, by simp, by simp⟩, by simp⟩
  · exact ⟨hm, hhas⟩

end Sloppy
end LC
