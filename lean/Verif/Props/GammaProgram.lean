import Verif.Props.GammaAction
/-
C119: the program examples/gamma.expression.cpp. Printing is left out; coefficients are exact.
-/
set_option linter.unusedSectionVars false
set_option linter.unusedSimpArgs false
namespace LC
open Expr Terms
namespace GammaProgram
universe v
variable {S : Type v} [CommRing S] [DecidableEq S] [ConstScalar S]

/-- `eta` (examples/gamma.expression.cpp:29-32). -/
def eta (mu nu : Int) : S := if mu ≠ nu then 0 else if mu = 0 then 1 else -1

/-- The indices of the loops (examples/gamma.expression.cpp:35-36, 57). -/
def idx : List Int := [0, 1, 2, 3]

variable [ScalarLaws S] [IsDomain S] [CharZero S] [StarRing S]

/-- The expressions printed by examples/gamma.expression.cpp, in order: lines 35-45, 53 and 56-60. `im` is `I`. -/
def printed (im : S) : List (Expr (AllGen Int GammaGen) S) :=
  (idx.flatMap fun mu => idx.map fun nu =>
    subScalar (makeGamma mu * makeGamma nu + makeGamma nu * makeGamma mu) (2 * eta mu nu)) ++
  [gamma5 im - (gamma5 im).conj] ++
  idx.map fun mu => gamma5 im * makeGamma mu + makeGamma mu * gamma5 im

theorem r (i : Int) : Reachable FBSU (makeGamma i : Expr (AllGen Int GammaGen) S) := makeGamma_reachable i

theorem r5 (im : S) : Reachable FBSU (gamma5 im) := (((Reachable.smulPrefix im (r 0)).mul (r 1)).mul (r 2)).mul (r 3)

theorem anti {A : Type _} [Ring A] [Algebra S A] (g : Int → A) (h : ∀ m n, m ≠ n → g m * g n = - (g n * g m)) (x : S) {mu : Int} (hmu : mu ∈ idx) :
    (x • g 0 * g 1 * g 2 * g 3) * g mu + g mu * (x • g 0 * g 1 * g 2 * g 3) = 0 := by
  have s : ∀ m n : Int, m ≠ n → ∀ y, g m * (g n * y) = - (g n * (g m * y)) := fun m n hmn y => by rw [← mul_assoc, h m n hmn, neg_mul, mul_assoc]
  simp only [smul_mul_assoc, mul_smul_comm, ← smul_add]
  have : g 0 * g 1 * g 2 * g 3 * g mu + g mu * (g 0 * g 1 * g 2 * g 3) = 0 := by
    simp only [idx, List.mem_cons, List.not_mem_nil, or_false] at hmu
    simp only [mul_assoc]
    rcases hmu with rfl | rfl | rfl | rfl <;>
      simp [mul_assoc, h 1 0 (by decide), h 2 0 (by decide), h 3 0 (by decide), h 2 1 (by decide), h 3 1 (by decide), h 3 2 (by decide), s 1 0 (by decide),
        s 2 0 (by decide), s 3 0 (by decide), s 2 1 (by decide), s 3 1 (by decide), s 3 2 (by decide)]
  rw [this, smul_zero]

theorem rev {A : Type _} [Ring A] [Algebra S A] (g : Int → A) (h : ∀ m n, m ≠ n → g m * g n = - (g n * g m)) :
    g 3 * (g 2 * (g 1 * g 0)) = g 0 * g 1 * g 2 * g 3 := by
  have s : ∀ m n : Int, m ≠ n → ∀ y, g m * (g n * y) = - (g n * (g m * y)) := fun m n hmn y => by rw [← mul_assoc, h m n hmn, neg_mul, mul_assoc]
  simp [mul_assoc, h 1 0 (by decide), h 2 0 (by decide), h 3 0 (by decide), h 2 1 (by decide), h 3 1 (by decide), h 3 2 (by decide), s 1 0 (by decide),
        s 2 0 (by decide), s 3 0 (by decide), s 2 1 (by decide), s 3 1 (by decide), s 3 2 (by decide)]


/-- The operators of a realisation anticommute. -/
theorem ops_anti {A : Type _} [Ring A] [Algebra S A] {ρ : AllGen Int GammaGen → A} (hρ : Realisation S (Reg.halfOnly (ι := Int)) ρ) (m n : Int) (hmn : m ≠ n) :
    evalExpr ρ (makeGamma m : Expr (AllGen Int GammaGen) S) * evalExpr ρ (makeGamma n : Expr (AllGen Int GammaGen) S) =
      - (evalExpr ρ (makeGamma n : Expr (AllGen Int GammaGen) S) * evalExpr ρ (makeGamma m : Expr (AllGen Int GammaGen) S)) := by
  have := AllGen.lawful (ι := Int) gamma_order
  have h := gamma_complete (S := S)
  have hR := AllGen.represents gamma_order Reg.halfAlone hρ
  have hc := congrArg (evalExpr ρ) ((eqOp_iff _ _).1 (C75_clifford (ι := Int) (S := S) m n))
  rw [if_neg hmn, eval_add, eval_mul hR (h.inP (r m)) (h.inP (r n)), eval_mul hR (h.inP (r n)) (h.inP (r m)), eval_const, map_zero] at hc
  exact eq_neg_of_add_eq_zero_left hc

theorem eval5 {A : Type _} [Ring A] [Algebra S A] {ρ : AllGen Int GammaGen → A} (hρ : Realisation S (Reg.halfOnly (ι := Int)) ρ) (im : S) :
    evalExpr ρ (gamma5 im) = im • evalExpr ρ (makeGamma 0 : Expr (AllGen Int GammaGen) S) * evalExpr ρ (makeGamma 1 : Expr (AllGen Int GammaGen) S) *
      evalExpr ρ (makeGamma 2 : Expr (AllGen Int GammaGen) S) * evalExpr ρ (makeGamma 3 : Expr (AllGen Int GammaGen) S) := by
  have := AllGen.lawful (ι := Int) gamma_order
  have h := gamma_complete (S := S)
  have hR := AllGen.represents gamma_order Reg.halfAlone hρ
  have r0 := Reachable.smulPrefix im (r (S := S) 0)
  have r1 := r0.mul (r 1)
  have r2 := r1.mul (r 2)
  rw [gamma5, eval_mul hR (h.inP r2) (h.inP (r 3)), eval_mul hR (h.inP r1) (h.inP (r 2)), eval_mul hR (h.inP r0) (h.inP (r 1)), eval_smul]

/-- **C119** `γ⁵` is Hermitian. -/
theorem C119_gamma5_hermitian {im : S} (him : star im = -im) : (gamma5 im).conj.eqOp (gamma5 im) = true := by
  have := AllGen.lawful (ι := Int) gamma_order
  have h := gamma_complete (S := S)
  have cj : ∀ mu : Int, (makeGamma mu : Expr (AllGen Int GammaGen) S).conj = (if mu = 0 then (1 : S) else -1) • makeGamma mu :=
    fun mu => (eqOp_iff _ _).1 (C75_gamma_conj mu)
  have r0 := Reachable.smulPrefix im (r (S := S) 0)
  have r1 := r0.mul (r 1)
  have r2 := r1.mul (r 2)
  obtain ⟨A, _, _, ρ, hρ, ext, -⟩ := h.model (ι := Int)
  have hR := AllGen.represents gamma_order Reg.halfAlone hρ
  rw [eqOp_iff]
  refine ext _ _ (r5 im).conj (r5 im) ?_
  have mulc : ∀ {a b : Expr (AllGen Int GammaGen) S}, Reachable FBSU a → Reachable FBSU b → (a * b).conj = b.conj * a.conj :=
    fun ha hb => (eqOp_iff _ _).1 (C74_gamma 0 ha hb hb).2.2.2.2
  have smc : (smulPrefix im (makeGamma 0) : Expr (AllGen Int GammaGen) S).conj = star im • (makeGamma 0 : Expr (AllGen Int GammaGen) S).conj :=
    (eqOp_iff _ _).1 (C74_gamma im (r 0) (r 0) (r 0)).2.2.2.1
  have ev : ∀ (x : S) (e : Expr (AllGen Int GammaGen) S), evalExpr ρ (x • e) = x • evalExpr ρ e := fun x e => eval_smul x e
  rw [eval5 hρ, gamma5, mulc r2 (r 3), mulc r1 (r 2), mulc r0 (r 1), smc]
  have rc0 : Reachable FBSU (star im • (makeGamma 0 : Expr (AllGen Int GammaGen) S).conj) := .smulPrefix _ (r 0).conj
  rw [eval_mul hR (h.inP (r 3).conj) (h.inP (.mul (r 2).conj (.mul (r 1).conj rc0))),
    eval_mul hR (h.inP (r 2).conj) (h.inP (.mul (r 1).conj rc0)),
    eval_mul hR (h.inP (r 1).conj) (h.inP rc0), ev, cj 0, cj 1, cj 2, cj 3]
  simp only [ev, him]
  have hr := rev (S := S) _ (ops_anti hρ)
  norm_num
  rw [hr]

/-- **C119** `γ⁵` anticommutes with the four gamma matrices. -/
theorem C119_gamma5_anticommutes (im : S) {mu : Int} (hmu : mu ∈ idx) :
    (gamma5 im * makeGamma mu + makeGamma mu * gamma5 im : Expr (AllGen Int GammaGen) S).eqOp 0 = true := by
  have := AllGen.lawful (ι := Int) gamma_order
  have h := gamma_complete (S := S)
  obtain ⟨A, _, _, ρ, hρ, ext, -⟩ := h.model (ι := Int)
  have hR := AllGen.represents gamma_order Reg.halfAlone hρ
  rw [eqOp_iff]
  refine ext _ _ (.add (.mul (r5 im) (r mu)) (.mul (r mu) (r5 im))) .zero ?_
  rw [eval_add, eval_mul hR (h.inP (r5 im)) (h.inP (r mu)), eval_mul hR (h.inP (r mu)) (h.inP (r5 im)), eval5 hρ, eval_zero]
  exact anti _ (ops_anti hρ) im hmu

/-- **C119** All 21 expressions that the program prints are zero. -/
theorem C119_all_zero {im : S} (him : star im = -im) : (printed im).length = 21 ∧ ∀ e ∈ printed im, e.eqOp 0 = true := by
  have := AllGen.lawful (ι := Int) gamma_order
  have := AllGen.goodGen (ι := Int) gamma_order gamma_noZeros
  have hself : ∀ e : Expr (AllGen Int GammaGen) S, e.WF → e - e = 0 := fun e he =>
    ext_coeff (wf_sub he he) wf_zero fun k => by rw [coeff_sub he he, sub_self]; rfl
  refine ⟨rfl, fun e he => ?_⟩
  simp only [printed, List.mem_append, List.mem_flatMap, List.mem_map, List.mem_singleton] at he
  rcases he with (⟨mu, -, nu, -, rfl⟩ | rfl) | ⟨mu, hmu, rfl⟩
  · rw [eqOp_iff, subScalar_eq, (eqOp_iff _ _).1 (C75_clifford mu nu)]
    have : (if mu = nu then (if mu = 0 then 2 else -2) else 0 : S) = 2 * eta mu nu := by
      rw [eta]; split_ifs <;> simp_all
    rw [this]
    exact hself _ (wf_const _)
  · rw [eqOp_iff, (eqOp_iff _ _).1 (C119_gamma5_hermitian him)]
    exact hself _ (gamma_complete.wf (r5 im))
  · exact C119_gamma5_anticommutes im hmu

theorem terms_mul_single {m : List (AllGen Int GammaGen)} {g : AllGen Int GammaGen} {x : S} (hx : x ≠ 0) {a : Expr (AllGen Int GammaGen) S} (ha : a.terms = [(m, x)])
    (hc : CanonMon (AllowedAll Reg.halfOnly) (m ++ [g])) : (a * ofMonomial 1 [g]).terms = [(m ++ [g], x)] := by
  have := AllGen.lawful (ι := Int) gamma_order
  have h1 : (ofMonomial 1 [g] : Expr (AllGen Int GammaGen) S).terms = [([g], 1)] := ofMonomial_single_terms _
  have hN : NFGen (AllowedAll (Reg.halfOnly (ι := Int)) (U := GammaGen)) := AllGen.nfGenAll Reg.halfAlone gamma_order gamma_confluent
  rw [mul_def, ha, h1]
  simp [mulLog, emits_of_canon hN _ hc x hx, Terms.storeAll, Terms.store, Terms.find?, Terms.emplace]

/-- **C119** `γ⁵` is the product of the four matrices in this order, with coefficient `I`. -/
theorem C119_gamma5_terms {im : S} (h0 : im ≠ 0) : (gamma5 im).terms = [([.user ⟨0⟩, .user ⟨1⟩, .user ⟨2⟩, .user ⟨3⟩], im)] := by
  have := AllGen.lawful (ι := Int) gamma_order
  have h1 : (smulPrefix im (makeGamma 0) : Expr (AllGen Int GammaGen) S).terms = [([.user ⟨0⟩], im)] := by
    have : (makeGamma 0 : Expr (AllGen Int GammaGen) S).terms = [([.user ⟨0⟩], 1)] := ofMonomial_single_terms _
    simp [smulPrefix, this, h0]
  refine terms_mul_single h0 (terms_mul_single h0 (terms_mul_single h0 h1 ?_) ?_) ?_
  all_goals
    refine ⟨fun g hg => ?_, ?_, fun g hg p hp hle => ?_⟩
    · simp at hg; rcases hg with rfl | rfl | rfl | rfl <;> trivial
    · simp [OKPair, GenOps.gt, GenOps.simplifyProd]; decide
    · simp at hg; rcases hg with rfl | rfl | rfl | rfl <;> rfl

open scoped Classical in
/-- Not vacuous: the complex numbers, as in the program. -/
theorem c119_hypotheses : star Complex.I = -Complex.I ∧ (gamma5 Complex.I).terms.length = 1 ∧ ∀ e ∈ printed Complex.I, e.eqOp 0 = true :=
  ⟨Complex.conj_I, by rw [C119_gamma5_terms Complex.I_ne_zero]; rfl, (C119_all_zero Complex.conj_I).2⟩

end GammaProgram
end LC
