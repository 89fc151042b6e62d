import Mathlib.LinearAlgebra.Complex.Module
import Verif.Props.UserAction
import Verif.Proof.GammaAction
/-
C79, C80 for the gamma matrices of examples/gamma.loperator.cpp; findings F29, F30; non-vacuity of C79 and C80.
-/
set_option linter.unusedSectionVars false
namespace LC
open HilbertSpace Expr Matrix
variable {S : Type _} [CommRing S] [DecidableEq S] [ConstScalar S] [ScalarLaws S] [IsDomain S] [CharZero S] [Star S]

/-- Dirac's matrices for the generators `γ_μ`. -/
def diracRep (im : S) : AllGen Int GammaGen → Matrix (Fin 4) (Fin 4) S
  | .pre _ => 0
  | .user u => dirac im u.index

theorem gammaMatrix_expr {hs : HilbertSpace Int} (h : IsGammaHS hs) (im : S) (e : Expr (AllGen Int GammaGen) S) :
    evalExpr (gammaMatrix h im) e = (evalExpr (diracRep im) e).submatrix (gammaStates h) (gammaStates h) := by
  classical
  let f := Matrix.reindexAlgEquiv S S (gammaStates h).symm
  have hf : ∀ A : Matrix (Fin 4) (Fin 4) S, f A = A.submatrix (gammaStates h) (gammaStates h) := fun A => rfl
  have hg : ∀ g, gammaMatrix h im g = f (diracRep im g) := by
    intro g
    cases g with
    | pre g => exact (map_zero f).symm
    | user u => rfl
  have hm : ∀ m, evalMon (gammaMatrix h im) m = f (evalMon (diracRep im) m) := by
    intro m
    unfold evalMon
    rw [map_list_prod, List.map_map]
    exact congrArg List.prod (List.map_congr_left fun g _ => hg g)
  rw [← hf]
  unfold evalExpr evalTerms
  rw [map_list_sum, List.map_map]
  refine congrArg List.sum (List.map_congr_left fun p _ => ?_)
  simp only [Function.comp, map_smul, hm]

theorem isGamma_known (im : S) (g : AllGen Int GammaGen) (hg : IsGamma g) :
    Known [gammaClass im] IsGamma g := by
  cases g with
  | pre g => exact hg.elim
  | user u => exact ⟨hg, gammaClass im, by simp, rfl⟩

theorem isGamma_comm {hs : HilbertSpace Int} (h : IsGammaHS hs) (im : S) : ∀ g k, IsGamma g → IsGamma k → g.algebraId ≠ k.algebraId →
    gammaMatrix h im g * gammaMatrix h im k = gammaMatrix h im k * gammaMatrix h im g := by
  intro g k hg hk hne
  cases g with
  | pre g => exact hg.elim
  | user u =>
    cases k with
    | pre k => exact hk.elim
    | user v => exact absurd rfl hne

/-- **C79** For the gamma matrices: `loperator<S, gamma>(e, hs)` of any expression made of `γ⁰`, …, `γ³` acts on spinors as the
expression of Dirac's matrices. -/
theorem C79_gamma {hs : HilbertSpace Int} (h : IsGammaHS hs) (im : S) (e : Expr (AllGen Int GammaGen) S) (he : Reachable IsGamma e) :
    ∃ op, UserLOperator.make [gammaClass im] e hs = .ok op ∧
      ∀ v : Fin 4 → S, op.apply (⟨List.ofFn v⟩ : DenseSV S) = .ok ⟨List.ofFn (evalExpr (diracRep im) e *ᵥ v)⟩ := by
  classical
  have := AllGen.lawful (ι := Int) gamma_order
  have := AllGen.goodGen (ι := Int) gamma_order gamma_noZeros
  have hin : e.InP IsGamma := he.inP gamma_closedGen gamma_conjOK
  obtain ⟨op, hop, h1⟩ := C79_dense (T := S) (M := fun _ _ => False) gamma_order gamma_noZeros gamma_confluent (fun _ _ h => h.elim)
    (Cs := [gammaClass im]) (by simp) (fun C hC => by rw [List.mem_singleton.1 hC]; exact gammaClass_contract h im)
    (isGamma_comm h im) e
    (Reachable.mono (P' := AllowedAll fun _ _ => False) (fun g hg => by cases g with
      | pre g => exact hg.elim
      | user u => trivial) he)
    fun p hp g hg => isGamma_known im g (hin p hp g hg)
  refine ⟨op, hop, fun v => ?_⟩
  obtain ⟨sv, e1, e2, e3⟩ := h1 ⟨List.ofFn v⟩ (fun t ht => by simpa using (gammaHS_valid h t).1 ht) (fun k hk => by
    rw [gammaHS_valid h]
    by_contra hn
    exact hk (by simp [List.getD, hn]))
  rw [e1]
  congr 1
  obtain ⟨d⟩ := sv
  congr 1
  refine List.ext_getElem (by simpa using e2) fun i i1 i2 => ?_
  have hi : i < 4 := by simpa using i2
  have e4 := e3 i
  rw [show d.getD i 0 = d[i] by simp [i1], gammaMatrix_expr h] at e4
  simp only at e4
  rw [e4, matVec, dif_pos ((gammaHS_valid h i).2 hi)]
  simp only [List.getElem_ofFn, Matrix.mulVec, dotProduct]
  rw [← Equiv.sum_comp (gammaStates h).symm]
  refine Finset.sum_congr rfl fun k _ => ?_
  rw [Matrix.submatrix_apply, smul_eq_mul]
  congr 1
  change (List.ofFn v).getD k.1 0 = v k
  rw [List.getD, List.getElem?_ofFn, dif_pos k.2]
  rfl

/-- **C80** For the gamma matrices, products of expressions correspond to products of operators. -/
theorem C80_gamma_products {hs : HilbertSpace Int} (h : IsGammaHS hs) {im : S} (him : im * im = -1) (a b : Expr (AllGen Int GammaGen) S)
    (ha : Reachable IsGamma a) (hb : Reachable IsGamma b) :
    ∃ opA opB opAB, UserLOperator.make [gammaClass im] a hs = .ok opA ∧ UserLOperator.make [gammaClass im] b hs = .ok opB ∧
      UserLOperator.make [gammaClass im] (a * b) hs = .ok opAB ∧
      ∀ v : Fin 4 → S, ∃ vb vab, opB.apply (⟨List.ofFn v⟩ : DenseSV S) = .ok vb ∧ opA.apply vb = .ok vab ∧
        opAB.apply (⟨List.ofFn v⟩ : DenseSV S) = .ok vab := by
  have := AllGen.lawful (ι := Int) gamma_order
  have := AllGen.goodGen (ι := Int) gamma_order gamma_noZeros
  have up : ∀ {e : Expr (AllGen Int GammaGen) S}, Reachable IsGamma e → Reachable (AllowedAll fun _ _ => False) e := fun he =>
    Reachable.mono (P' := AllowedAll fun _ _ => False) (fun g hg => by cases g with
      | pre g => exact hg.elim
      | user u => trivial) he
  obtain ⟨oa, ob, oab, h1, h2, h3, h4⟩ := C80_products (T := S) (M := fun _ _ => False) gamma_order gamma_noZeros gamma_confluent
    (fun _ _ h => h.elim) (Cs := [gammaClass im]) (by simp)
    (fun C hC => by rw [List.mem_singleton.1 hC]; exact gammaClass_contract h im) (isGamma_comm h im) (gamma_represents h him)
    (isGamma_known im) a b (up ha) (up hb) (ha.inP gamma_closedGen gamma_conjOK) (hb.inP gamma_closedGen gamma_conjOK)
  refine ⟨oa, ob, oab, h1, h2, h3, fun v => h4 _ (fun t ht => by simpa using (gammaHS_valid h t).1 ht) fun k hk => ?_⟩
  rw [gammaHS_valid h]
  by_contra hn
  exact hk (by simp [List.getD, hn])

/-- `I * make_gamma(0) * make_gamma(1) * make_gamma(2) * make_gamma(3)` (examples/gamma.loperator.cpp:161-162). -/
def gamma5 (im : S) : Expr (AllGen Int GammaGen) S := Expr.smulPrefix im (makeGamma 0) * makeGamma 1 * makeGamma 2 * makeGamma 3

/-- **C79** The program examples/gamma.loperator.cpp: `γ⁵` exchanges the upper and the lower components. -/
theorem C79_gamma5 {hs : HilbertSpace Int} (h : IsGammaHS hs) {im : S} (him : im * im = -1) :
    ∃ op, UserLOperator.make [gammaClass im] (gamma5 im) hs = .ok op ∧
      ∀ a b c d : S, op.apply (⟨[a, b, c, d]⟩ : DenseSV S) = .ok ⟨[c, d, a, b]⟩ := by
  classical
  have := AllGen.lawful (ι := Int) gamma_order
  have := AllGen.goodGen (ι := Int) gamma_order gamma_noZeros
  have hr : ∀ i : Int, 0 ≤ i ∧ i ≤ 3 → Reachable IsGamma (makeGamma i : Expr (AllGen Int GammaGen) S) := fun i hi =>
    .ofMonomial _ _ fun g hg => by rw [List.mem_singleton.1 hg]; exact hi
  have r0 := Reachable.smulPrefix im (hr 0 (by decide))
  have r1 := r0.mul (hr 1 (by decide))
  have r2 := r1.mul (hr 2 (by decide))
  have r3 := r2.mul (hr 3 (by decide))
  have up : ∀ {e : Expr (AllGen Int GammaGen) S}, Reachable IsGamma e → e.InP IsGamma := fun he => he.inP gamma_closedGen gamma_conjOK
  obtain ⟨op, hop, ha⟩ := C79_gamma h im (gamma5 im) r3
  refine ⟨op, hop, fun a b c d => ?_⟩
  have hrep := gamma_represents h him
  have hm : ∀ i : Int, 0 ≤ i ∧ i ≤ 3 → evalExpr (gammaMatrix h im) (makeGamma i : Expr (AllGen Int GammaGen) S) =
      (dirac im i).submatrix (gammaStates h) (gammaStates h) := by
    intro i hi
    have := eval_ofMonomial hrep (1 : S) [.user ⟨i⟩] fun g hg => by rw [List.mem_singleton.1 hg]; exact hi
    rw [one_smul] at this
    refine Eq.trans ?_ (this.trans ?_)
    · rfl
    · simp [evalMon, gammaMatrix]
  have h5 : (evalExpr (diracRep im) (gamma5 im)).submatrix (gammaStates h) (gammaStates h) =
      (im • dirac im 0 * dirac im 1 * dirac im 2 * dirac im 3).submatrix (gammaStates h) (gammaStates h) := by
    rw [← gammaMatrix_expr h, gamma5, eval_mul hrep (up r2) (up (hr 3 (by decide))), eval_mul hrep (up r1) (up (hr 2 (by decide))),
      eval_mul hrep (up r0) (up (hr 1 (by decide))), eval_smul, hm 0 (by decide), hm 1 (by decide), hm 2 (by decide), hm 3 (by decide)]
    have e : im • (dirac im 0).submatrix (gammaStates h) (gammaStates h) = (im • dirac im 0).submatrix (gammaStates h) (gammaStates h) := rfl
    rw [e, Matrix.submatrix_mul_equiv, Matrix.submatrix_mul_equiv, Matrix.submatrix_mul_equiv]
  have h6 : evalExpr (diracRep im) (gamma5 im) = im • dirac im 0 * dirac im 1 * dirac im 2 * dirac im 3 := by
    have := congrArg (fun A => A.submatrix (gammaStates h).symm (gammaStates h).symm) h5
    simpa using this
  have h7 : im • dirac im 0 * dirac im 1 * dirac im 2 * dirac im 3 = !![0, 0, 1, 0; 0, 0, 0, 1; 1, 0, 0, 0; 0, 1, 0, 0] := by
    ext i j
    fin_cases i <;> fin_cases j <;>
      simp [dirac, blocks, pauli, Matrix.mul_apply, Fin.sum_univ_four, him]
  have := ha ![a, b, c, d]
  rw [h6, h7] at this
  have e1 : List.ofFn ![a, b, c, d] = [a, b, c, d] := rfl
  rw [e1] at this
  rw [this]
  congr 2
  simp [List.ofFn_succ, vecHead, vecTail]

/-! ### Findings -/

/-- A Hilbert space with one bosonic mode cut off at one particle. -/
def tinyBoson : List (ESpace Int) := [.boson 2 0]

/-- **F29** (why C80 is partial) `monomial_action<boson>` stops looking at the generators as soon as it finds a power exceeding the
cutoff: `a†_0 a†_0 a†_1` is accepted although mode 1 does not belong to the Hilbert space; `a†_0 a†_1` is not. -/
theorem C80_F29_cutoff_hides_unknown_mode : ∃ hs : HilbertSpace Int, HilbertSpace.ofArgs tinyBoson = .ok hs ∧
    ¬ Known ([fermionClass, bosonClass, spinClass] : List (ActionClass Int GammaGen ℝ)) (OnSpace hs fun _ => False) (.pre (.boson true 1)) ∧
    (∃ op, UserLOperator.make (U := GammaGen) [fermionClass, bosonClass, spinClass]
      (⟨[([.pre (.boson true 0), .pre (.boson true 0), .pre (.boson true 1)], (1 : ℝ))]⟩) hs = .ok op) ∧
    ∃ err, UserLOperator.make (U := GammaGen) [fermionClass, bosonClass, spinClass]
      (⟨[([.pre (.boson true 0), .pre (.boson true 1)], (1 : ℝ))]⟩) hs = .error err := by
  exact ⟨_, rfl, fun h => Bool.false_ne_true h.1, ⟨_, rfl⟩, ⟨_, rfl⟩⟩

theorem ok_of_data {x : Except SVError (DenseSV ℚ)} {d : List ℚ} (h : x.toOption.map DenseSV.data = some d) : x = .ok ⟨d⟩ := by
  cases x with
  | error e => cases h
  | ok v => obtain ⟨v⟩ := v; simp only [Except.toOption, Option.map_some, Option.some.injEq] at h; rw [h]

/-- **F30** (examples/gamma.loperator.cpp) `monomial_action<gamma>` does not look at the algebra of the generators: with one algebra ID the
library passes it everything, and `c†(1)` acts as `γ¹`. -/
theorem C80_F30_foreign_generator_accepted : ∃ hs : HilbertSpace Int, IsGammaHS hs ∧ ∃ op,
    UserLOperator.make [gammaClass (0 : ℚ)] ⟨[([.pre (.fermion true 1)], 1)]⟩ hs = .ok op ∧
    op.apply (⟨[1, 0, 0, 0]⟩ : DenseSV ℚ) = .ok ⟨[0, 0, 0, -1]⟩ := by
  obtain ⟨hs, h⟩ := gammaHS_exists
  refine ⟨hs, h, _, rfl, ?_⟩
  have : (UserLOperator.apply (S := ℚ) ⟨[([gammaAct (0 : ℚ) [1]], 1)]⟩ (⟨[1, 0, 0, 0]⟩ : DenseSV ℚ)).toOption.map DenseSV.data =
      some [0, 0, 0, -1] := by decide +kernel
  exact ok_of_data this

/-- **F30** It takes the whole index for that of the spinor component: next to other elementary spaces it reads outside of its tables. -/
theorem C80_F30_whole_index : ∃ hs : HilbertSpace Int, HilbertSpace.ofArgs [ESpace.fermion 0, gammaSpace] = .ok hs ∧ ValidState hs 4 ∧
    ∃ op, UserLOperator.make [fermionClass, gammaClass (0 : ℚ)] (makeGamma 1) hs = .ok op ∧
    op.apply (⟨[0, 0, 0, 0, 1, 0, 0, 0]⟩ : DenseSV ℚ) = .error .ub := by
  refine ⟨_, rfl, by decide +kernel, _, rfl, ?_⟩
  rfl

/-- **F30** Other indices act as the identity matrix, although `γ_5 γ_5 = -1` for the expressions. -/
theorem C80_F30_other_indices : ∃ hs : HilbertSpace Int, IsGammaHS hs ∧
    (makeGamma 5 * makeGamma 5 : Expr (AllGen Int GammaGen) ℚ).terms = [([], -1)] ∧ ∃ op op2,
    UserLOperator.make [gammaClass (0 : ℚ)] (makeGamma 5) hs = .ok op ∧
    UserLOperator.make [gammaClass (0 : ℚ)] (makeGamma 5 * makeGamma 5) hs = .ok op2 ∧
    op.apply (⟨[1, 0, 0, 0]⟩ : DenseSV ℚ) = .ok ⟨[1, 0, 0, 0]⟩ ∧
    op2.apply (⟨[1, 0, 0, 0]⟩ : DenseSV ℚ) = .ok ⟨[-1, 0, 0, 0]⟩ := by
  obtain ⟨hs, h⟩ := gammaHS_exists
  have e : (makeGamma 5 * makeGamma 5 : Expr (AllGen Int GammaGen) ℚ).terms = [([], -1)] := by decide +kernel
  refine ⟨hs, h, e, ⟨[([gammaAct (0 : ℚ) [5]], 1)]⟩, ⟨[([gammaAct (0 : ℚ) []], -1)]⟩, rfl, ?_, ok_of_data (by decide +kernel),
    ok_of_data (by decide +kernel)⟩
  rw [UserLOperator.make, e]
  rfl

/-! ### Non-vacuity of the hypotheses of C79 and C80 for all four algebras together -/

/-- `γ⁰` alone, represented by the number `-1`. -/
def isGamma0 : AllGen Nat GammaGen → Bool
  | .pre _ => false
  | .user u => decide (u.index = 0)

/-- Its `monomial_action`. -/
noncomputable def minusClass : ActionClass Nat GammaGen ℂ where
  id := 0
  make m _ := if m.all isGamma0 then .ok fun k c => .nonzero k (c * (-1) ^ m.length) else .error .user

/-- The matrices. -/
noncomputable def fourRep (hs : HilbertSpace Nat) : AllGen Nat GammaGen → Op ℂ hs
  | .pre g => preMatrix ℂ hs g
  | .user _ => -1

theorem minus_contract (hs : HilbertSpace Nat) :
    ActionContract minusClass hs (OnSpace hs fun u => u.index = 0) (fourRep hs) := by
  classical
  have huser : ∀ m : List (AllGen Nat GammaGen), (∀ g ∈ m, g.algebraId = minusClass.id ∧ OnSpace hs (fun u => u.index = 0) g) →
      ∀ g ∈ m, ∃ u : GammaGen, g = .user u ∧ u.index = 0 := by
    intro m hm g hg
    cases g with
    | pre g =>
      have := (hm _ hg).1
      cases g <;> exact absurd this (by change ¬ ((_ : Int) = 0); simp [AllGen.algebraId, Gen.algebraId])
    | user u => exact ⟨u, rfl, (hm _ hg).2⟩
  have hall : ∀ m : List (AllGen Nat GammaGen), (∀ g ∈ m, g.algebraId = minusClass.id ∧ OnSpace hs (fun u => u.index = 0) g) →
      m.all isGamma0 = true := by
    intro m hm
    rw [List.all_eq_true]
    intro g hg
    obtain ⟨u, rfl, hu⟩ := huser m hm g hg
    exact decide_eq_true hu
  constructor
  · intro m _ hm
    exact ⟨_, if_pos (hall m hm)⟩
  · intro m a _ hm ha
    have ha' : a = fun k c => .nonzero k (c * (-1) ^ m.length) := by
      have : minusClass.make m hs = .ok fun k c => .nonzero k (c * (-1) ^ m.length) := if_pos (hall m hm)
      rw [this] at ha
      cases ha; rfl
    have he : evalMon (fourRep hs) m = (-1 : Op ℂ hs) ^ m.length := by
      unfold evalMon
      rw [List.map_congr_left (g := fun _ => (-1 : Op ℂ hs)), List.map_const', List.prod_replicate]
      intro g hg
      obtain ⟨u, rfl, -⟩ := huser m hm g hg
      rfl
    intro k c
    refine Or.inr ⟨k, (-1) ^ m.length, by rw [ha'], fun s => ?_⟩
    rw [he]
    rcases Nat.even_or_odd m.length with h | h
    · rw [h.neg_one_pow, h.neg_one_pow, Matrix.one_apply]
    · rw [h.neg_one_pow, h.neg_one_pow, Matrix.neg_apply, Matrix.one_apply]
      split_ifs <;> simp

theorem minus_rejects (hs : HilbertSpace Nat) : Rejects minusClass hs (OnSpace hs fun u => u.index = 0) := by
  rintro m ⟨g, hg, hn⟩
  refine ⟨.user, if_neg fun h => hn ?_⟩
  rw [List.all_eq_true] at h
  have := h g hg
  cases g with
  | pre g => cases this
  | user u => exact ⟨rfl, of_decide_eq_true (p := u.index = 0) this⟩

open scoped Classical in
theorem minus_represents (hs : HilbertSpace Nat) : Represents ℂ (Both (fun _ => False) fun u : GammaGen => u.index = 0) (fourRep hs) := by
  refine ⟨?_, ?_, ?_, ?_, ?_, ?_, ?_⟩
  · intro g k hg hk hgt
    cases g with
    | pre g => exact hg.elim
    | user u =>
      cases k with
      | pre k => exact hk.elim
      | user v =>
        exfalso
        have : GenOps.gt (AllGen.user u : AllGen Nat GammaGen) (.user v) = decide (u.index > v.index) := rfl
        rw [this, decide_eq_true_eq, show u.index = 0 from hg, show v.index = 0 from hk] at hgt
        exact lt_irrefl _ hgt
  · intro g k f hg hk hgt hf
    cases g with
    | pre g => exact hg.elim
    | user u =>
      cases k with
      | pre k => exact hk.elim
      | user v =>
        have e1 : GenOps.simplifyProd (AllGen.user u : AllGen Nat GammaGen) (.user v) = some ⟨.integer 1, []⟩ := by
          change Option.map (LinFun.map AllGen.user) (if u.index = v.index then some ⟨.integer (if u.index = 0 then 1 else -1), []⟩ else none) = _
          rw [if_pos (by rw [show u.index = 0 from hg, show v.index = 0 from hk]), if_pos (show u.index = 0 from hg)]; rfl
        rw [e1] at hf
        cases hf
        simp [evalLin, Gamma.mk_int, fourRep]
  · intro g p f hg hp hr
    cases g with
    | pre g => exact hg.elim
    | user u => rfl
  · intro g p hg hp hr
    cases g with
    | pre g => exact hg.elim
    | user u => cases hr
  · intro g k hg hk hgt p hp
    cases g with
    | pre g => exact hg.elim
    | user u =>
      cases k with
      | pre k => exact hk.elim
      | user v => cases hp
  · intro g k f hg hk hgt hf p hp
    cases g with
    | pre g => exact hg.elim
    | user u =>
      cases k with
      | pre k => exact hk.elim
      | user v =>
        have e1 : GenOps.simplifyProd (AllGen.user u : AllGen Nat GammaGen) (.user v) =
            if u.index = v.index then some ⟨.integer (if u.index = 0 then 1 else -1), []⟩ else none := by
          change Option.map (LinFun.map AllGen.user) (if u.index = v.index then some ⟨.integer (if u.index = 0 then 1 else -1), []⟩ else none) = _
          split_ifs <;> rfl
        rw [e1] at hf
        split at hf
        · cases hf; cases hp
        · cases hf
  · intro g p hg hp hr
    cases g with
    | pre g => exact hg.elim
    | user u => cases hr

/-- `c†(0) S_+(0) γ⁰` with a spin 1. -/
noncomputable def fourMonomial : List (AllGen Nat GammaGen) := [.pre (.fermion true 0), .pre (.spin 3 .plus 0), .user ⟨0⟩]

open scoped Classical in
/-- All hypotheses of C79 and C80 hold at the same time. -/
example : ∃ hs : HilbertSpace Nat, ∃ Cs : List (ActionClass Nat GammaGen ℂ), ∃ On : AllGen Nat GammaGen → Prop, ∃ ρ : AllGen Nat GammaGen → Op ℂ hs,
    ∃ P : AllGen Nat GammaGen → Prop, ∃ a : Expr (AllGen Nat GammaGen) ℂ,
    (Cs.map ActionClass.id).Pairwise (· < ·) ∧ (∀ C ∈ Cs, ActionContract C hs On ρ) ∧ (∀ C ∈ Cs, RejectsOrVanishes C hs On) ∧
    (∀ g h, On g → On h → g.algebraId ≠ h.algebraId → ρ g * ρ h = ρ h * ρ g) ∧
    Represents ℂ P ρ ∧ (∀ g, P g → Known Cs On g) ∧
    Reachable (AllowedAll fun n _ => n = 3) a ∧ (∀ p ∈ a.terms, ∀ g ∈ p.1, P g) ∧ ∃ p ∈ a.terms, p.1 = fourMonomial := by
  obtain ⟨hs, hof, hc, hpre, _, _, hv⟩ := act_hypotheses
  have hhas : ∀ k : Mode Nat, k ∈ ([.fermion 0, .spin 3 0] : List (Mode Nat)) → hs.has k.space = true := by
    have : ∀ k ∈ ([.fermion 0, .spin 3 0] : List (Mode Nat)),
        ((HilbertSpace.ofArgs actSpaces).toOption.map fun hs => hs.has k.space) = some true := by decide +kernel
    intro k hk
    have := this k hk
    rw [hof] at this
    simpa [Except.toOption] using this
  have hM : HalfAlone (fun n (_ : Nat) => n = 3) := fun i n h => absurd (show (2:Nat) = 3 from h) (by decide)
  obtain ⟨c1, c2, c3, c4⟩ := C79_predefined_classes (S := ℂ) (ρ := fourRep hs) gamma_order hc hpre (fun u => u.index = 0) fun g => rfl
  obtain ⟨r1, r2, r3⟩ := C80_predefined_classes (S := ℂ) (U := GammaGen) (hs := hs) fun u => u.index = 0
  have hterms : (Expr.ofMonomial (1 : ℂ) fourMonomial).terms = [(fourMonomial, 1)] := by
    have := AllGen.lawful (ι := Nat) gamma_order
    have hcan : CanonMon (AllowedAll fun n _ => n = 3) fourMonomial := by
      refine ⟨?_, ?_, ?_⟩
      · intro g hg
        simp only [fourMonomial, List.mem_cons, List.not_mem_nil, or_false] at hg
        rcases hg with rfl | rfl | rfl
        · trivial
        · rfl
        · trivial
      · exact .cons_cons ⟨rfl, rfl⟩ (.cons_cons ⟨rfl, rfl⟩ (.singleton _))
      · intro g hg p hp hle
        exfalso
        have h3 : fourMonomial.countP (GenOps.eq g) = 1 := by
          simp only [fourMonomial, List.mem_cons, List.not_mem_nil, or_false] at hg
          rcases hg with rfl | rfl | rfl <;> rfl
        omega
    rw [Expr.ofMonomial, if_neg one_ne_zero, normalize_store, emits_of_canon (AllGen.nfGenAll hM gamma_order gamma_confluent) _ hcan 1 one_ne_zero]
    rfl
  have hPm : ∀ g ∈ fourMonomial, Both (AllowedOn (fun n _ => n = 3) (NotBosonic hs)) (fun u : GammaGen => u.index = 0) g := by
    intro g hg
    simp only [fourMonomial, List.mem_cons, List.not_mem_nil, or_false] at hg
    rcases hg with rfl | rfl | rfl
    · exact ⟨trivial, hhas _ (by simp [Gen.mode]), fun i => by simp [Gen.mode]⟩
    · exact ⟨rfl, hhas _ (by simp [Gen.mode]), fun i => by simp [Gen.mode]⟩
    · exact (rfl : (0 : Int) = 0)
  refine ⟨hs, [fermionClass, bosonClass, spinClass, minusClass], OnSpace hs (fun u => u.index = 0), fourRep hs,
    Both (AllowedOn (fun n _ => n = 3) (NotBosonic hs)) (fun u => u.index = 0), Expr.ofMonomial 1 fourMonomial, ?_, ?_, ?_, ?_, ?_, ?_, ?_, ?_, ?_⟩
  · change ([-3, -2, -1, 0] : List Int).Pairwise (· < ·); decide
  · intro C hC
    simp only [List.mem_cons, List.not_mem_nil, or_false] at hC
    rcases hC with rfl | rfl | rfl | rfl
    · exact c1
    · exact c2
    · exact c3
    · exact minus_contract hs
  · intro C hC
    simp only [List.mem_cons, List.not_mem_nil, or_false] at hC
    rcases hC with rfl | rfl | rfl | rfl
    · exact fun m h => .inl (r1 m h)
    · exact r3
    · exact fun m h => .inl (r2 m h)
    · exact fun m h => .inl (minus_rejects hs m h)
  · exact c4 (fun g u _ _ => by simp [fourRep]) fun u v _ _ h => absurd rfl h
  · exact C80_relations gamma_order hM hc hpre _ (fun g => rfl) (minus_represents hs) fun g u _ _ => by simp [fourRep]
  · intro g hg
    cases g with
    | pre g =>
      refine ⟨hg.2.1, ?_⟩
      cases g
      · exact ⟨fermionClass, by simp, rfl⟩
      · exact ⟨bosonClass, by simp, rfl⟩
      · exact ⟨spinClass, by simp, rfl⟩
    | user u => exact ⟨hg, minusClass, by simp, rfl⟩
  · refine .ofMonomial _ _ fun g hg => ?_
    have := hPm g hg
    cases g with
    | pre g => exact this.1
    | user u => trivial
  · intro p hp g hg
    rw [hterms, List.mem_singleton] at hp
    rw [hp] at hg
    exact hPm g hg
  · rw [hterms]; exact ⟨(fourMonomial, 1), by simp, rfl⟩

end LC
