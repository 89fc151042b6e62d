import Verif.Props.UserProducts
import Verif.Props.UserRelations
import Verif.Proof.Laws
/-
The two user-defined algebras of the examples: gamma matrices (examples/gamma.hpp) and the Virasoro algebra
(examples/virasoro_algebra.cpp). C71, C74 and C75 instantiated; finding F23.
-/
set_option linter.unusedSectionVars false
set_option linter.unusedVariables false
namespace LC
open Expr Terms
universe u v
variable {ι : Type u} {S : Type v} [LinearOrder ι] [CommRing S] [DecidableEq S] [ConstScalar S] [ScalarLaws S]

/-! ### Gamma matrices -/

/-- The hypotheses of C74 hold for the gamma matrices, with a realisation by signed moves on finite sets. -/
theorem gamma_complete : UserComplete S (Gamma.rep (S := S)) :=
  ⟨gamma_order, gamma_noZeros, gamma_confluent, Gamma.rep_realisation, Gamma.rep_faithful⟩

theorem gamma_evalLin_conj (g : GammaGen) :
    evalLin S (Gamma.rep (S := S)) (UserGen.conj g) = ((Gamma.eta g.index : Int) : S) • Gamma.rep g := by
  simp only [UserGen.conj, evalLin, List.map_cons, List.map_nil, List.sum_cons, List.sum_nil, Gamma.mk_int, Gamma.eta,
    Int.cast_zero, map_zero, zero_add, add_zero]

theorem gamma_evalLin_const {A : Type _} [Ring A] [Algebra S A] (ρ : GammaGen → A) (i : Int) :
    evalLin S ρ (⟨.integer i, []⟩ : LinFun GammaGen) = ((i : Int) : S) • 1 := by
  simp only [evalLin, Gamma.mk_int, Algebra.algebraMap_eq_smul_one, List.map_nil, List.sum_nil, add_zero]

/-- The operators `conj(γ_k) = ±γ_k` obey the reversed relations. -/
theorem gamma_conjRelations : UserConjRelations S (Gamma.rep (S := S)) where
  swap u v _ h := by
    simp only [UserGen.greater, UserGen.defaultGreater, decide_eq_true_eq, gt_iff_lt] at h
    simp only [gamma_evalLin_conj, UserGen.swapWith, if_neg h.ne', Gamma.mk_int, gamma_evalLin_const, Gamma.rep,
      smul_mul_smul_comm]
    rw [Gamma.op_comm h, mul_comm ((Gamma.eta v.index : Int) : S)]
    simp
  simp u v f _ h hf := by
    simp only [UserGen.simplifyProd] at hf
    split at hf
    · rename_i e
      cases hf
      simp only [gamma_evalLin_conj, gamma_evalLin_const, Gamma.rep, smul_mul_smul_comm, ← e, Gamma.op_sq, smul_smul,
        ← Int.cast_mul, Gamma.eta_sq]
      simp [Gamma.eta]
    · cases hf
  red u p f _ h := by cases h
  comm u v h := absurd rfl h
  involutive u := by
    simp only [UserGen.conj, evalLin, List.map_cons, List.map_nil, List.sum_cons, List.sum_nil, Gamma.mk_int]
    simp only [Int.cast_zero, map_zero, zero_add, add_zero, smul_smul, ← Int.cast_mul]
    split <;> simp

section
variable [IsDomain S] [CharZero S]

/-- The factory function `make_gamma(index)` (examples/gamma.hpp:132-136). -/
def makeGamma (i : Int) : Expr (AllGen ι GammaGen) S := userGen ⟨i⟩

theorem makeGamma_reachable [Star S] (i : Int) : Reachable FBSU (makeGamma i : Expr (AllGen ι GammaGen) S) :=
  .ofMonomial _ _ (by simp [AllowedAll])

/-- **C74** for gamma matrices next to fermions, bosons and spins-1/2: products are associative, `==` is equality of operators and
`conj` is an involutive antilinear antihomomorphism. -/
theorem C74_gamma [StarRing S] {a b c : Expr (AllGen ι GammaGen) S} (x : S) (ha : Reachable FBSU a) (hb : Reachable FBSU b)
    (hc : Reachable FBSU c) :
    ((a * b) * c).eqOp (a * (b * c)) = true ∧ a.conj.conj.eqOp a = true ∧ (a + b).conj.eqOp (a.conj + b.conj) = true ∧
    (x • a).conj.eqOp (star x • a.conj) = true ∧ (a * b).conj.eqOp (b.conj * a.conj) = true :=
  have h := C74_conj gamma_complete gamma_conjRelations x ha hb
  ⟨C74_mul_assoc gamma_complete ha hb hc, h.1, h.2.1, h.2.2.1, h.2.2.2.1⟩

/-- Non-vacuity of C71, C74: operators for the predefined generators and the gamma matrices together. -/
example : ∃ (A : Type) (_ : Ring A) (_ : Algebra ℚ A) (ρ : AllGen Nat GammaGen → A),
    Realisation ℚ (fun n _ => n = 2) ρ ∧ UserConjRelations ℚ fun u => ρ (.user u) := by
  obtain ⟨A, i, j, ρ, h, -, hc⟩ := UserComplete.model (ι := Nat) (S := ℚ) gamma_complete
  exact ⟨A, i, j, ρ, h, hc gamma_conjRelations⟩

/-- **C75** The Clifford relations hold for all indices: `γ_μ γ_ν + γ_ν γ_μ = 2 η_μν`. -/
theorem C75_clifford (μ ν : Int) :
    (makeGamma μ * makeGamma ν + makeGamma ν * makeGamma μ : Expr (AllGen ι GammaGen) S).eqOp
      (Expr.const (if μ = ν then (if μ = 0 then 2 else -2) else 0)) = true := by
  classical
  have := AllGen.lawful (ι := ι) gamma_order
  have := AllGen.goodGen (ι := ι) gamma_order gamma_noZeros
  have hm : ∀ m n : Int, (makeGamma m * makeGamma n : Expr (AllGen ι GammaGen) S).WF :=
    fun u v => wf_mul (wf_userGen _) (wf_userGen _)
  have key : ∀ m n : Int, n < m → ∀ k : List (AllGen ι GammaGen),
      (makeGamma m * makeGamma n : Expr (AllGen ι GammaGen) S).coeff k =
        - (makeGamma n * makeGamma m : Expr (AllGen ι GammaGen) S).coeff k := by
    intro m n h k
    have h1 := C75_swap_relation (ι := ι) (S := S) gamma_order gamma_noZeros (⟨m⟩ : GammaGen) ⟨n⟩ rfl
      (by simpa [UserGen.greater, UserGen.defaultGreater] using h) (by simp [UserGen.simplifyProd, h.ne])
    rw [eqOp_iff] at h1
    have h2 := congrArg (fun x => x.coeff k) h1
    change (makeGamma m * makeGamma n : Expr (AllGen ι GammaGen) S).coeff k = _ at h2
    have e : (linExpr (UserGen.swapWith (⟨m⟩ : GammaGen) ⟨n⟩).2 : Expr (AllGen ι GammaGen) S) = Expr.const 0 := by
      simp [linExpr, UserGen.swapWith, h.ne', Gamma.mk_int]
    have hsw : ((ConstScalar.makeConst (UserGen.swapWith (⟨m⟩ : GammaGen) ⟨n⟩).1 : S) • (userGen ⟨n⟩ * userGen ⟨m⟩) :
      Expr (AllGen ι GammaGen) S).WF := wf_smulPrefix _ (hm _ _)
    rw [h2, e, coeff_add hsw (wf_const _), smul_def, coeff_smulPrefix, coeff_const]
    simp only [UserGen.swapWith, Gamma.mk_int]
    split <;> simp [makeGamma]
  rw [eqOp_iff]
  refine ext_coeff (wf_add (hm _ _) (hm _ _)) (wf_const _) fun k => ?_
  rw [coeff_add (hm _ _) (hm _ _), coeff_const]
  rcases lt_trichotomy ν μ with h | h | h
  · rw [key μ ν h k, if_neg h.ne']; simp
  · subst h
    have h1 := C75_simplify_relation (ι := ι) (S := S) gamma_order gamma_noZeros (⟨ν⟩ : GammaGen) ⟨ν⟩
      ⟨.integer (if ν = 0 then 1 else -1), []⟩ rfl
      (by simp [UserGen.greater, UserGen.defaultGreater]) (by simp [UserGen.simplifyProd])
    rw [eqOp_iff] at h1
    have h2 := congrArg (fun x => x.coeff k) h1
    change (makeGamma ν * makeGamma ν : Expr (AllGen ι GammaGen) S).coeff k = _ at h2
    rw [h2]
    simp only [linExpr, List.foldl_nil, Gamma.mk_int, coeff_const]
    split
    · split <;> norm_num
    · simp
  · rw [key ν μ h k, if_neg h.ne]; simp

/-- **C75** `γ_0` is Hermitian, `γ_k` (`k ≠ 0`) anti-Hermitian. -/
theorem C75_gamma_conj [StarRing S] (μ : Int) :
    (makeGamma μ : Expr (AllGen ι GammaGen) S).conj.eqOp ((if μ = 0 then (1 : S) else -1) • makeGamma μ) = true := by
  classical
  have := AllGen.lawful (ι := ι) gamma_order
  have := AllGen.goodGen (ι := ι) gamma_order gamma_noZeros
  have hg : (makeGamma μ : Expr (AllGen ι GammaGen) S).WF := wf_userGen _
  have h := C75_conj_relation (ι := ι) (S := S) gamma_order gamma_noZeros ⟨μ⟩
  rw [eqOp_iff] at h ⊢
  have e : (linExpr (UserGen.conj (⟨μ⟩ : GammaGen)) : Expr (AllGen ι GammaGen) S) =
      Expr.const 0 + ((if μ = 0 then 1 else -1 : Int) : S) • makeGamma μ := by
    simp only [linExpr, UserGen.conj, List.foldl_cons, List.foldl_nil, Gamma.mk_int, Int.cast_zero]
    rfl
  rw [makeGamma, h, e]
  have hx : ∀ x : S, (x • makeGamma μ : Expr (AllGen ι GammaGen) S).WF := fun x => wf_smulPrefix _ hg
  refine ext_coeff (wf_add (wf_const _) (hx _)) (hx _) fun k => ?_
  rw [coeff_add (wf_const _) (hx _), coeff_const, smul_def, smul_def]
  split <;> simp [coeff_smulPrefix, makeGamma]

/-! ### The Virasoro algebra -/

/-- **C75** Every square `L_n * L_n` is the zero expression. -/
theorem C75_virasoro_square (n : Int) : (virL n * virL n : Expr (AllGen ι VirasoroGen) S).eqOp 0 = true := by
  have h := C75_simplify_relation (ι := ι) (S := S) virasoro_order virasoro_noZeros (⟨n⟩ : VirasoroGen) ⟨n⟩
      ⟨.integer 0, []⟩ rfl (by simp [UserGen.greater, UserGen.defaultGreater]) (by simp [UserGen.simplifyProd])
  have := AllGen.lawful (ι := ι) virasoro_order
  rw [eqOp_iff] at h ⊢
  rw [virL, h]
  simp only [linExpr, List.foldl_nil, ConstScalar.mk_integer, Int.cast_zero, const, if_true]
  rfl

/-- **C75** `conj(L_n) = L_{-n}`. -/
theorem C75_virasoro_conj [StarRing S] (n : Int) : (virL n : Expr (AllGen ι VirasoroGen) S).conj.eqOp (virL (-n)) = true := by
  classical
  have := AllGen.lawful (ι := ι) virasoro_order
  have := AllGen.goodGen (ι := ι) virasoro_order virasoro_noZeros
  have hg : ∀ n, (virL n : Expr (AllGen ι VirasoroGen) S).WF := fun n => wf_userGen _
  have h := C75_conj_relation (ι := ι) (S := S) virasoro_order virasoro_noZeros ⟨n⟩
  rw [eqOp_iff] at h ⊢
  have e : (linExpr (UserGen.conj (⟨n⟩ : VirasoroGen)) : Expr (AllGen ι VirasoroGen) S) =
      Expr.const 0 + (1 : S) • virL (-n) := by
    simp only [linExpr, UserGen.conj, List.foldl_cons, List.foldl_nil, ConstScalar.mk_integer, Int.cast_zero, Int.cast_one]
    rfl
  rw [virL, h, e]
  have hx : ((1 : S) • virL (-n) : Expr (AllGen ι VirasoroGen) S).WF := wf_smulPrefix _ (hg _)
  refine ext_coeff (wf_add (wf_const _) hx) (hg _) fun k => ?_
  rw [coeff_add (wf_const _) hx, coeff_const, smul_def]
  split <;> simp [coeff_smulPrefix]

/-- The commutator, written with the public operators. -/
def commE {G : Type _} [GenOps G] (a b : Expr G S) : Expr G S := a * b - b * a

/-- **C75** The recurrences (5)–(7) printed by the example hold for all `n`:
`[L_n, L_1] = (n-1) L_{n+1}`, `[L_n, L_{-1}] = (n+1) L_{n-1}`, and `[L_m, L_{-2}] = (m+2) L_{m-2}` for `m ≠ 2`. -/
theorem C75_virasoro_recurrences (n : Int) :
    (commE (virL n) (virL 1) : Expr (AllGen ι VirasoroGen) S).eqOp (((n - 1 : Int) : S) • virL (n + 1)) = true ∧
    (commE (virL n) (virL (-1)) : Expr (AllGen ι VirasoroGen) S).eqOp (((n + 1 : Int) : S) • virL (n - 1)) = true ∧
    (n ≠ 2 → (commE (virL n) (virL (-2)) : Expr (AllGen ι VirasoroGen) S).eqOp (((n + 2 : Int) : S) • virL (n - 2)) = true) := by
  classical
  have := AllGen.lawful (ι := ι) virasoro_order
  have := AllGen.goodGen (ι := ι) virasoro_order virasoro_noZeros
  have hg : ∀ n, (virL n : Expr (AllGen ι VirasoroGen) S).WF := fun n => wf_userGen _
  have key : ∀ m n : Int, (m = -n → m * m * m - m = 0) →
      (commE (virL m) (virL n) : Expr (AllGen ι VirasoroGen) S).eqOp (((m - n : Int) : S) • virL (m + n)) = true := by
    intro m n h0
    have h := C75_virasoro_commutator (ι := ι) (S := S) m n
    rw [eqOp_iff] at h ⊢
    have hx : (((m - n : Int) : S) • virL (m + n) : Expr (AllGen ι VirasoroGen) S).WF := wf_smulPrefix _ (hg _)
    rw [commE, h]
    refine ext_coeff (wf_add hx (wf_const _)) hx fun k => ?_
    rw [coeff_add hx (wf_const _), coeff_const]
    have : (if m = -n then ((2 * (m * m * m - m) : Int) : S) else 0) = 0 := by
      split
      · rename_i h; rw [h0 h]; simp
      · rfl
    rw [this]; simp
  refine ⟨key n 1 (by rintro rfl; rfl), ?_, fun h2 => ?_⟩
  · have := key n (-1) (by rintro rfl; rfl)
    rwa [sub_neg_eq_add, ← sub_eq_add_neg] at this
  · have := key n (-2) (fun h => absurd h (by omega))
    rwa [sub_neg_eq_add, ← sub_eq_add_neg] at this

/-- The recurrences divided by the coefficient, as in the example. -/
theorem C75_virasoro_recurrences_divided {F : Type v} [Field F] [DecidableEq F] [ConstScalar F] [ScalarLaws F] [CharZero F]
    (n : Int) :
    (n ≠ 1 → (virL (n + 1) - (1 / ((n - 1 : Int) : F)) • commE (virL n) (virL 1) :
      Expr (AllGen ι VirasoroGen) F).eqOp 0 = true) ∧
    (n ≠ -1 → (virL (n - 1) - (1 / ((n + 1 : Int) : F)) • commE (virL n) (virL (-1)) :
      Expr (AllGen ι VirasoroGen) F).eqOp 0 = true) := by
  classical
  have := AllGen.lawful (ι := ι) virasoro_order
  have := AllGen.goodGen (ι := ι) virasoro_order virasoro_noZeros
  have hg : ∀ n, (virL n : Expr (AllGen ι VirasoroGen) F).WF := fun n => wf_userGen _
  have key : ∀ (x : F) (c L : Expr (AllGen ι VirasoroGen) F), L.WF → x ≠ 0 → c.eqOp (x • L) = true →
      (L - (1 / x) • c).eqOp 0 = true := by
    intro x c L hL hx hc
    rw [eqOp_iff] at hc ⊢
    have hs : ∀ (x : F) {L : Expr (AllGen ι VirasoroGen) F}, L.WF → (x • L).WF := fun x L hL => wf_smulPrefix _ hL
    rw [hc]
    refine ext_coeff (wf_sub hL (hs _ (hs _ hL))) wf_zero fun k => ?_
    rw [coeff_sub hL (hs _ (hs _ hL)), smul_def, coeff_smulPrefix, smul_def, coeff_smulPrefix, coeff_zero]
    field_simp
    ring
  obtain ⟨h1, h2, -⟩ := C75_virasoro_recurrences (ι := ι) (S := F) n
  exact ⟨fun h => key _ _ _ (hg _) (Int.cast_ne_zero.2 (by omega)) h1, fun h => key _ _ _ (hg _) (Int.cast_ne_zero.2 (by omega)) h2⟩

theorem mul_const_comm {G : Type _} [GenOps G] [LawfulGen G] [GoodGen G] {a : Expr G S} (ha : a.WF) (y : S) :
    a * const y = const y * a := by
  refine ext_coeff (wf_mul ha (wf_const _)) (wf_mul (wf_const _) ha) fun k => ?_
  rw [coeff_mul, coeff_mul]
  by_cases h : y = 0
  · simp [const, h, Terms.evalWith]
  · simp only [const, if_neg h, Terms.evalWith, List.map_cons, List.map_nil, List.sum_cons, List.sum_nil, List.append_nil,
      List.nil_append, add_zero, smul_eq_mul, ← List.sum_map_mul_left]
    congr 1
    refine List.map_congr_left fun p _ => ?_
    ring

/-- **C75** The Jacobi identity holds for all triples, although products are not associative (finding F23). -/
theorem C75_virasoro_jacobi (m n k : Int) :
    (commE (virL m) (commE (virL n) (virL k)) + commE (virL n) (commE (virL k) (virL m)) +
      commE (virL k) (commE (virL m) (virL n)) : Expr (AllGen ι VirasoroGen) S).eqOp 0 = true := by
  classical
  have := AllGen.lawful (ι := ι) virasoro_order
  have := AllGen.goodGen (ι := ι) virasoro_order virasoro_noZeros
  have hg : ∀ n, (virL n : Expr (AllGen ι VirasoroGen) S).WF := fun n => wf_userGen _
  have hs : ∀ (x : S) {L : Expr (AllGen ι VirasoroGen) S}, L.WF → (x • L).WF := fun x L hL => wf_smulPrefix _ hL
  let δ : Int → Int → S := fun m n => if m = -n then ((2 * (m * m * m - m) : Int) : S) else 0
  have h1 : ∀ m n, (commE (virL m) (virL n) : Expr (AllGen ι VirasoroGen) S) = ((m - n : Int) : S) • virL (m + n) + Expr.const (δ m n) :=
    fun m n => (eqOp_iff _ _).1 (C75_virasoro_commutator (ι := ι) (S := S) m n)
  have hw : ∀ m n, (commE (virL m) (virL n) : Expr (AllGen ι VirasoroGen) S).WF :=
    fun m n => wf_sub (wf_mul (hg _) (hg _)) (wf_mul (hg _) (hg _))
  have h2 : ∀ (m n : Int) (x y : S), (commE (virL m) (x • virL n + Expr.const y) : Expr (AllGen ι VirasoroGen) S) = x • commE (virL m) (virL n) := by
    intro m n x y
    have b1 := (Laws.bilinear x (hg m) (hs x (hg n)) (wf_const (G := AllGen ι VirasoroGen) y)).2.1
    have b2 := (Laws.bilinear x (hs x (hg n)) (wf_const (G := AllGen ι VirasoroGen) y) (hg m)).1
    have b3 := (Laws.bilinear x (hg m) (hg n) (hg n)).2.2.2.1
    have b4 := (Laws.bilinear x (hg n) (hg m) (hg n)).2.2.1
    rw [eqOp_iff] at b1 b2 b3 b4
    have m1 := wf_mul (hg m) (hg n)
    have m2 := wf_mul (hg n) (hg m)
    have m3 := wf_mul (wf_const (G := AllGen ι VirasoroGen) y) (hg m)
    rw [commE, b1, b2, b3, b4, mul_const_comm (hg m)]
    refine ext_coeff (wf_sub (wf_add (hs x m1) m3) (wf_add (hs x m2) m3)) (hs _ (hw _ _)) fun k => ?_
    rw [coeff_sub (wf_add (hs x m1) m3) (wf_add (hs x m2) m3), coeff_add (hs x m1) m3, coeff_add (hs x m2) m3, smul_def, smul_def,
      smul_def, coeff_smulPrefix, coeff_smulPrefix, coeff_smulPrefix, commE, coeff_sub m1 m2]
    ring
  have h3 : ∀ m n k, (commE (virL m) (commE (virL n) (virL k)) : Expr (AllGen ι VirasoroGen) S) =
      ((n - k : Int) : S) • (((m - (n + k) : Int) : S) • virL (m + (n + k)) + Expr.const (δ m (n + k))) := by
    intro m n k; rw [h1 n k, h2, h1]
  have hw3 : ∀ m n k : Int, (((n - k : Int) : S) • (((m - (n + k) : Int) : S) • virL (m + (n + k)) + Expr.const (δ m (n + k))) :
      Expr (AllGen ι VirasoroGen) S).WF := fun m n k => hs _ (wf_add (hs _ (hg _)) (wf_const _))
  rw [eqOp_iff, h3, h3, h3]
  refine ext_coeff (wf_add (wf_add (hw3 _ _ _) (hw3 _ _ _)) (hw3 _ _ _)) wf_zero fun l => ?_
  have hc : ∀ m n k : Int, (((n - k : Int) : S) • (((m - (n + k) : Int) : S) • virL (m + (n + k)) + Expr.const (δ m (n + k))) :
      Expr (AllGen ι VirasoroGen) S).coeff l = ((n - k : Int) : S) * (((m - (n + k) : Int) : S) *
        (virL (m + (n + k)) : Expr (AllGen ι VirasoroGen) S).coeff l + if l = [] then δ m (n + k) else 0) := by
    intro m n k
    rw [smul_def, coeff_smulPrefix, coeff_add (hs _ (hg _)) (wf_const _), smul_def, coeff_smulPrefix, coeff_const]
  rw [coeff_add (wf_add (hw3 _ _ _) (hw3 _ _ _)) (hw3 _ _ _), coeff_add (hw3 _ _ _) (hw3 _ _ _), hc, hc, hc, coeff_zero,
    show n + (k + m) = m + (n + k) by ring, show k + (m + n) = m + (n + k) by ring]
  generalize (virL (m + (n + k)) : Expr (AllGen ι VirasoroGen) S).coeff l = z
  by_cases h0 : m + n + k = 0
  · have e1 : δ m (n + k) = ((2 * (m * m * m - m) : Int) : S) := if_pos (by omega)
    have e2 : δ n (k + m) = ((2 * (n * n * n - n) : Int) : S) := if_pos (by omega)
    have e3 : δ k (m + n) = ((2 * (k * k * k - k) : Int) : S) := if_pos (by omega)
    obtain rfl : k = -m - n := by omega
    rw [e1, e2, e3]
    push_cast
    split <;> ring
  · have e1 : δ m (n + k) = 0 := if_neg (by omega)
    have e2 : δ n (k + m) = 0 := if_neg (by omega)
    have e3 : δ k (m + n) = 0 := if_neg (by omega)
    rw [e1, e2, e3]
    push_cast
    simp only [ite_self]
    ring

end

/-- **C75 (finding F23)** The rule `L_n * L_n → 0` of the example is not a consequence of the commutation relations: with it, the
product is not associative. -/
theorem C75_F23_virasoro_not_associative :
    ¬ ∀ a b c : Expr (AllGen Nat VirasoroGen) ℚ, Reachable FBSU a → Reachable FBSU b → Reachable FBSU c →
      ((a * b) * c).eqOp (a * (b * c)) = true := by
  intro h
  have hr : ∀ n, Reachable FBSU (virL n : Expr (AllGen Nat VirasoroGen) ℚ) := fun n => .ofMonomial _ _ (by simp [AllowedAll])
  have := h (virL 1) (virL 0) (virL 0) (hr 1) (hr 0) (hr 0)
  revert this
  decide +kernel

end LC
