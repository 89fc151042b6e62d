import Verif.Props.UserAlgebra
import Verif.Proof.TwoBody
/-
C75: products of two user-defined generators satisfy the relations announced by the user's classes; the Virasoro algebra of
examples/virasoro_algebra.cpp and the gamma matrices of examples/gamma.hpp.
-/
set_option linter.unusedSectionVars false
set_option linter.unusedVariables false
namespace LC
open Expr Terms
variable {ι U S : Type _} [LinearOrder ι] [UserGen U] [CommRing S] [DecidableEq S] [ConstScalar S] [ScalarLaws S] [IsDomain S]
  [CharZero S]

/-- The expression made of one user-defined generator, as in the factory functions of the examples
(examples/virasoro_algebra.cpp:125-130, examples/gamma.hpp:132-136). -/
def userGen (u : U) : Expr (AllGen ι U) S := .ofMonomial 1 [.user u]

/-- The expression `f.const_term + Σ coeff * generator`, written with the public operators. -/
def linExpr (f : LinFun U) : Expr (AllGen ι U) S :=
  f.terms.foldl (fun e p => e + (ConstScalar.makeConst p.2 : S) • userGen p.1) (Expr.const (ConstScalar.makeConst f.const))

section
variable [LawfulGen (AllGen ι U)] [GoodGen (AllGen ι U)]

theorem wf_userGen (u : U) : (userGen u : Expr (AllGen ι U) S).WF := wf_ofMonomial _ _

open Classical in
theorem linExpr_spec (f : LinFun U) : (linExpr f : Expr (AllGen ι U) S).WF ∧
    ∀ k, (linExpr f : Expr (AllGen ι U) S).coeff k = sumAt (linLog (f.map AllGen.user) (1 : S)) k := by
  have key : ∀ (l : List (U × VarNumber)) (e : Expr (AllGen ι U) S), e.WF →
      (l.foldl (fun e p => e + (ConstScalar.makeConst p.2 : S) • userGen p.1) e).WF ∧
      ∀ k, (l.foldl (fun e p => e + (ConstScalar.makeConst p.2 : S) • userGen p.1) e).coeff k =
        e.coeff k + sumAt (l.map fun p => ([AllGen.user p.1], ConstScalar.makeConst p.2)) k := by
    intro l
    induction l with
    | nil => intro e he; exact ⟨he, fun k => by simp⟩
    | cons p l ih =>
      intro e he
      have hs : ((ConstScalar.makeConst p.2 : S) • userGen p.1 : Expr (AllGen ι U) S).WF := wf_smulPrefix _ (wf_userGen _)
      obtain ⟨h1, h2⟩ := ih _ (wf_add he hs)
      refine ⟨h1, fun k => ?_⟩
      rw [List.foldl_cons, h2, coeff_add he hs, smul_def, coeff_smulPrefix, userGen, coeff_ofMonomial_one, emits_single]
      simp only [List.map_cons, sumAt_cons, sumAt_nil, add_zero, mul_ite, mul_one, mul_zero, add_assoc]
  obtain ⟨h1, h2⟩ := key f.terms (Expr.const (ConstScalar.makeConst f.const)) (wf_const _)
  refine ⟨h1, fun k => ?_⟩
  rw [linExpr, h2, coeff_const, linLog, sumAt_append]
  congr 1
  · have hm : (f.map (AllGen.user (ι := ι))).const = f.const := rfl
    by_cases hz : (f.map (AllGen.user (ι := ι))).const.isZero = true
    · rw [if_pos hz, ← hm, ScalarLaws.mk_isZero _ hz]; simp
    · rw [if_neg hz, hm]; simp
  · simp [LinFun.map, List.map_map, Function.comp_def]

theorem coeff_ofLinFun {G : Type _} [GenOps G] [LawfulGen G] [GoodGen G] (f : LinFun G) (hf : f.Good) (k : List G) :
    (const 1 * ofLinFun f : Expr G S).coeff k = sumAt (linLog f (1 : S)) k := by
  classical
  have h1 : (const 1 : Expr G S).terms = [([], 1)] := by simp [const]
  have hadd : ∀ (e e' : Expr G S), (const 1 * (e + e') : Expr G S).coeff k = (const 1 * e).coeff k + (const 1 * e').coeff k := by
    intro e e'
    rw [coeff_mul, coeff_mul, coeff_mul, h1]
    simp only [evalWith_expr_add]
    simp [Terms.evalWith]
  have hmon : ∀ (v : S) (g : G), v ≠ 0 → (const 1 * ofMonomial v [g] : Expr G S).coeff k = sumAt [([g], v)] k := by
    intro v g hv
    have : (ofMonomial v [g] : Expr G S).terms = [([g], v)] := by
      simp only [ofMonomial, if_neg hv]
      rw [normalize_store, emits_single]
      rfl
    rw [coeff_mul, h1, this]
    simp [Terms.evalWith, nf, emits_single]
  have key : ∀ (l : List (G × VarNumber)) (e : Expr G S),
      (const 1 * (l.foldl (fun e gv =>
      let v : S := ConstScalar.makeConst gv.2
      if v = 0 then e else addAssign e (ofMonomial v [gv.1])) e) : Expr G S).coeff k
      = (const 1 * e).coeff k + sumAt (l.map fun p => ([p.1], (ConstScalar.makeConst p.2 : S))) k := by
    intro l
    induction l with
    | nil => intro e; simp
    | cons p l ih =>
      intro e
      rw [List.foldl_cons, ih]
      simp only [List.map_cons, sumAt_cons]
      split
      · rename_i h; simp [h]
      · rename_i h
        have := hadd e (ofMonomial (ConstScalar.makeConst p.2) [p.1])
        change (const 1 * addAssign e _ : Expr G S).coeff k = _ at this
        rw [this, hmon _ _ h]
        simp [add_assoc]
  rw [ofLinFun, key, linLog, sumAt_append]
  congr 1
  · rw [coeff_mul, h1]
    split
    · simp [Terms.evalWith]
    · simp [Terms.evalWith, nf, emits_nil]
  · simp

end

/-- **C75** `conj` of a generator is the linear function written by its virtual function. -/
theorem C75_conj_relation [StarRing S] (ho : UserOrder U) (hz : UserNoZeros U) (u : U) :
    (userGen u : Expr (AllGen ι U) S).conj.eqOp (linExpr (UserGen.conj u)) = true := by
  classical
  have := AllGen.lawful (ι := ι) ho
  have := AllGen.goodGen (ι := ι) ho hz
  have hg := (AllGen.conjOKAll (ι := ι) hz fun _ _ => True).good
  obtain ⟨hw, hc⟩ := linExpr_spec (ι := ι) (S := S) (UserGen.conj u)
  have e : (userGen u : Expr (AllGen ι U) S).conj = 0 + const 1 * ofLinFun (GenOps.conj (AllGen.user u : AllGen ι U)) := by
    rw [Expr.conj, userGen, ofMonomial_single_terms]
    simp only [List.foldl_cons, List.foldl_nil, List.reverse_singleton, star_one, if_neg (one_ne_zero : (1 : S) ≠ 0)]
    rfl
  rw [eqOp_iff]
  have hw2 : (const 1 * ofLinFun (GenOps.conj (AllGen.user u : AllGen ι U)) : Expr (AllGen ι U) S).WF :=
    wf_mul (wf_const _) (wf_ofLinFun (hg _))
  refine ext_coeff (wf_conj hg _) hw fun k => ?_
  rw [e, coeff_add wf_zero hw2, coeff_zero, zero_add, coeff_ofLinFun _ (hg _), hc]
  rfl

/-- **C75** For generators `u > v` of one algebra: `u * v == c * (v * u) + f`, with `c`, `f` from `swap_with`, unless `v * u` can
be simplified (finding F27). -/
theorem C75_swap_relation (ho : UserOrder U) (hz : UserNoZeros U) (u v : U) (e : UserGen.algebraId u = UserGen.algebraId v)
    (hg : UserGen.greater u v = true) (hs : UserGen.simplifyProd v u = none) :
    (userGen u * userGen v : Expr (AllGen ι U) S).eqOp
      ((ConstScalar.makeConst (UserGen.swapWith u v).1 : S) • (userGen v * userGen u) + linExpr (UserGen.swapWith u v).2) = true := by
  classical
  have := AllGen.lawful (ι := ι) ho
  have := AllGen.goodGen (ι := ι) ho hz
  obtain ⟨hw, hc⟩ := linExpr_spec (ι := ι) (S := S) (UserGen.swapWith u v).2
  have hm : ∀ u v : U, (userGen u * userGen v : Expr (AllGen ι U) S).WF := fun u v => wf_mul (wf_userGen u) (wf_userGen v)
  have hsw : ((ConstScalar.makeConst (UserGen.swapWith u v).1 : S) • (userGen v * userGen u) : Expr (AllGen ι U) S).WF :=
    wf_smulPrefix _ (hm _ _)
  have hg' : GenOps.gt (AllGen.user u : AllGen ι U) (.user v) = true := by rw [AllGen.gt_user e]; exact hg
  rw [eqOp_iff]
  refine ext_coeff (hm _ _) (wf_add hsw hw) fun k => ?_
  rw [coeff_add hsw hw, hc, smul_def, coeff_smulPrefix, userGen, userGen, coeff_mul_single, coeff_mul_single, emits_swap hg',
    emits_ok (ngt_of_gt hg') (by rw [AllGen.simp_user e.symm, hs]; rfl) _ one_ne_zero, AllGen.swap_user e, sumAt_append, add_comm]
  congr 1
  simp only [one_mul, sumAt_cons, sumAt_nil, add_zero, mul_ite, mul_one, mul_zero]
  split
  · rename_i h0
    have h1 : (UserGen.swapWith u v).1 = .integer 0 := by
      revert h0
      cases (UserGen.swapWith u v).1 <;> simp [VarNumber.eq]
    simp [h1, ConstScalar.mk_integer]
  · split
    · rename_i h; simp [h]
    · simp

/-- **C75** For generators `u ≤ v` of one algebra with `simplify_prod(v, f)`: `u * v == f`. -/
theorem C75_simplify_relation (ho : UserOrder U) (hz : UserNoZeros U) (u v : U) (f : LinFun U)
    (e : UserGen.algebraId u = UserGen.algebraId v) (hg : UserGen.greater u v = false) (hs : UserGen.simplifyProd u v = some f) :
    (userGen u * userGen v : Expr (AllGen ι U) S).eqOp (linExpr f) = true := by
  classical
  have := AllGen.lawful (ι := ι) ho
  have := AllGen.goodGen (ι := ι) ho hz
  obtain ⟨hw, hc⟩ := linExpr_spec (ι := ι) (S := S) f
  have hg' : GenOps.gt (AllGen.user u : AllGen ι U) (.user v) = false := by rw [AllGen.gt_user e]; exact hg
  rw [eqOp_iff]
  refine ext_coeff (wf_mul (wf_userGen u) (wf_userGen v)) hw fun k => ?_
  rw [hc, userGen, userGen, coeff_mul_single, emits_simp hg' (by rw [AllGen.simp_user e, hs]; rfl)]

/-! ### Virasoro -/

theorem mk_real_int (i : Int) : (ConstScalar.makeConst (.real (i : ℚ)) : S) = (i : S) := by
  have := ConstScalar.mk_real (S := S) (i : ℚ)
  simpa using this

/-- The factory function `L(n)` (examples/virasoro_algebra.cpp:125-130). -/
def virL (n : Int) : Expr (AllGen ι VirasoroGen) S := userGen ⟨n⟩

/-- **C75** The defining relations hold for all `m`, `n`: `[L_m, L_n] = (m-n) L_{m+n} + c (m³-m) δ_{m,-n}` with `c = 2`. -/
theorem C75_virasoro_commutator (m n : Int) :
    (virL m * virL n - virL n * virL m : Expr (AllGen ι VirasoroGen) S).eqOp
      (((m - n : Int) : S) • virL (m + n) + Expr.const (if m = -n then ((2 * (m * m * m - m) : Int) : S) else 0)) = true := by
  classical
  have := AllGen.lawful (ι := ι) virasoro_order
  have := AllGen.goodGen (ι := ι) virasoro_order virasoro_noZeros
  have hm : ∀ m n : Int, (virL m * virL n : Expr (AllGen ι VirasoroGen) S).WF := fun u v => wf_mul (wf_userGen _) (wf_userGen _)
  have hs : ∀ (x : S) (n : Int), (x • virL n : Expr (AllGen ι VirasoroGen) S).WF := fun x n => wf_smulPrefix _ (wf_userGen _)
  have key : ∀ m n : Int, n < m → ∀ k : List (AllGen ι VirasoroGen),
      (virL m * virL n : Expr (AllGen ι VirasoroGen) S).coeff k = (virL n * virL m : Expr (AllGen ι VirasoroGen) S).coeff k +
        ((((m - n : Int) : S) • virL (m + n) + Expr.const (if m = -n then ((2 * (m * m * m - m) : Int) : S) else 0) :
          Expr (AllGen ι VirasoroGen) S)).coeff k := by
    intro m n h k
    have h1 := C75_swap_relation (ι := ι) (S := S) virasoro_order virasoro_noZeros (⟨m⟩ : VirasoroGen) ⟨n⟩ rfl
      (by simpa [UserGen.greater, UserGen.defaultGreater] using h) (by simp [UserGen.simplifyProd, h.ne])
    rw [eqOp_iff] at h1
    have hw := (linExpr_spec (ι := ι) (S := S) (UserGen.swapWith (⟨m⟩ : VirasoroGen) ⟨n⟩).2).1
    have hsw : ((ConstScalar.makeConst (UserGen.swapWith (⟨m⟩ : VirasoroGen) ⟨n⟩).1 : S) • (userGen ⟨n⟩ * userGen ⟨m⟩) :
      Expr (AllGen ι VirasoroGen) S).WF := wf_smulPrefix _ (hm _ _)
    have h2 := congrArg (fun x => x.coeff k) h1
    change (virL m * virL n : Expr (AllGen ι VirasoroGen) S).coeff k = _ at h2
    rw [h2, coeff_add hsw hw, smul_def, coeff_smulPrefix]
    congr 1
    · simp only [UserGen.swapWith, ConstScalar.mk_integer, Int.cast_one, one_mul]; rfl
    · have e : (ConstScalar.makeConst (UserGen.swapWith (⟨m⟩ : VirasoroGen) ⟨n⟩).2.const : S) =
          if m = -n then ((2 * (m * m * m - m) : Int) : S) else 0 := by
        simp only [UserGen.swapWith]
        split
        · have := mk_real_int (S := S) (2 * (m * m * m - m))
          push_cast at this ⊢
          exact this
        · have := mk_real_int (S := S) 0
          simpa using this
      have : (linExpr (UserGen.swapWith (⟨m⟩ : VirasoroGen) ⟨n⟩).2 : Expr (AllGen ι VirasoroGen) S) =
          Expr.const (if m = -n then ((2 * (m * m * m - m) : Int) : S) else 0) + ((m - n : Int) : S) • virL (m + n) := by
        rw [← e, linExpr]
        simp only [UserGen.swapWith, List.foldl_cons, List.foldl_nil, ConstScalar.mk_integer]
        rfl
      rw [this, coeff_add (wf_const _) (hs _ _), coeff_add (hs _ _) (wf_const _), add_comm]
  rw [eqOp_iff]
  refine ext_coeff (wf_sub (hm _ _) (hm _ _)) (wf_add (hs _ _) (wf_const _)) fun k => ?_
  rw [coeff_sub (hm _ _) (hm _ _)]
  rcases lt_trichotomy n m with h | h | h
  · rw [key m n h k, add_sub_cancel_left]
  · subst h
    rw [sub_self, coeff_add (hs _ _) (wf_const _), smul_def, coeff_smulPrefix, coeff_const]
    have : ∀ x : Int, x = -x → x = 0 := fun x h => by omega
    by_cases h0 : n = -n
    · have := this _ h0; subst this; simp
    · simp [h0]
  · rw [key n m h k, sub_add_cancel_left, coeff_add (hs _ _) (wf_const _), coeff_add (hs _ _) (wf_const _), smul_def, smul_def,
      coeff_smulPrefix, coeff_smulPrefix, coeff_const, coeff_const, add_comm n m, neg_add, ← neg_mul, ← Int.cast_neg, neg_sub]
    congr 1
    by_cases hk : k = []
    · rw [if_pos hk, if_pos hk]
      by_cases e : n = -m
      · rw [if_pos e, if_pos (by omega), e, ← Int.cast_neg]
        congr 1; ring
      · rw [if_neg e, if_neg (by omega), neg_zero]
    · rw [if_neg hk, if_neg hk, neg_zero]

end LC
