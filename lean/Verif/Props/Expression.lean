import Verif.Spec.Scalars
import Verif.Proof.Conj
/-
C07–C10, C19–C21: expressions as coefficient maps.
`Expr.eqOp a b = true` is the library's `a == b`; `Reachable P e` says that `e` was obtained by some program over the API
from generators satisfying `P` (any `P`).
-/
set_option linter.unusedSectionVars false
namespace LC
open Expr
variable {ι S : Type _} [LinearOrder ι] [CommRing S] [DecidableEq S] [ConstScalar S] [ScalarLaws S] [IsDomain S]
  [CharZero S] [Star S] {P : Gen ι → Prop} {a b c : Expr (Gen ι) S}

theorem Reachable.wfG (h : Reachable P a) : a.WF := h.wf (conjOK (fun _ _ => True)).good

/-- **C07** After any sequence of constructions and arithmetic operations the monomials of an expression are pairwise
distinct and iterated in strictly increasing order, and no coefficient is zero. -/
theorem C07_canonical_map (h : Reachable P a) :
    a.terms.Pairwise (fun p q => monLt p.1 q.1 = true) ∧ (a.terms.map Prod.fst).Nodup ∧ ∀ p ∈ a.terms, p.2 ≠ 0 := by
  have hw := h.wfG
  refine ⟨hw.1, ?_, hw.2⟩
  rw [List.nodup_iff_pairwise_ne, List.pairwise_map]
  exact hw.1.imp fun h => monLt_ne h

/-- **C07** for the constructor from a product of generators, with any scalars in a domain of characteristic zero and
any generator family whose relations have non-zero coefficients. -/
theorem C07_constructor {G : Type _} [GenOps G] [LawfulGen G] [GoodGen G] (x : S) (m : List G) :
    (Expr.ofMonomial x m).terms.Pairwise (fun p q => monLt p.1 q.1 = true) ∧
      ∀ p ∈ (Expr.ofMonomial x m).terms, p.2 ≠ 0 := wf_ofMonomial x m

/-- A non-trivial reachable expression: `2 c†_1 c_2 + 1/2`. -/
def sample : Expr (Gen Nat) ℚ := (2 : ℚ) • (Factory.cDag 1 * Factory.c 2) + Expr.const (1 / 2)

theorem sample_reachable : Reachable (fun _ => True) sample :=
  .add (.smulPrefix _ (.mul (.ofMonomial _ _ (by simp)) (.ofMonomial _ _ (by simp)))) (.const _)

example : sample.terms = [([], 1/2), ([.fermion true 1, .fermion false 2], 2)] := by decide +kernel

/-- **C08** Addition is commutative and associative. -/
theorem C08_add_comm_assoc (ha : Reachable P a) (hb : Reachable P b) (hc : Reachable P c) :
    (a + b).eqOp (b + a) = true ∧ ((a + b) + c).eqOp (a + (b + c)) = true := by
  have ha := ha.wfG; have hb := hb.wfG; have hc := hc.wfG
  rw [eqOp_iff, eqOp_iff]
  constructor
  · refine ext_coeff (wf_add ha hb) (wf_add hb ha) fun k => ?_
    rw [coeff_add ha hb, coeff_add hb ha, add_comm]
  · refine ext_coeff (wf_add (wf_add ha hb) hc) (wf_add ha (wf_add hb hc)) fun k => ?_
    rw [coeff_add (wf_add ha hb) hc, coeff_add ha hb, coeff_add ha (wf_add hb hc), coeff_add hb hc, add_assoc]

/-- **C08** The default-constructed expression is neutral, `-a` is the inverse of `a`, subtraction is addition of the
negative, and negation is involutive. -/
theorem C08_zero_neg_sub (ha : Reachable P a) (hb : Reachable P b) :
    (a + 0).eqOp a = true ∧ ((0 : Expr (Gen ι) S) + a).eqOp a = true ∧ (a - a).eqOp 0 = true ∧
    (a + -a).eqOp 0 = true ∧ (a - b).eqOp (a + -b) = true ∧ (- -a).eqOp a = true := by
  have ha := ha.wfG; have hb := hb.wfG
  simp only [eqOp_iff]
  refine ⟨?_, ?_, ?_, ?_, ?_, ?_⟩
  · refine ext_coeff (wf_add ha wf_zero) ha fun k => ?_
    rw [coeff_add ha wf_zero, coeff_zero, add_zero]
  · refine ext_coeff (wf_add wf_zero ha) ha fun k => ?_
    rw [coeff_add wf_zero ha, coeff_zero, zero_add]
  · refine ext_coeff (wf_sub ha ha) wf_zero fun k => ?_
    rw [coeff_sub ha ha, coeff_zero, sub_self]
  · refine ext_coeff (wf_add ha (wf_neg ha)) wf_zero fun k => ?_
    rw [coeff_add ha (wf_neg ha), coeff_neg, coeff_zero, add_neg_cancel]
  · refine ext_coeff (wf_sub ha hb) (wf_add ha (wf_neg hb)) fun k => ?_
    rw [coeff_sub ha hb, coeff_add ha (wf_neg hb), coeff_neg, sub_eq_add_neg]
  · refine ext_coeff (wf_neg (wf_neg ha)) ha fun k => ?_
    rw [coeff_neg, coeff_neg, neg_neg]

/-- The coefficient of a monomial in an expression, as a user reads it off by iteration: 0 if it is absent. -/
def coeffOf (e : Expr (Gen ι) S) (m : List (Gen ι)) : S :=
  match e.terms.filter (fun p => decide (p.1 = m)) with
  | [] => 0
  | p :: _ => p.2

theorem coeffOf_eq (ha : a.WF) (m : List (Gen ι)) : coeffOf a m = a.coeff m := by
  simp only [coeffOf, coeff, Terms.coeff]
  cases h : Terms.find? m a.terms with
  | none =>
    have : a.terms.filter (fun p => decide (p.1 = m)) = [] := by
      rw [List.filter_eq_nil_iff]
      rintro ⟨k, v⟩ hp
      simp only [decide_eq_true_eq]
      rintro rfl
      rw [Terms.find?_of_mem ha.1 hp] at h; simp at h
    rw [this]; rfl
  | some v =>
    have hm := Terms.find?_mem h
    cases hf : a.terms.filter (fun p => decide (p.1 = m)) with
    | nil =>
      have := (List.filter_eq_nil_iff.1 hf) _ hm
      simp at this
    | cons q l =>
      have hq : q ∈ a.terms.filter (fun p => decide (p.1 = m)) := by rw [hf]; simp
      rw [List.mem_filter] at hq
      have h1 : q.1 = m := by simpa using hq.2
      have := Terms.find?_of_mem ha.1 (k := q.1) (v := q.2) hq.1
      rw [h1, h] at this
      simpa using this.symm

/-- **C08** What addition, subtraction and negation do to the coefficients. -/
theorem C08_coefficients (ha : Reachable P a) (hb : Reachable P b) (m : List (Gen ι)) :
    coeffOf (a + b) m = coeffOf a m + coeffOf b m ∧ coeffOf (a - b) m = coeffOf a m - coeffOf b m ∧
    coeffOf (-a) m = - coeffOf a m := by
  have ha := ha.wfG; have hb := hb.wfG
  rw [coeffOf_eq (wf_add ha hb), coeffOf_eq (wf_sub ha hb), coeffOf_eq (wf_neg ha), coeffOf_eq ha, coeffOf_eq hb]
  exact ⟨coeff_add ha hb m, coeff_sub ha hb m, coeff_neg a m⟩

/-- **C08** `==` compares the coefficients of all monomials. -/
theorem C08_eq_iff_coefficients (ha : Reachable P a) (hb : Reachable P b) :
    a.eqOp b = true ↔ ∀ m, coeffOf a m = coeffOf b m := by
  have ha := ha.wfG; have hb := hb.wfG
  rw [eqOp_iff]
  constructor
  · rintro rfl m; rfl
  · intro h
    refine ext_coeff ha hb fun k => ?_
    rw [← coeffOf_eq ha, ← coeffOf_eq hb, h]

/-- **C09** Multiplication by scalars is a module action; prefix, postfix and compound forms agree. -/
theorem C09_module (x y : S) (ha : Reachable P a) (hb : Reachable P b) :
    (x • (a + b)).eqOp (x • a + x • b) = true ∧ ((x + y) • a).eqOp (x • a + y • a) = true ∧
    ((x * y) • a).eqOp (x • (y • a)) = true ∧ ((1 : S) • a).eqOp a = true ∧ ((0 : S) • a).eqOp 0 = true ∧
    (a.smulPostfix x).eqOp (x • a) = true ∧ (a.smulAssign x).eqOp (x • a) = true ∧
    ((-1 : S) • a).eqOp (-a) = true ∧ (∀ m, coeffOf (x • a) m = x * coeffOf a m) := by
  have ha := ha.wfG; have hb := hb.wfG
  simp only [eqOp_iff, smul_def]
  refine ⟨?_, ?_, ?_, ?_, ?_, smulPostfix_eq x a, smulAssign_eq x a, ?_, ?_⟩
  · refine ext_coeff (wf_smulPrefix x (wf_add ha hb)) (wf_add (wf_smulPrefix x ha) (wf_smulPrefix x hb)) fun k => ?_
    rw [coeff_smulPrefix, coeff_add ha hb, coeff_add (wf_smulPrefix x ha) (wf_smulPrefix x hb), coeff_smulPrefix,
      coeff_smulPrefix, mul_add]
  · refine ext_coeff (wf_smulPrefix _ ha) (wf_add (wf_smulPrefix x ha) (wf_smulPrefix y ha)) fun k => ?_
    rw [coeff_smulPrefix, coeff_add (wf_smulPrefix x ha) (wf_smulPrefix y ha), coeff_smulPrefix,
      coeff_smulPrefix, add_mul]
  · refine ext_coeff (wf_smulPrefix _ ha) (wf_smulPrefix x (wf_smulPrefix y ha)) fun k => ?_
    rw [coeff_smulPrefix, coeff_smulPrefix, coeff_smulPrefix, mul_assoc]
  · refine ext_coeff (wf_smulPrefix _ ha) ha fun k => ?_
    rw [coeff_smulPrefix, one_mul]
  · refine ext_coeff (wf_smulPrefix _ ha) wf_zero fun k => ?_
    rw [coeff_smulPrefix, zero_mul, coeff_zero]
  · refine ext_coeff (wf_smulPrefix _ ha) (wf_neg ha) fun k => ?_
    rw [coeff_smulPrefix, coeff_neg, neg_one_mul]
  · intro m
    rw [coeffOf_eq (wf_smulPrefix x ha), coeffOf_eq ha, coeff_smulPrefix]

/-- **C10** Multiplication distributes over addition and is compatible with scalar multiplication. -/
theorem C10_bilinear (x : S) (ha : Reachable P a) (hb : Reachable P b) (hc : Reachable P c) :
    ((a + b) * c).eqOp (a * c + b * c) = true ∧ (a * (b + c)).eqOp (a * b + a * c) = true ∧
    ((x • a) * b).eqOp (x • (a * b)) = true ∧ (a * (x • b)).eqOp (x • (a * b)) = true ∧
    ((-a) * b).eqOp (-(a * b)) = true ∧ (a * (-b)).eqOp (-(a * b)) = true ∧
    ((0 : Expr (Gen ι) S) * a).eqOp 0 = true ∧ (a * 0).eqOp 0 = true := by
  have ha := ha.wfG; have hb := hb.wfG; have hc := hc.wfG
  have hab := wf_mul ha hb; have hac := wf_mul ha hc; have hbc := wf_mul hb hc
  simp only [eqOp_iff, smul_def]
  refine ⟨?_, ?_, ?_, ?_, ?_, ?_, ?_, ?_⟩
  · refine ext_coeff (wf_mul (wf_add ha hb) hc) (wf_add hac hbc) fun k => ?_
    rw [coeff_add hac hbc, coeff_mul, coeff_mul, coeff_mul, evalWith_expr_add]
  · refine ext_coeff (wf_mul ha (wf_add hb hc)) (wf_add hab hac) fun k => ?_
    rw [coeff_add hab hac, coeff_mul, coeff_mul, coeff_mul]
    simp only [evalWith_expr_add]
    simp only [Terms.evalWith, smul_add, List.sum_map_add]
  · refine ext_coeff (wf_mul (wf_smulPrefix x ha) hb) (wf_smulPrefix x hab) fun k => ?_
    rw [coeff_smulPrefix, coeff_mul, coeff_mul, evalWith_expr_smul, smul_eq_mul]
  · refine ext_coeff (wf_mul ha (wf_smulPrefix x hb)) (wf_smulPrefix x hab) fun k => ?_
    rw [coeff_smulPrefix, coeff_mul, coeff_mul]
    simp only [evalWith_expr_smul]
    simp only [Terms.evalWith, smul_eq_mul, ← List.sum_map_mul_left, mul_left_comm _ x]
  · refine ext_coeff (wf_mul (wf_neg ha) hb) (wf_neg hab) fun k => ?_
    rw [coeff_neg, coeff_mul, coeff_mul, evalWith_expr_neg]
  · refine ext_coeff (wf_mul ha (wf_neg hb)) (wf_neg hab) fun k => ?_
    rw [coeff_neg, coeff_mul, coeff_mul]
    simp only [evalWith_expr_neg]
    simp only [Terms.evalWith, smul_neg]
    generalize a.terms = t
    induction t with
    | nil => simp
    | cons p t ih => simp only [List.map_cons, List.sum_cons, ih, neg_add]
  · refine ext_coeff (wf_mul wf_zero ha) wf_zero fun k => ?_
    rw [coeff_mul, coeff_zero]; rfl
  · refine ext_coeff (wf_mul ha wf_zero) wf_zero fun k => ?_
    rw [coeff_mul, coeff_zero]
    show Terms.evalWith (fun m₁ => (0 : S)) a.terms = 0
    simp [Terms.evalWith]

/-- **C19** The ordered-merge implementation of `+`/`-` used for mixed scalar types agrees with the lookup/insert
implementation. -/
theorem C19_mixed_agree (ha : Reachable P a) (hb : Reachable P b) :
    (a.addMixed b).eqOp (a + b) = true ∧ (a.subMixed b).eqOp (a - b) = true := by
  have ha := ha.wfG; have hb := hb.wfG
  rw [eqOp_iff, eqOp_iff]
  exact ⟨addMixed_eq ha hb, subMixed_eq ha hb⟩

/-- **C20** Adding a scalar on either side is adding a constant expression; the compound forms agree. -/
theorem C20_scalars (x : S) (ha : Reachable P a) :
    (a.addScalar x).eqOp (a + Expr.const x) = true ∧ (Expr.scalarAdd x a).eqOp (a + Expr.const x) = true ∧
    (a.addAssignScalar x).eqOp (a + Expr.const x) = true ∧
    (a.subScalar x).eqOp (a + Expr.const (-x)) = true ∧ (a.subAssignScalar x).eqOp (a + Expr.const (-x)) = true ∧
    (a.subScalar x).eqOp (a.addScalar (-x)) = true ∧
    (Expr.scalarSub x a).eqOp (-(a.subScalar x)) = true ∧ (Expr.scalarSub x a).eqOp (Expr.const x - a) = true := by
  have ha := ha.wfG
  simp only [eqOp_iff]
  have hs : a.subScalar x = a + Expr.const (-x) := by
    rw [subScalar_eq]
    refine ext_coeff (wf_sub ha (wf_const x)) (wf_add ha (wf_const _)) fun k => ?_
    rw [coeff_sub ha (wf_const x), coeff_add ha (wf_const _), coeff_const, coeff_const]
    split <;> ring
  refine ⟨addScalar_eq a x, scalarAdd_eq a x, addAssignScalar_eq a x, hs, ?_, ?_, ?_, ?_⟩
  · rw [subAssignScalar_eq, ← subScalar_eq, hs]
  · rw [hs, addScalar_eq]
  · rw [scalarSub_eq ha, subScalar_eq]
    refine ext_coeff (wf_add (wf_neg ha) (wf_const x)) (wf_neg (wf_sub ha (wf_const x))) fun k => ?_
    rw [coeff_add (wf_neg ha) (wf_const x), coeff_neg, coeff_neg, coeff_sub ha (wf_const x)]; ring
  · rw [scalarSub_eq ha]
    refine ext_coeff (wf_add (wf_neg ha) (wf_const x)) (wf_sub (wf_const x) ha) fun k => ?_
    rw [coeff_add (wf_neg ha) (wf_const x), coeff_neg, coeff_sub (wf_const x) ha]; ring

/-- **C21** `transform(e, f)` has exactly the monomials of `e` whose image is non-zero, in the same order, with
coefficient `f(m, e[m])`. -/
theorem C21_transform {S' : Type _} [CommRing S'] [DecidableEq S'] (f : List (Gen ι) → S → S') (ha : Reachable P a) :
    (a.transform f).terms = (a.terms.map fun p => (p.1, f p.1 p.2)).filter (fun p => decide (p.2 ≠ 0)) := by
  rw [transform_terms ha.wfG]
  induction a.terms with
  | nil => rfl
  | cons p t ih =>
    simp only [List.filterMap_cons, List.map_cons, List.filter_cons]
    by_cases h : f p.1 p.2 = 0
    · simp [h, ih]
    · simp [h, ih]

example : (sample.addMixed (-sample)).eqOp 0 = true ∧ (sample.transform fun m x => if m = [] then 0 else 2 * x).terms
    = [([.fermion true 1, .fermion false 2], 4)] := by decide +kernel

end LC
