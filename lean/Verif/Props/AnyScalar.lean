import Verif.Spec.CTypes
import Verif.Proof.AnyCoeff
import Verif.Props.Normalisation
/-
C64, C65: what holds for every scalar type, whatever its arithmetic and its `is_zero` do.
-/
set_option linter.unusedSectionVars false
set_option linter.unusedSimpArgs false
namespace LC
open Terms

section
universe u
variable {ι G U : Type _} {El : U → Type u} [LinearOrder ι] [GenOps G] [LawfulGen G] [F : ScalarFamily U El] {s t r : U}

/-- **C64** A program that uses any number of scalar types and any generators (of a totally ordered family) only builds
expressions that list strictly increasing monomials: no monomial is stored twice. Nothing is assumed about the
arithmetic of the scalar types. -/
theorem C64_monomials_strictly_increasing {e : Expr G (El s)} (h : MixedReachable (fun _ => True) s e) :
    (e.terms.map Prod.fst).Pairwise (fun k₁ k₂ => monLt k₁ k₂ = true) ∧ (e.terms.map Prod.fst).Nodup := by
  have hs := (good_mixedReachable Any.monInv_true (fun _ _ _ _ => trivial) h).sorted
  have hp : (e.terms.map Prod.fst).Pairwise (fun k₁ k₂ => monLt k₁ k₂ = true) := by
    rw [List.pairwise_map]; exact hs
  refine ⟨hp, hp.imp ?_⟩
  intro a b hab heq
  subst heq
  simp [monLt_irrefl] at hab

/-- **C64** A program that uses any number of scalar types and the predefined generators only stores monomials in
normal form: ordered, without any neighbours to swap or to simplify, without vanishing powers. -/
theorem C64_normal_form {M : Nat → ι → Prop} (hM : HalfAlone M) {e : Expr (Gen ι) (El s)}
    (h : MixedReachable (Allowed M) s e) : ∀ p ∈ e.terms, StoredForm p.1 :=
  fun p hp => storedForm_of_canon
    ((good_mixedReachable (Any.monInv_canon (nfGen M hM)) (conjOK M).mem h).canon p hp)

/-- What the theorems below use of a program. -/
theorem MixedReachable.sortedTerms {P : G → Prop} {e : Expr G (El s)} (h : MixedReachable P s e) : e.terms.Sorted := by
  have : MixedReachable (fun _ => True) s e := by
    induction h with
    | zero => exact .zero _
    | const s x => exact .const _ _
    | constOf s t x => exact .constOf _ _ _
    | ofMonomial s x m _ => exact .ofMonomial _ _ _ (fun _ _ => trivial)
    | ofMonomialOf s t x m _ => exact .ofMonomialOf _ _ _ _ (fun _ _ => trivial)
    | convert s t _ ih => exact .convert _ _ ih
    | addSame s _ _ i j => exact .addSame _ i j
    | subSame s _ _ i j => exact .subSame _ i j
    | mulSame s _ _ i j => exact .mulSame _ i j
    | negSame s _ i => exact .negSame _ i
    | smulPrefixSame s x _ i => exact .smulPrefixSame _ _ i
    | smulPostfixSame s x _ i => exact .smulPostfixSame _ _ i
    | addScalarSame s x _ i => exact .addScalarSame _ _ i
    | addAssignScalarSame s x _ i => exact .addAssignScalarSame _ _ i
    | subScalarSame s x _ i => exact .subScalarSame _ _ i
    | scalarSubSame s x _ i => exact .scalarSubSame _ _ i
    | conj s _ i => exact .conj _ i
    | transform s t f _ i => exact .transform _ _ _ i
    | addAssign s t _ _ i j => exact .addAssign _ _ i j
    | subAssign s t _ _ i j => exact .subAssign _ _ i j
    | mulAssign s t _ _ i j => exact .mulAssign _ _ i j
    | add s t r _ _ i j => exact .add _ _ _ i j
    | sub s t r _ _ i j => exact .sub _ _ _ i j
    | mul s t r _ _ i j => exact .mul _ _ _ i j
    | neg s r _ i => exact .neg _ _ i
    | smulPostfix s t r x _ i => exact .smulPostfix _ _ _ _ i
    | smulPrefix s t r x _ i => exact .smulPrefix _ _ _ _ i
    | smulAssign s t x _ i => exact .smulAssign _ _ _ i
    | addScalar s t r x _ i => exact .addScalar _ _ _ _ i
    | subScalar s t r x _ i => exact .subScalar _ _ _ _ i
    | scalarSub s t r x _ i => exact .scalarSub _ _ _ _ i
    | addAssignScalar s t x _ i => exact .addAssignScalar _ _ _ i
    | subAssignScalar s t x _ i => exact .subAssignScalar _ _ _ i
  exact (good_mixedReachable Any.monInv_true (fun _ _ _ _ => trivial) this).sorted

variable {P : G → Prop}

/-- The monomial `k` is not in the expression. -/
def Absent {S : Type _} (k : List G) (e : Expr G S) : Prop := ∀ v, (k, v) ∉ e.terms

theorem find?_none_iff {S : Type _} {e : Expr G S} (h : e.terms.Sorted) {k : List G} :
    e.terms.find? k = none ↔ Absent k e := by
  constructor
  · intro hn v hv; rw [(find?_iff h).2 hv] at hn; cases hn
  · intro ha
    cases hf : e.terms.find? k with
    | none => rfl
    | some v => exact absurd ((find?_iff h).1 hf) (ha v)

/-- **C65** The coefficients of a sum, for any scalar type: a monomial of exactly one operand keeps its coefficient, a
monomial of both operands gets the sum of the coefficients (computed by the scalar type's `+`, once), unless `is_zero`
holds for this sum. -/
theorem C65_sum {a b : Expr G (El s)} (ha : MixedReachable P s a) (hb : MixedReachable P s b) (k : List G) (w : El s) :
    (k, w) ∈ (Any.addAssign a b).terms ↔
      ((k, w) ∈ a.terms ∧ Absent k b) ∨ ((k, w) ∈ b.terms ∧ Absent k a) ∨
        ∃ x y, (k, x) ∈ a.terms ∧ (k, y) ∈ b.terms ∧ w = ScalarOps.add x y ∧ ScalarOps.isZero (ScalarOps.add x y) = false := by
  have hsa := ha.sortedTerms
  have hsb := hb.sortedTerms
  rw [← find?_iff (Any.sorted_addAssign hsa), Any.find?_addAssign hsa hsb, ← find?_none_iff hsa, ← find?_none_iff hsb]
  simp only [← find?_iff hsa, ← find?_iff hsb]
  cases h1 : a.terms.find? k <;> cases h2 : b.terms.find? k <;> simp [updOpt, Any.plus]
  rw [and_comm, eq_comm]

/-- **C65** The coefficients of a difference, for any scalar type: a monomial of the left operand only keeps its
coefficient, a monomial of the right operand only gets `0 - y`, a monomial of both gets the difference, unless `is_zero`
holds for it. -/
theorem C65_difference {a b : Expr G (El s)} (ha : MixedReachable P s a) (hb : MixedReachable P s b) (k : List G)
    (w : El s) :
    (k, w) ∈ (Any.subAssign a b).terms ↔
      ((k, w) ∈ a.terms ∧ Absent k b) ∨
      (∃ y, (k, y) ∈ b.terms ∧ Absent k a ∧ w = ScalarOps.sub (ScalarOps.makeConst (S := El s) (.integer 0)) y) ∨
        ∃ x y, (k, x) ∈ a.terms ∧ (k, y) ∈ b.terms ∧ w = ScalarOps.sub x y ∧ ScalarOps.isZero (ScalarOps.sub x y) = false := by
  have hsa := ha.sortedTerms
  have hsb := hb.sortedTerms
  rw [← find?_iff (Any.sorted_subAssign hsa), Any.find?_subAssign hsa hsb, ← find?_none_iff hsa, ← find?_none_iff hsb]
  simp only [← find?_iff hsa, ← find?_iff hsb]
  cases h1 : a.terms.find? k <;> cases h2 : b.terms.find? k <;> simp [updOpt, Any.minus, Any.zero]
  · rw [eq_comm]
  · rw [and_comm, eq_comm]

/-- **C65** The coefficients of a product with a scalar, and of unary minus, for any scalar type: one operation per
monomial, and no monomial is dropped (unless `is_zero` holds for the scalar). -/
theorem C65_scaling (a : Expr G (El s)) (x : El s) (k : List G) (w : El s) :
    ((k, w) ∈ (Any.smulPrefix x a).terms ↔
      ScalarOps.isZero x = false ∧ ∃ v, (k, v) ∈ a.terms ∧ w = ScalarOps.mul x v) ∧
    ((k, w) ∈ (Any.smulPostfix a x).terms ↔
      ScalarOps.isZero x = false ∧ ∃ v, (k, v) ∈ a.terms ∧ w = ScalarOps.mul v x) ∧
    ((k, w) ∈ (Any.neg a).terms ↔ ∃ v, (k, v) ∈ a.terms ∧ w = ScalarOps.neg v) := by
  refine ⟨?_, ?_, ?_⟩
  · simp only [Any.smulPrefix]
    cases h : ScalarOps.isZero x <;> simp [eq_comm]
  · simp only [Any.smulPostfix]
    cases h : ScalarOps.isZero x <;> simp [eq_comm]
  · simp [Any.neg, eq_comm]

/-- **C65** Addition of expressions is commutative whenever addition of their coefficients is, and the zero expression is
neutral on both sides; no other law of the scalar type is needed (the coefficients need not be associative, so `+` of
expressions is in general not associative). -/
theorem C65_commutative {a b : Expr G (El s)} (ha : MixedReachable P s a) (hb : MixedReachable P s b)
    (hc : ∀ k x y, (k, x) ∈ a.terms → (k, y) ∈ b.terms → ScalarOps.add x y = ScalarOps.add y x) :
    Any.addAssign a b = Any.addAssign b a ∧ Any.addAssign a ⟨[]⟩ = a ∧ Any.addAssign ⟨[]⟩ a = a := by
  have hsa := ha.sortedTerms
  have hsb := hb.sortedTerms
  refine ⟨?_, rfl, ?_⟩
  · refine Expr.ext (ext_find? (Any.sorted_addAssign hsa) (Any.sorted_addAssign hsb) fun k => ?_)
    rw [Any.find?_addAssign hsa hsb, Any.find?_addAssign hsb hsa]
    cases h1 : a.terms.find? k <;> cases h2 : b.terms.find? k <;> simp [updOpt, Any.plus]
    rw [hc k _ _ ((find?_iff hsa).1 h1) ((find?_iff hsb).1 h2)]
  · have hz : (⟨[]⟩ : Expr G (El s)).terms.Sorted := List.Pairwise.nil
    refine Expr.ext (ext_find? (Any.sorted_addAssign hz) hsa fun k => ?_)
    rw [Any.find?_addAssign hz hsa]
    cases h1 : a.terms.find? k <;> simp [updOpt, find?]

/-- **C65** `a - a` is the zero expression if and only if `is_zero(x - x)` holds for every coefficient `x`
(it does not for infinities and NaNs). -/
theorem C65_sub_self {a : Expr G (El s)} (ha : MixedReachable P s a) :
    Any.subAssign a a = ⟨[]⟩ ↔ ∀ p ∈ a.terms, ScalarOps.isZero (ScalarOps.sub p.2 p.2) = true := by
  constructor
  · intro h p hp
    by_contra hne
    have : (p.1, ScalarOps.sub p.2 p.2) ∈ (Any.subAssign a a).terms :=
      (C65_difference ha ha _ _).2 (.inr (.inr ⟨p.2, p.2, hp, hp, rfl, by simpa using hne⟩))
    rw [h] at this; simp at this
  · intro h
    refine Expr.ext (List.eq_nil_iff_forall_not_mem.2 fun p hp => ?_)
    rcases (C65_difference ha ha p.1 p.2).1 hp with ⟨h1, h2⟩ | ⟨y, h1, h2, _⟩ | ⟨x, y, h1, h2, _, h4⟩
    · exact h2 _ h1
    · exact h2 _ h1
    · have : x = y := by
        have e1 := (find?_iff ha.sortedTerms).2 h1
        have e2 := (find?_iff ha.sortedTerms).2 h2
        rw [e1] at e2; injection e2
      subst this
      rw [h _ h1] at h4; cases h4

end
end LC
