import Verif.Spec.CTypes
import Verif.Spec.Scalars
import Verif.Proof.Tolerance
import Verif.Props.AnyScalar
import Mathlib.Data.Complex.Basic
import Mathlib.Algebra.Order.Ring.Abs
import Mathlib.Tactic.Linarith
/-
C66: scalar types with a tolerance in the zero test (floating point).
-/
set_option linter.unusedSectionVars false
set_option linter.unusedSimpArgs false
namespace LC
open Terms

/-- A target that only counts how many times the monomial `k` is stored. -/
def countStore {G S : Type _} [GenOps G] (k : List G) (m : List G) (_ : S) (n : Nat) : Nat :=
  if monEq m k then n + 1 else n

/-- The number of contributions to the monomial `k` when the product of `a` and `b` is multiplied out exactly: how many
times normalising the products of their monomials stores `k`. -/
def contributions {G S : Type _} [GenOps G] [CommRing S] [DecidableEq S] [ConstScalar S] (a b : Expr G S) (k : List G) : Nat :=
  a.terms.foldl (fun n m1 => b.terms.foldl (fun n m2 => LC.normalize (countStore k) (m1.1 ++ m2.1) (m1.2 * m2.2) n) n) 0

section
variable {ι S : Type _} [LinearOrder ι] [CommRing S] [DecidableEq S] [ConstScalar S] [ScalarLaws S]
  [ScalarOps S]

theorem contributions_eq {G : Type _} [GenOps G] [LawfulGen G] (a b : Expr G S) (k : List G) :
    contributions a b k = Any.countAt (Expr.mulLog a.terms b.terms) k := by
  have hfold : ∀ (l : List (List G × S)) (n : Nat),
      l.foldl (fun n p => countStore k p.1 p.2 n) n = n + Any.countAt l k := by
    intro l
    induction l with
    | nil => intro n; rfl
    | cons p l ih =>
      intro n
      rw [List.foldl_cons, ih]
      simp only [countStore, Any.countAt, List.countP_cons]
      by_cases e : p.1 = k
      · have e2 : monEq k k = true := (monEq_iff _ _).2 rfl
        simp only [e2, if_true, e, decide_true]; omega
      · have : monEq p.1 k = false := by
          cases h : monEq p.1 k with
          | false => rfl
          | true => exact absurd ((monEq_iff _ _).1 h) e
        simp [e, this]
  have happ : ∀ l l' : List (List G × S), Any.countAt (l ++ l') k = Any.countAt l k + Any.countAt l' k := by
    intro l l'; simp [Any.countAt]
  have h2 : ∀ (p : List G × S) (u : Terms G S) (n : Nat),
      u.foldl (fun n m2 => LC.normalize (countStore k) (p.1 ++ m2.1) (p.2 * m2.2) n) n
        = n + Any.countAt (u.flatMap fun q => LC.emits (p.1 ++ q.1) (p.2 * q.2)) k := by
    intro p u
    induction u with
    | nil => intro n; rfl
    | cons q u ih =>
      intro n
      rw [List.foldl_cons, ih, LC.normalize_eq_foldl, hfold, List.flatMap_cons, happ]; omega
  have h1 : ∀ (t : Terms G S) (n : Nat),
      t.foldl (fun n m1 => b.terms.foldl (fun n m2 => LC.normalize (countStore k) (m1.1 ++ m2.1) (m1.2 * m2.2) n) n) n
        = n + Any.countAt (Expr.mulLog t b.terms) k := by
    intro t
    simp only [Expr.mulLog]
    induction t with
    | nil => intro n; rfl
    | cons p t ih => intro n; rw [List.foldl_cons, ih, h2, List.flatMap_cons, happ]; omega
  rw [contributions, h1, Nat.zero_add]

variable {ν : S → ℝ} {ε : ℝ}

/-- A product with the scalar type's tolerance stores strictly increasing monomials. -/
theorem Any.Reachable.sortedTerms {G : Type _} [GenOps G] [LawfulGen G] {P : G → Prop} {e : Expr G S}
    (h : Any.Reachable P e) : e.terms.Sorted := by
  have : Any.Reachable (fun _ => True) e := by
    induction h with
    | zero => exact .zero
    | const x => exact .const _
    | ofMonomial x m _ => exact .ofMonomial _ _ (fun _ _ => trivial)
    | add _ _ i j => exact .add i j
    | sub _ _ i j => exact .sub i j
    | mul _ _ i j => exact .mul i j
    | neg _ i => exact .neg i
    | smulPrefix x _ i => exact .smulPrefix _ i
    | smulPostfix x _ i => exact .smulPostfix _ i
    | addScalar x _ i => exact .addScalar _ i
    | addAssignScalar x _ i => exact .addAssignScalar _ i
    | subScalar x _ i => exact .subScalar _ i
    | scalarSub x _ i => exact .scalarSub _ i
    | transform f _ i => exact .transform _ i
    | conj _ i => exact .conj i
  exact (Any.good_reachable Any.monInv_true (fun _ _ _ _ => trivial) this).sorted

/-- **C66** With exact arithmetic and a zero test of tolerance `ε`, every coefficient of a sum or difference differs from
the exact one by at most `ε`. -/
theorem C66_sum_error (h : ExactUpTo S ν ε) {G : Type _} [GenOps G] [LawfulGen G] {P : G → Prop} {a b : Expr G S}
    (ha : Any.Reachable P a) (hb : Any.Reachable P b) (k : List G) :
    ν ((Any.addAssign a b).coeff k - (a.coeff k + b.coeff k)) ≤ ε ∧
    ν ((Any.subAssign a b).coeff k - (a.coeff k - b.coeff k)) ≤ ε := by
  have he := Any.ExactUpTo.eps_nonneg h
  have hsa := ha.sortedTerms
  have hsb := hb.sortedTerms
  have hz : (Any.zero : S) = 0 := by rw [Any.zero, h.makeConst, ConstScalar.mk_integer]; simp
  constructor
  · simp only [Expr.coeff, Terms.coeff]
    rw [Any.find?_addAssign hsa hsb]
    cases a.terms.find? k <;> cases b.terms.find? k <;> simp [updOpt, Any.plus, h.size_zero, he, h.add]
    rename_i x y
    by_cases hc : ScalarOps.isZero (x + y) = true
    · simp only [hc, if_true, Option.getD_none, zero_sub]; rw [h.size_neg]; exact h.small _ hc
    · simp [hc, h.size_zero, he]
  · simp only [Expr.coeff, Terms.coeff]
    rw [Any.find?_subAssign hsa hsb]
    cases a.terms.find? k <;> cases b.terms.find? k <;> simp [updOpt, Any.minus, h.size_zero, he, h.sub, hz]
    rename_i x y
    by_cases hc : ScalarOps.isZero (x - y) = true
    · simp only [hc, if_true, Option.getD_none, zero_sub]; rw [h.size_neg]; exact h.small _ hc
    · simp [hc, h.size_zero, he]

/-- **C66** With exact arithmetic and a zero test of tolerance `ε`, a coefficient of a product differs from the exact one
by at most `ε` times the number of contributions to it. -/
theorem C66_product_error (h : ExactUpTo S ν ε) {M : Nat → ι → Prop} (hM : HalfAlone M) {a b : Expr (Gen ι) S}
    (ha : Any.Reachable (Allowed M) a) (hb : Any.Reachable (Allowed M) b) (k : List (Gen ι)) :
    ν ((Any.mulAssign a b).coeff k - (Expr.mulAssign a b).coeff k) ≤ ε * contributions a b k := by
  have hga := Any.good_reachable (Any.monInv_canon (nfGen M hM)) (conjOK M).mem ha
  have hgb := Any.good_reachable (Any.monInv_canon (nfGen M hM)) (conjOK M).mem hb
  have hd := Any.mulLog_dropped (nfGen M hM) h.toExactArith h.isZero_zero a.terms b.terms
    (fun p hp => (hga.canon p hp).mem) (fun p hp => (hgb.canon p hp).mem)
  have := Any.coeff_storeAll_err h hd (t := []) List.Pairwise.nil k
  rw [contributions_eq, Any.mulAssign_eq, show Expr.mulAssign a b = a * b from rfl, Expr.mul_def]
  simp only [Expr.coeff]
  rw [coeff_storeAll (S := S) (t := []) _ List.Pairwise.nil]
  exact this

/-- **C66** The expression built from a coefficient and a product of generators: every coefficient differs from the exact
one by at most `ε` times the number of contributions to it. -/
theorem C66_monomial_error (h : ExactUpTo S ν ε) {M : Nat → ι → Prop} (hM : HalfAlone M) (x : S)
    (hx : ScalarOps.isZero x = false) (m : List (Gen ι)) (hm : ∀ g ∈ m, Allowed M g) (k : List (Gen ι)) :
    ν ((Any.ofMonomial x m).coeff k - (Expr.ofMonomial x m).coeff k)
      ≤ ε * (LC.normalize (countStore k) m x 0 : Nat) := by
  have hd := Any.emits_dropped (nfGen M hM) h.toExactArith h.isZero_zero m x hm
  have := Any.coeff_storeAll_err h hd (t := []) List.Pairwise.nil k
  have hx0 : x ≠ 0 := by rintro rfl; rw [h.isZero_zero] at hx; cases hx
  have hc : LC.normalize (countStore k) m x 0 = Any.countAt (LC.emits m x) k := by
    have := contributions_eq (S := S) (⟨[(m, x)]⟩ : Expr (Gen ι) S) ⟨[([], 1)]⟩ k
    simpa [contributions, Expr.mulLog] using this
  simp only [Any.ofMonomial, Expr.ofMonomial, hx, hx0, if_false, Expr.coeff, Bool.false_eq_true, Any.normalize_store,
    LC.normalize_store]
  rw [coeff_storeAll (S := S) (t := []) _ List.Pairwise.nil, hc]
  exact this

/-- **C66** With an exact zero test (integers, rationals, symbolic numbers) the model with an arbitrary scalar type
coincides with the exact model, so that all statements about the latter hold. -/
theorem C66_exact_scalars [Star S] (h : ExactScalar S) {G : Type _} [GenOps G] (a b : Expr G S) (x : S) (m : List G) :
    Any.addAssign a b = a + b ∧ Any.subAssign a b = a - b ∧ Any.mulAssign a b = a * b ∧ Any.neg a = -a ∧
    Any.smulPrefix x a = x • a ∧ Any.smulPostfix a x = Expr.smulPostfix a x ∧
    Any.addScalar a x = Expr.addScalar a x ∧ Any.addAssignScalar a x = Expr.addAssignScalar a x ∧
    Any.subScalar a x = Expr.subScalar a x ∧ Any.scalarSub x a = Expr.scalarSub x a ∧
    (Any.const x : Expr G S) = Expr.const x ∧ Any.ofMonomial x m = Expr.ofMonomial x m ∧
    Any.conj a = Expr.conj a ∧ Any.eqOp a b = Expr.eqOp a b :=
  ⟨Any.addAssign_exact h a b, Any.subAssign_exact h a b, Any.mulAssign_exact h a b, Any.neg_exact h a,
    Any.smulPrefix_exact h x a, Any.smulPostfix_exact h x a, Any.addScalar_exact h x a, Any.addAssignScalar_exact h x a,
    Any.subScalar_exact h x a, Any.scalarSub_exact h x a, Any.const_exact h x, Any.ofMonomial_exact h x m,
    Any.conj_exact h a, Any.eqOp_exact h a b⟩

end

/-! ### Non-vacuity -/

/-- Rational numbers with a tolerance satisfy the hypotheses. -/
theorem exactUpTo_tolOps (ε : ℚ) (hε : 0 < ε) :
    @ExactUpTo ℚ _ _ (tolOps ε) (fun x => ((|x| : ℚ) : ℝ)) (ε : ℝ) := by
  let _ := tolOps ε
  refine { add := fun _ _ => rfl, sub := fun _ _ => rfl, mul := fun _ _ => rfl, neg := fun _ => rfl, makeConst := ?_,
           isZero_zero := by simp [ScalarOps.isZero, hε], small := ?_, size_zero := by simp, size_add := ?_, size_neg := ?_ }
  · intro v
    cases v with
    | real x => exact (show x = (x.num : ℚ) / ((x.den : Int) : ℚ) by simpa using (Rat.num_div_den x).symm)
    | _ => rfl
  · intro x hx
    have : |x| < ε := by simpa [ScalarOps.isZero] using hx
    exact_mod_cast this.le
  · intro x y; exact_mod_cast abs_add_le x y
  · intro x; simp

/-- Complex numbers with the zero test of scalar_traits.hpp:98-103: both parts are below the tolerance. -/
@[reducible] noncomputable def complexTol (ε : ℝ) : ScalarOps ℂ where
  isZero x := by classical exact decide (|x.re| < ε ∧ |x.im| < ε)
  makeConst v := ConstScalar.makeConst v
  conj x := star x
  add x y := x + y
  sub x y := x - y
  mul x y := x * y
  neg x := - x
  eq x y := by classical exact decide (x = y)

/-- Complex numbers with the library's zero test satisfy the hypotheses, with the larger of `|Re|`, `|Im|` as the size. -/
theorem exactUpTo_complexTol (ε : ℝ) (hε : 0 < ε) :
    @ExactUpTo ℂ _ _ (complexTol ε) (fun x => max |x.re| |x.im|) ε := by
  let _ := complexTol ε
  refine { add := fun _ _ => rfl, sub := fun _ _ => rfl, mul := fun _ _ => rfl, neg := fun _ => rfl,
           makeConst := fun _ => rfl,
           isZero_zero := by simp [ScalarOps.isZero, hε], small := ?_, size_zero := by simp, size_add := ?_, size_neg := ?_ }
  · intro x hx
    have : |x.re| < ε ∧ |x.im| < ε := by simpa [ScalarOps.isZero] using hx
    exact max_le this.1.le this.2.le
  · intro x y
    refine max_le ?_ ?_
    · exact (abs_add_le x.re y.re).trans (add_le_add (le_max_left _ _) (le_max_left _ _))
    · exact (abs_add_le x.im y.im).trans (add_le_add (le_max_right _ _) (le_max_right _ _))
  · intro x; simp

/-- Non-vacuity of `C66_product_error`: `(c†_0 + c_0) (c_0 + c†_0)` has two contributions to the monomial `c†_0 c_0`
and one to the constant. -/
example : contributions (S := ℚ) ⟨[([Gen.fermion true 0], 1), ([Gen.fermion false (0 : Nat)], 1)]⟩
      ⟨[([Gen.fermion true 0], 1), ([Gen.fermion false 0], 1)]⟩ [Gen.fermion true 0, Gen.fermion false 0] = 2 ∧
    contributions (S := ℚ) ⟨[([Gen.fermion true 0], 1), ([Gen.fermion false (0 : Nat)], 1)]⟩
      ⟨[([Gen.fermion true 0], 1), ([Gen.fermion false 0], 1)]⟩ [] = 1 := by
  refine ⟨?_, ?_⟩ <;> decide +kernel

/-- The bound is attained up to a factor: with tolerance 1, `(0.9 c†_0 c_0) * 1 = 0`, an error of 0.9 with one
contribution. -/
example : (@Any.mulAssign (Gen Nat) ℚ _ (tolOps 1) ⟨[([Gen.fermion true 0, Gen.fermion false 0], 9 / 10)]⟩ ⟨[([], 1)]⟩).terms
    = [] := by decide +kernel

/-- Rational numbers with the exact zero test. -/
@[reducible] def ratOps : ScalarOps ℚ where
  isZero x := decide (x = 0)
  makeConst v := v.toRat
  conj x := x
  add x y := x + y
  sub x y := x - y
  mul x y := x * y
  neg x := - x
  eq x y := decide (x = y)

/-- Rational numbers with the exact zero test satisfy the hypothesis of `C66_exact_scalars`. -/
example : @ExactScalar ℚ _ _ _ ratOps := by
  let _ := ratOps
  exact { add := fun _ _ => rfl, sub := fun _ _ => rfl, mul := fun _ _ => rfl, neg := fun _ => rfl,
          makeConst := fun v => by
            cases v with
            | real x => exact (show x = (x.num : ℚ) / ((x.den : Int) : ℚ) by simpa using (Rat.num_div_den x).symm)
            | _ => rfl
          isZero := fun x => by simp [ScalarOps.isZero],
          conj := fun _ => rfl, eq := fun x y => by simp [ScalarOps.eq] }

end LC
