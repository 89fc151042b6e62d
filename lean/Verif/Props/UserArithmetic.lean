import Verif.Props.UserAlgebra
import Verif.Proof.Laws
/-
C76: the arithmetic laws (module structure, bilinearity, mixed arithmetic, scalars, transform) for expressions containing
user-defined generators. No relation between the user's rules is assumed: only the order and the absence of `0 * g` terms.
-/
set_option linter.unusedSectionVars false
namespace LC
open Expr Terms
variable {ι U S : Type _} [LinearOrder ι] [DecidableEq U] [UserGen U] [CommRing S] [DecidableEq S] [ConstScalar S] [ScalarLaws S] [IsDomain S]
  [CharZero S] [Star S] {P : AllGen ι U → Prop} {a b c : Expr (AllGen ι U) S}

/-- The coefficient of a monomial in an expression, as a user reads it off by iteration: 0 if it is absent. -/
def coeffOfAll (e : Expr (AllGen ι U) S) (m : List (AllGen ι U)) : S :=
  match e.terms.filter (fun p => decide (p.1 = m)) with
  | [] => 0
  | p :: _ => p.2

theorem coeffOfAll_eq (e : Expr (AllGen ι U) S) (m : List (AllGen ι U)) : coeffOfAll e m = Laws.coeffIn e m := by
  unfold coeffOfAll Laws.coeffIn
  cases e.terms.filter (fun p => decide (p.1 = m)) <;> rfl

theorem Reachable.wfU (ho : UserOrder U) (hz : UserNoZeros U) (h : Reachable P a) : a.WF := by
  have := AllGen.lawful (ι := ι) ho
  have := AllGen.goodGen (ι := ι) ho hz
  exact h.wf (AllGen.conjOKAll (ι := ι) hz fun _ _ => True).good

/-- **C76** Addition is commutative and associative. -/
theorem C76_add_comm_assoc (ho : UserOrder U) (hz : UserNoZeros U) (ha : Reachable P a) (hb : Reachable P b) (hc : Reachable P c) :
    (a + b).eqOp (b + a) = true ∧ ((a + b) + c).eqOp (a + (b + c)) = true := by
  have := AllGen.lawful (ι := ι) ho
  have := AllGen.goodGen (ι := ι) ho hz
  exact Laws.add_comm_assoc (ha.wfU ho hz) (hb.wfU ho hz) (hc.wfU ho hz)

/-- **C76** The default-constructed expression is neutral, `-a` is the inverse of `a`, subtraction is addition of the
negative, and negation is involutive. -/
theorem C76_zero_neg_sub (ho : UserOrder U) (hz : UserNoZeros U) (ha : Reachable P a) (hb : Reachable P b) :
    (a + 0).eqOp a = true ∧ ((0 : Expr (AllGen ι U) S) + a).eqOp a = true ∧ (a - a).eqOp 0 = true ∧
    (a + -a).eqOp 0 = true ∧ (a - b).eqOp (a + -b) = true ∧ (- -a).eqOp a = true := by
  have := AllGen.lawful (ι := ι) ho
  have := AllGen.goodGen (ι := ι) ho hz
  exact Laws.zero_neg_sub (ha.wfU ho hz) (hb.wfU ho hz)

/-- **C76** What addition, subtraction and negation do to the coefficients. -/
theorem C76_coefficients (ho : UserOrder U) (hz : UserNoZeros U) (ha : Reachable P a) (hb : Reachable P b) (m : List (AllGen ι U)) :
    coeffOfAll (a + b) m = coeffOfAll a m + coeffOfAll b m ∧ coeffOfAll (a - b) m = coeffOfAll a m - coeffOfAll b m ∧
    coeffOfAll (-a) m = - coeffOfAll a m := by
  have := AllGen.lawful (ι := ι) ho
  have := AllGen.goodGen (ι := ι) ho hz
  simp only [coeffOfAll_eq]
  exact Laws.coefficients (ha.wfU ho hz) (hb.wfU ho hz) m

/-- **C76** `==` compares the coefficients of all monomials. -/
theorem C76_eq_iff_coefficients (ho : UserOrder U) (hz : UserNoZeros U) (ha : Reachable P a) (hb : Reachable P b) :
    a.eqOp b = true ↔ ∀ m, coeffOfAll a m = coeffOfAll b m := by
  have := AllGen.lawful (ι := ι) ho
  have := AllGen.goodGen (ι := ι) ho hz
  simp only [coeffOfAll_eq]
  exact Laws.eq_iff_coefficients (ha.wfU ho hz) (hb.wfU ho hz)

/-- **C76** Multiplication by scalars is a module action; prefix, postfix and compound forms agree. -/
theorem C76_module_laws (ho : UserOrder U) (hz : UserNoZeros U) (x y : S) (ha : Reachable P a) (hb : Reachable P b) :
    (x • (a + b)).eqOp (x • a + x • b) = true ∧ ((x + y) • a).eqOp (x • a + y • a) = true ∧
    ((x * y) • a).eqOp (x • (y • a)) = true ∧ ((1 : S) • a).eqOp a = true ∧ ((0 : S) • a).eqOp 0 = true ∧
    (a.smulPostfix x).eqOp (x • a) = true ∧ (a.smulAssign x).eqOp (x • a) = true ∧
    ((-1 : S) • a).eqOp (-a) = true ∧ (∀ m, coeffOfAll (x • a) m = x * coeffOfAll a m) := by
  have := AllGen.lawful (ι := ι) ho
  have := AllGen.goodGen (ι := ι) ho hz
  simp only [coeffOfAll_eq]
  exact Laws.module_laws x y (ha.wfU ho hz) (hb.wfU ho hz)

/-- **C76** Multiplication distributes over addition and is compatible with scalar multiplication. -/
theorem C76_bilinear (ho : UserOrder U) (hz : UserNoZeros U) (x : S) (ha : Reachable P a) (hb : Reachable P b) (hc : Reachable P c) :
    ((a + b) * c).eqOp (a * c + b * c) = true ∧ (a * (b + c)).eqOp (a * b + a * c) = true ∧
    ((x • a) * b).eqOp (x • (a * b)) = true ∧ (a * (x • b)).eqOp (x • (a * b)) = true ∧
    ((-a) * b).eqOp (-(a * b)) = true ∧ (a * (-b)).eqOp (-(a * b)) = true ∧
    ((0 : Expr (AllGen ι U) S) * a).eqOp 0 = true ∧ (a * 0).eqOp 0 = true := by
  have := AllGen.lawful (ι := ι) ho
  have := AllGen.goodGen (ι := ι) ho hz
  exact Laws.bilinear x (ha.wfU ho hz) (hb.wfU ho hz) (hc.wfU ho hz)

/-- **C76** The ordered-merge implementation of `+`/`-` used for mixed scalar types agrees with the lookup/insert
implementation. -/
theorem C76_mixed_agree (ho : UserOrder U) (hz : UserNoZeros U) (ha : Reachable P a) (hb : Reachable P b) :
    (a.addMixed b).eqOp (a + b) = true ∧ (a.subMixed b).eqOp (a - b) = true := by
  have := AllGen.lawful (ι := ι) ho
  have := AllGen.goodGen (ι := ι) ho hz
  exact Laws.mixed_agree (ha.wfU ho hz) (hb.wfU ho hz)

/-- **C76** Adding a scalar on either side is adding a constant expression; the compound forms agree. -/
theorem C76_scalars (ho : UserOrder U) (hz : UserNoZeros U) (x : S) (ha : Reachable P a) :
    (a.addScalar x).eqOp (a + Expr.const x) = true ∧ (Expr.scalarAdd x a).eqOp (a + Expr.const x) = true ∧
    (a.addAssignScalar x).eqOp (a + Expr.const x) = true ∧
    (a.subScalar x).eqOp (a + Expr.const (-x)) = true ∧ (a.subAssignScalar x).eqOp (a + Expr.const (-x)) = true ∧
    (a.subScalar x).eqOp (a.addScalar (-x)) = true ∧
    (Expr.scalarSub x a).eqOp (-(a.subScalar x)) = true ∧ (Expr.scalarSub x a).eqOp (Expr.const x - a) = true := by
  have := AllGen.lawful (ι := ι) ho
  have := AllGen.goodGen (ι := ι) ho hz
  exact Laws.scalars x (ha.wfU ho hz)

/-- **C76** `transform(e, f)` has exactly the monomials of `e` whose image is non-zero, in the same order, with
coefficient `f(m, e[m])`. -/
theorem C76_transform_spec (ho : UserOrder U) (hz : UserNoZeros U) {S' : Type _} [CommRing S'] [DecidableEq S'] (f : List (AllGen ι U) → S → S') (ha : Reachable P a) :
    (a.transform f).terms = (a.terms.map fun p => (p.1, f p.1 p.2)).filter (fun p => decide (p.2 ≠ 0)) := by
  have := AllGen.lawful (ι := ι) ho
  have := AllGen.goodGen (ι := ι) ho hz
  exact Laws.transform_spec f (ha.wfU ho hz)

/-- Gamma matrices and bosons. -/
example : UserOrder GammaGen ∧ UserNoZeros GammaGen ∧
    Reachable (AllowedAll (ι := Nat) fun n _ => n = 2)
      (Expr.ofMonomial 3 [.user ⟨0⟩, .pre (.boson false 1), .user ⟨2⟩] : Expr (AllGen Nat GammaGen) ℚ) :=
  ⟨gamma_order, gamma_noZeros, .ofMonomial _ _ (by simp [AllowedAll, Allowed])⟩

end LC
