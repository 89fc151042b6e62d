import Mathlib.Analysis.RCLike.Basic
import Verif.Model.FloatAction
import Verif.Spec.LOperator
/-
Specification for C98: what is assumed about floating-point arithmetic, and the quantities in the error bound.
-/
namespace LC
open Classical
variable {ι D S T V 𝕜 : Type _} [LinearOrder ι] [RCLike 𝕜]

/-- The standard model of floating-point arithmetic. `vS x`, `vT x` are the real (complex) numbers that finite objects of the
scalar types stand for, `fS`, `fT` say which objects are finite (not infinite, not NaN). `u` bounds the relative error of one
operation. Overflow is covered: an operation with a finite result had finite operands. Underflow of products is not. -/
structure Rounding [AmpOps T] [CoefOps D S T] (u tol : ℝ) (vS : S → 𝕜) (vT : T → 𝕜) (fS : S → Prop) (fT : T → Prop) : Prop where
  u_nonneg : 0 ≤ u
  tol_nonneg : 0 ≤ tol
  mul : ∀ a b : S, fS (CoefOps.mul a b) → fS a ∧ fS b ∧ ‖vS (CoefOps.mul a b) - vS a * vS b‖ ≤ u * ‖vS a * vS b‖
  scale : ∀ (a : S) (b : T), fT (CoefOps.scale a b) →
    fS a ∧ fT b ∧ ‖vT (CoefOps.scale a b) - vS a * vT b‖ ≤ u * ‖vS a * vT b‖
  add : ∀ a b : T, fT (AmpOps.add a b) → fT a ∧ fT b ∧ ‖vT (AmpOps.add a b) - (vT a + vT b)‖ ≤ u * ‖vT a + vT b‖
  one : vS (CoefOps.const (CoefOps.one S)) = 1
  minusOne : vS (CoefOps.const (CoefOps.minusOne S)) = -1
  /-- `std::sqrt` and the conversion from `double`: two roundings. -/
  sqrt : ∀ n, fS (CoefOps.const (CoefOps.sqrt S n)) →
    ‖vS (CoefOps.const (CoefOps.sqrt S n)) - ((Real.sqrt n : ℝ) : 𝕜)‖ ≤ ((1 + u) ^ 2 - 1) * Real.sqrt n
  /-- `std::pow` and the conversion from `double`: two roundings. -/
  pow : ∀ x n, fS (CoefOps.const (CoefOps.pow S x n)) →
    ‖vS (CoefOps.const (CoefOps.pow S x n)) - ((x ^ n : ℝ) : 𝕜)‖ ≤ ((1 + u) ^ 2 - 1) * |x ^ n|
  zero : fT AmpOps.zero ∧ vT AmpOps.zero = 0
  /-- What `is_zero` accepts is finite and below the tolerance (`100 ε` in the library, for each component of a complex number). -/
  isZero : ∀ a : T, AmpOps.isZero a = true → fT a ∧ ‖vT a‖ ≤ tol

/-- Outcomes of `update_add_element`: `a' = a + x`, computed in floating-point arithmetic; a vector that does not store zeros may
store `x` at a place where nothing was stored, and, if `drop`, may forget a sum that passes `is_zero`. -/
inductive Upd [AmpOps T] (drop : Bool) (a x : T) : T → Prop where
  | add : Upd drop a x (AmpOps.add a x)
  | fresh (h : a = AmpOps.zero) : Upd drop a x x
  | dropSum (hd : drop = true) (h : AmpOps.isZero (AmpOps.add a x) = true) : Upd drop a x AmpOps.zero
  | dropNew (hd : drop = true) (ha : a = AmpOps.zero) (h : AmpOps.isZero x = true) : Upd drop a x AmpOps.zero

/-- A type of vectors of floating-point numbers. `drop`: sums below the tolerance are forgotten. -/
class FloatSV (V : Type _) (T : outParam (Type _)) [AmpOps T] [StateVec V T] where
  drop : Bool
  inv : V → Prop
  dom : V → Set Nat
  amp : V → Nat → T
  visited : V → Set Nat
  /-- `foreach` visits an index at most once, with the stored amplitude; indices it does not visit have amplitudes that are zero
  or pass `is_zero`. -/
  each : ∀ v, inv v → ∃ l, StateVec.foreach v = .ok l ∧ (l.map Prod.fst).Nodup ∧
    (∀ n, n ∈ l.map Prod.fst ↔ n ∈ visited v) ∧ ∀ p ∈ l, p.2 = amp v p.1
  skipped : ∀ v n, inv v → n ∉ visited v → amp v n = AmpOps.zero ∨ AmpOps.isZero (amp v n) = true
  update : ∀ v n x, inv v → n ∈ dom v → ∃ v', StateVec.updateAdd v n x = .ok v' ∧ inv v' ∧ dom v' = dom v ∧
    (∀ k, k ≠ n → amp v' k = amp v k) ∧ Upd drop (amp v n) x (amp v' n)
  zero : ∀ v, inv v → inv (StateVec.setZeros v) ∧ dom (StateVec.setZeros v) = dom v ∧
    ∀ n, amp (StateVec.setZeros v) n = AmpOps.zero

/-- `zeros_like` makes vectors of zeros. -/
class FloatZeros (V : Type _) {T : outParam (Type _)} [AmpOps T] [StateVec V T] [FloatSV V T] [ZerosLike V] : Prop where
  zeros : ∀ v : V, FloatSV.inv v → FloatSV.inv (ZerosLike.zerosLike v) ∧ FloatSV.dom (ZerosLike.zerosLike v) = FloatSV.dom v ∧
    ∀ n, FloatSV.amp (ZerosLike.zerosLike v) n = AmpOps.zero

/-- The expression with the numbers its coefficients stand for. -/
def Expr.values {G : Type _} (v : S → 𝕜) (e : Expr G S) : Expr G 𝕜 := ⟨e.terms.map fun p => (p.1, v p.2)⟩

/-- The matrix element of `|e|`: the sum of the absolute values of the contributions of the terms. -/
noncomputable def absEl (hs : HilbertSpace ι) (e : Expr (Gen ι) 𝕜) (t k : Nat) : ℝ :=
  (e.terms.map fun p => ‖p.2‖ * |matEl hs p.1 t k|).sum

/-- What forgetting up to `j` sums below the tolerance can cost. -/
noncomputable def dropErr (u tol : ℝ) (drop : Bool) (j : Nat) : ℝ := if drop then tol * j * (1 + u) ^ j else 0

/-- The length of the longest monomial. -/
def Expr.degree {G : Type _} (e : Expr G S) : Nat := (e.terms.map fun p => p.1.length).foldr max 0

end LC
