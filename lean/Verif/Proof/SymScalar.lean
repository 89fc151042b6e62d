import Mathlib.Tactic.Ring
import Mathlib.Tactic.LinearCombination
import Mathlib.Tactic.Push
import Verif.Spec.CoeffEval
import Verif.Spec.Scalars
/-
Symbolic coefficients: polynomials in two parameters with coefficients in ℚ(i), as lists of terms. They are computable, and have an
evaluation (`Evaluation`) for all complex values of the parameters.
-/
namespace LC

/-- `Σ q U^a J^b i^c`. -/
structure Sym where
  terms : List ((Nat × Nat × Bool) × ℚ)

namespace Sym

def add1 (k : Nat × Nat × Bool) (q : ℚ) : List ((Nat × Nat × Bool) × ℚ) → List ((Nat × Nat × Bool) × ℚ)
  | [] => [(k, q)]
  | (k', q') :: l => if k = k' then (k, q' + q) :: l else (k', q') :: add1 k q l

def addL (x y : List ((Nat × Nat × Bool) × ℚ)) : List ((Nat × Nat × Bool) × ℚ) := y.foldl (fun x p => add1 p.1 p.2 x) x

def neg (x : Sym) : Sym := ⟨x.terms.map fun p => (p.1, -p.2)⟩

def mul1 (p q : (Nat × Nat × Bool) × ℚ) : (Nat × Nat × Bool) × ℚ :=
  ((p.1.1 + q.1.1, p.1.2.1 + q.1.2.1, xor p.1.2.2 q.1.2.2), if p.1.2.2 && q.1.2.2 then -(p.2 * q.2) else p.2 * q.2)

def mul (x y : Sym) : Sym := ⟨x.terms.foldl (fun r p => addL r (y.terms.map (mul1 p))) []⟩

def ofRat (q : ℚ) : Sym := ⟨[((0, 0, false), q)]⟩

instance : ScalarOps Sym where
  isZero x := x.terms.all fun p => p.2 == 0
  makeConst
    | .integer i => ofRat i
    | .rational a b => ofRat (a / b)
    | .real x => ofRat x
  conj x := x
  add x y := ⟨addL x.terms y.terms⟩
  sub x y := ⟨addL x.terms (neg y).terms⟩
  mul := mul
  neg := neg
  eq x y := decide (x.terms = y.terms)

variable (U J : ℂ)

noncomputable def val1 (p : (Nat × Nat × Bool) × ℚ) : ℂ :=
  (p.2 : ℂ) * U ^ p.1.1 * J ^ p.1.2.1 * (if p.1.2.2 then Complex.I else 1)

noncomputable def valL (l : List ((Nat × Nat × Bool) × ℚ)) : ℂ := (l.map (val1 U J)).sum

/-- The value for `U`, `J`. -/
noncomputable def value (x : Sym) : ℂ := valL U J x.terms

theorem valL_cons (p) (l) : valL U J (p :: l) = val1 U J p + valL U J l := by simp [valL]

theorem val_add1 (k) (q : ℚ) : ∀ l, valL U J (add1 k q l) = valL U J l + val1 U J (k, q)
  | [] => by simp [add1, valL]
  | (k', q') :: l => by
    rw [add1]
    split
    · rename_i h; subst h
      rw [valL_cons, valL_cons]
      simp only [val1, Rat.cast_add]; ring
    · rw [valL_cons, valL_cons, val_add1 k q l]; ring

theorem val_addL (x y : List ((Nat × Nat × Bool) × ℚ)) : valL U J (addL x y) = valL U J x + valL U J y := by
  unfold addL
  induction y generalizing x with
  | nil => simp [valL]
  | cons p y ih => rw [List.foldl_cons, ih, val_add1, valL_cons]; ring

theorem val_neg (x : Sym) : value U J (neg x) = - value U J x := by
  simp only [value, neg]
  induction x.terms with
  | nil => simp [valL]
  | cons p l ih => rw [List.map_cons, valL_cons, ih, valL_cons]; simp only [val1, Rat.cast_neg]; ring

theorem val_mul1 (p q) : val1 U J (mul1 p q) = val1 U J p * val1 U J q := by
  obtain ⟨⟨a, b, i⟩, x⟩ := p
  obtain ⟨⟨c, d, j⟩, y⟩ := q
  have hI := Complex.I_mul_I
  cases i <;> cases j <;> simp [val1, mul1, pow_add]
  · ring
  · ring
  · ring
  linear_combination (-(x : ℂ) * y * U ^ a * U ^ c * J ^ b * J ^ d) * hI

theorem val_mul (x y : Sym) : value U J (mul x y) = value U J x * value U J y := by
  have h1 : ∀ p, valL U J (y.terms.map (mul1 p)) = val1 U J p * valL U J y.terms := by
    intro p
    induction y.terms with
    | nil => simp [valL]
    | cons q l ih => rw [List.map_cons, valL_cons, ih, valL_cons, val_mul1]; ring
  have h2 : ∀ l r, valL U J (l.foldl (fun r p => addL r (y.terms.map (mul1 p))) r) = valL U J r + valL U J l * valL U J y.terms := by
    intro l
    induction l with
    | nil => intro r; simp [valL]
    | cons p l ih => intro r; rw [List.foldl_cons, ih, val_addL, h1, valL_cons]; ring
  simp only [value, mul, h2]
  simp [valL]

theorem val_ofRat (q : ℚ) : value U J (ofRat q) = q := by simp [value, ofRat, valL, val1]

theorem evaluation : Evaluation (value U J) where
  add x y := val_addL U J _ _
  sub x y := by
    show valL U J (addL x.terms (neg y).terms) = _
    rw [val_addL, show valL U J (neg y).terms = _ from val_neg U J y, sub_eq_add_neg]; rfl
  mul := val_mul U J
  neg := val_neg U J
  makeConst v := by
    cases v with
    | integer i => exact (val_ofRat U J _).trans (by push_cast; rfl)
    | rational a b => exact (val_ofRat U J _).trans (by push_cast; rfl)
    | real x =>
      refine (val_ofRat U J _).trans ?_
      show (x : ℂ) = (x.num : ℂ) / ((x.den : Int) : ℂ)
      rw [Rat.cast_def]; push_cast; rfl
  isZero x hx := by
    have hx : (x.terms.all fun p => p.2 == 0) = true := hx
    rw [List.all_eq_true] at hx
    have : ∀ l : List ((Nat × Nat × Bool) × ℚ), (∀ p ∈ l, p.2 = 0) → valL U J l = 0 := by
      intro l hl
      induction l with
      | nil => simp [valL]
      | cons p l ih =>
        rw [valL_cons, ih fun q hq => hl q (List.mem_cons_of_mem _ hq)]
        simp [val1, hl p List.mem_cons_self]
    exact this _ fun p hp => by simpa using hx p hp

end Sym
end LC
