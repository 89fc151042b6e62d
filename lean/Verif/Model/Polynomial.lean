import Mathlib.Data.Real.Basic
import Verif.Model.AnyScalar
import Verif.Spec.CoeffEval
import Verif.Spec.ComplexFactories
import Verif.Model.HilbertSpace
import Verif.Model.StateVector
/-
Model of examples/parametric_loperator.cpp: the class `polynomial`, its `scalar_traits`, and the expression the program builds.
Coefficients are elements of a commutative ring instead of doubles.
-/
namespace LC

/-- `polynomial` (examples/parametric_loperator.cpp:34-52): the coefficients, at least one. (An empty initialiser list, for which
`degree()` wraps around, is outside the model.) -/
structure Poly (R : Type _) where
  coeffs : List R
  nonempty : coeffs ≠ []

namespace Poly
variable {R : Type _} [CommRing R]

/-- `degree()` (examples/parametric_loperator.cpp:49). -/
def degree (p : Poly R) : Nat := p.coeffs.length - 1

/-- `polynomial(n)` (examples/parametric_loperator.cpp:42). -/
def zeros (R : Type _) [CommRing R] (n : Nat) : Poly R := ⟨List.replicate (n + 1) 0, by simp⟩

/-- `operator()(x)` (examples/parametric_loperator.cpp:55-63): the variables `sum` and `x_n`. -/
def call (p : Poly R) (x : R) : R := (p.coeffs.foldl (fun (s : R × R) c => (s.1 + c * s.2, s.2 * x)) (0, 1)).1

/-- `result.coefficients[i] = …` for `i = 0, …, max_degree` (examples/parametric_loperator.cpp:69-72, 80-83). -/
def fill (f : Nat → R) (n : Nat) (p : Poly R) : Poly R :=
  ⟨(List.range (n + 1)).foldl (fun l i => l.set i (f i)) p.coeffs, by
    have h : ∀ (l : List Nat) (c : List R), (l.foldl (fun l i => l.set i (f i)) c).length = c.length := by
      intro l
      induction l with
      | nil => intro c; rfl
      | cons a l ih => intro c; rw [List.foldl_cons, ih, List.length_set]
    have := p.nonempty
    rw [← List.length_pos_iff] at this ⊢
    rw [h]; exact this⟩

/-- `operator+` (examples/parametric_loperator.cpp:66-74). -/
def add (p q : Poly R) : Poly R :=
  let n := max p.degree q.degree
  fill (fun i => (if i ≤ p.degree then p.coeffs.getD i 0 else 0) + (if i ≤ q.degree then q.coeffs.getD i 0 else 0)) n (zeros R n)

/-- `operator-` (examples/parametric_loperator.cpp:77-85). -/
def sub (p q : Poly R) : Poly R :=
  let n := max p.degree q.degree
  fill (fun i => (if i ≤ p.degree then p.coeffs.getD i 0 else 0) - (if i ≤ q.degree then q.coeffs.getD i 0 else 0)) n (zeros R n)

/-- `operator*` (examples/parametric_loperator.cpp:88-96). -/
def mul (p q : Poly R) : Poly R :=
  ⟨(List.range (p.degree + 1)).foldl (fun l i => (List.range (q.degree + 1)).foldl (fun l j =>
      l.modify (i + j) (fun c => c + p.coeffs.getD i 0 * q.coeffs.getD j 0)) l) (zeros R (p.degree + q.degree)).coeffs, by
    have h : ∀ (i : Nat) (l : List Nat) (c : List R), (l.foldl (fun l j =>
        l.modify (i + j) (fun c => c + p.coeffs.getD i 0 * q.coeffs.getD j 0)) c).length = c.length := by
      intro i l
      induction l with
      | nil => intro c; rfl
      | cons a l ih => intro c; rw [List.foldl_cons, ih, List.length_modify]
    have h' : ∀ (l : List Nat) (c : List R), (l.foldl (fun l i => (List.range (q.degree + 1)).foldl (fun l j =>
        l.modify (i + j) (fun c => c + p.coeffs.getD i 0 * q.coeffs.getD j 0)) l) c).length = c.length := by
      intro l
      induction l with
      | nil => intro c; rfl
      | cons a l ih => intro c; rw [List.foldl_cons, ih, h]
    rw [← List.length_pos_iff, h']
    simp [zeros]⟩

/-- `operator*(double)` (examples/parametric_loperator.cpp:99-105) and `operator*(double, polynomial)` (108). -/
def scale (p : Poly R) (x : R) : Poly R := ⟨p.coeffs.map fun c => c * x, by simp [p.nonempty]⟩

/-- `polynomial` as a scalar type: its operators and `scalar_traits<polynomial>` (examples/parametric_loperator.cpp:115-126). The
class has no unary minus, no `==` and no `conj`: functions that need them do not compile with this type; here `neg` multiplies by -1,
`==` compares the lists. -/
instance [DecidableEq R] [ConstScalar R] : ScalarOps (Poly R) where
  isZero p := p.coeffs.all fun c => decide (c = 0)
  makeConst v := ⟨[ConstScalar.makeConst v], by simp⟩
  conj p := p
  add := add
  sub := sub
  mul := mul
  neg p := p.scale (-1)
  eq p q := decide (p.coeffs = q.coeffs)

end Poly

/-- `auto H = 0.5 * w0 + w0 * (a_dag<polynomial>() - g) * (a<polynomial>() - g)` (examples/parametric_loperator.cpp:144); `a_dag()` and
`a()` are the expressions `1 * a†`, `1 * a` (expression/factories.hpp:30-55, 72, 74), and the order of the operations is that of C++. -/
noncomputable def displaced (w0 g : Poly ℝ) : ScalarProg (Gen Unit) (Poly ℝ) :=
  .addScalar
    (.mul (.smul w0 (.subScalar (.monomial (ScalarOps.makeConst (.integer 1)) [.boson true ()]) g))
      (.subScalar (.monomial (ScalarOps.makeConst (.integer 1)) [.boson false ()]) g))
    (w0.scale 0.5)

/-- `make_hilbert_space(H, boson_es_constructor(dim))` (examples/parametric_loperator.cpp:149). -/
noncomputable def displacedSpace (w0 g : Poly ℝ) (dim : Nat) : Except HSError (HilbertSpace Unit) :=
  HilbertSpace.ofMonomials (esConstruct (some dim)) ((displaced w0 g).run.terms.map (·.1))

/-- `ket0` (examples/parametric_loperator.cpp:161-162). -/
noncomputable def displacedKet0 (hs : HilbertSpace Unit) : DenseSV ℝ := ⟨(List.replicate hs.vecSize 0).set 0 1⟩

end LC
