import Mathlib.Algebra.BigOperators.Intervals
import Mathlib.Algebra.BigOperators.Ring.Finset
import Mathlib.Tactic.Ring
import Verif.Model.Polynomial
import Verif.Proof.CoeffEval
/-
`polynomial::operator()` respects the operations of the class.
-/
set_option linter.unusedSectionVars false
namespace LC.Poly
variable {R : Type _} [CommRing R]

theorem call_loop (x : R) : ∀ (l : List R) (s y : R), (l.foldl (fun (s : R × R) c => (s.1 + c * s.2, s.2 * x)) (s, y)).1
    = s + y * ∑ i ∈ Finset.range l.length, l.getD i 0 * x ^ i
  | [], s, y => by simp
  | c :: l, s, y => by
    rw [List.foldl_cons, call_loop x l, List.length_cons, Finset.sum_range_succ']
    simp only [List.getD_cons_zero, List.getD_cons_succ, pow_zero, mul_one, pow_succ]
    rw [mul_add, mul_assoc y x, Finset.mul_sum (a := x)]
    have : ∀ i ∈ Finset.range l.length, x * (l.getD i 0 * x ^ i) = l.getD i 0 * (x ^ i * x) := fun i _ => by ring
    rw [Finset.sum_congr rfl this]; ring

theorem call_eq (p : Poly R) (x : R) : p.call x = ∑ i ∈ Finset.range p.coeffs.length, p.coeffs.getD i 0 * x ^ i := by
  rw [call, call_loop]; ring

/-- Missing coefficients are zero. -/
theorem call_range (p : Poly R) (x : R) {n : Nat} (h : p.coeffs.length ≤ n) :
    p.call x = ∑ i ∈ Finset.range n, p.coeffs.getD i 0 * x ^ i := by
  rw [call_eq]
  refine Finset.sum_subset (Finset.range_mono h) fun i _ hi => ?_
  rw [Finset.mem_range, not_lt] at hi
  rw [List.getD_eq_getElem?_getD, List.getElem?_eq_none hi, Option.getD_none, zero_mul]

theorem length_degree (p : Poly R) : p.coeffs.length = p.degree + 1 := by
  have := List.length_pos_iff.2 p.nonempty
  unfold degree; omega

theorem fill_loop (f : Nat → R) (c : List R) : ∀ m, m ≤ c.length →
    ((List.range m).foldl (fun l i => l.set i (f i)) c).length = c.length ∧
    ∀ i, ((List.range m).foldl (fun l i => l.set i (f i)) c).getD i 0 = if i < m then f i else c.getD i 0
  | 0, _ => by simp
  | m + 1, h => by
    obtain ⟨h1, h2⟩ := fill_loop f c m (by omega)
    rw [List.range_succ, List.foldl_append]
    simp only [List.foldl_cons, List.foldl_nil]
    generalize (List.range m).foldl (fun l i => l.set i (f i)) c = l at *
    refine ⟨by rw [List.length_set, h1], fun i => ?_⟩
    have h2 := h2 i
    simp only [List.getD_eq_getElem?_getD, List.getElem?_set] at h2 ⊢
    by_cases e : m = i
    · subst e; simp [show m < l.length by omega]
    · rw [if_neg e, h2]
      by_cases e2 : i < m
      · rw [if_pos e2, if_pos (by omega)]
      · rw [if_neg e2, if_neg (by omega)]

theorem call_fill (f : Nat → R) (n : Nat) (x : R) : (fill f n (zeros R n)).call x = ∑ i ∈ Finset.range (n + 1), f i * x ^ i := by
  obtain ⟨h1, h2⟩ := fill_loop f (zeros R n).coeffs (n + 1) (by simp [zeros])
  rw [call_range (n := n + 1)]
  · refine Finset.sum_congr rfl fun i hi => ?_
    rw [show (fill f n (zeros R n)).coeffs.getD i 0 = _ from h2 i, if_pos (Finset.mem_range.1 hi)]
  · rw [show (fill f n (zeros R n)).coeffs.length = _ from h1]; simp [zeros]

theorem getD_le (p : Poly R) (i : Nat) : (if i ≤ p.degree then p.coeffs.getD i 0 else 0) = p.coeffs.getD i 0 := by
  split
  · rfl
  · rw [List.getD_eq_getElem?_getD, List.getElem?_eq_none (by rw [length_degree]; omega), Option.getD_none]

theorem call_add (p q : Poly R) (x : R) : (p.add q).call x = p.call x + q.call x := by
  rw [add, call_fill, call_range p (n := max p.degree q.degree + 1), call_range q (n := max p.degree q.degree + 1),
    ← Finset.sum_add_distrib]
  · exact Finset.sum_congr rfl fun i _ => by rw [getD_le, getD_le, add_mul]
  · rw [length_degree]; omega
  · rw [length_degree]; omega

theorem call_sub (p q : Poly R) (x : R) : (p.sub q).call x = p.call x - q.call x := by
  rw [sub, call_fill, call_range p (n := max p.degree q.degree + 1), call_range q (n := max p.degree q.degree + 1),
    ← Finset.sum_sub_distrib]
  · exact Finset.sum_congr rfl fun i _ => by rw [getD_le, getD_le, sub_mul]
  · rw [length_degree]; omega
  · rw [length_degree]; omega

/-- The value of a list of coefficients. -/
def lval (l : List R) (x : R) : R := ∑ i ∈ Finset.range l.length, l.getD i 0 * x ^ i

theorem lval_modify (l : List R) (k : Nat) (hk : k < l.length) (v x : R) : lval (l.modify k (fun c => c + v)) x = lval l x + v * x ^ k := by
  have : ∀ i ∈ Finset.range l.length, (l.modify k (fun c => c + v)).getD i 0 * x ^ i
      = l.getD i 0 * x ^ i + if i = k then v * x ^ k else 0 := by
    intro i hi
    rw [Finset.mem_range] at hi
    simp only [List.getD_eq_getElem?_getD, List.getElem?_modify]
    by_cases e : k = i
    · subst e; simp [hi]; ring
    · simp [e, Ne.symm e]
  rw [lval, List.length_modify, Finset.sum_congr rfl this, Finset.sum_add_distrib, Finset.sum_ite_eq', if_pos (Finset.mem_range.2 hk), lval]

theorem inner_loop (a : R) (b : Nat → R) (i : Nat) (c : List R) (x : R) : ∀ m, i + m ≤ c.length →
    ((List.range m).foldl (fun l j => l.modify (i + j) (fun c => c + a * b j)) c).length = c.length ∧
    lval ((List.range m).foldl (fun l j => l.modify (i + j) (fun c => c + a * b j)) c) x
      = lval c x + ∑ j ∈ Finset.range m, a * b j * x ^ (i + j)
  | 0, _ => by simp
  | m + 1, h => by
    obtain ⟨h1, h2⟩ := inner_loop a b i c x m (by omega)
    rw [List.range_succ, List.foldl_append]
    simp only [List.foldl_cons, List.foldl_nil]
    rw [List.length_modify, lval_modify _ _ (by rw [h1]; omega), h1, h2, Finset.sum_range_succ, add_assoc]
    exact ⟨rfl, rfl⟩

theorem outer_loop (a b : Nat → R) (n : Nat) (c : List R) (x : R) : ∀ m, m + n ≤ c.length + 1 →
    ((List.range m).foldl (fun l i => (List.range n).foldl (fun l j => l.modify (i + j) (fun c => c + a i * b j)) l) c).length = c.length ∧
    lval ((List.range m).foldl (fun l i => (List.range n).foldl (fun l j => l.modify (i + j) (fun c => c + a i * b j)) l) c) x
      = lval c x + ∑ i ∈ Finset.range m, ∑ j ∈ Finset.range n, a i * b j * x ^ (i + j)
  | 0, _ => by simp
  | m + 1, h => by
    obtain ⟨h1, h2⟩ := outer_loop a b n c x m (by omega)
    rw [List.range_succ, List.foldl_append]
    simp only [List.foldl_cons, List.foldl_nil]
    obtain ⟨h3, h4⟩ := inner_loop (a m) b m ((List.range m).foldl (fun l i => (List.range n).foldl (fun l j =>
      l.modify (i + j) (fun c => c + a i * b j)) l) c) x n (by rw [h1]; omega)
    rw [h3, h4, h1, h2, Finset.sum_range_succ, add_assoc]
    exact ⟨rfl, rfl⟩

theorem call_mul (p q : Poly R) (x : R) : (p.mul q).call x = p.call x * q.call x := by
  obtain ⟨_, h2⟩ := outer_loop (fun i => p.coeffs.getD i 0) (fun j => q.coeffs.getD j 0) (q.degree + 1)
    (zeros R (p.degree + q.degree)).coeffs x (p.degree + 1) (by simp [zeros]; omega)
  rw [call_eq]
  have e : ∑ i ∈ Finset.range (p.mul q).coeffs.length, (p.mul q).coeffs.getD i 0 * x ^ i = lval (p.mul q).coeffs x := rfl
  have z : lval (zeros R (p.degree + q.degree)).coeffs x = 0 := by
    refine Finset.sum_eq_zero fun i _ => ?_
    simp only [zeros, List.getD_eq_getElem?_getD, List.getElem?_replicate]
    split <;> simp
  rw [e, show lval (p.mul q).coeffs x = _ from h2, z, zero_add, call_eq p, call_eq q, length_degree p, length_degree q,
    Finset.sum_mul_sum]
  exact Finset.sum_congr rfl fun i _ => Finset.sum_congr rfl fun j _ => by rw [pow_add]; ring

theorem call_scale (p : Poly R) (y x : R) : (p.scale y).call x = p.call x * y := by
  rw [call_eq, call_eq, Finset.sum_mul]
  simp only [scale, List.length_map]
  refine Finset.sum_congr rfl fun i hi => ?_
  rw [Finset.mem_range] at hi
  simp only [List.getD_eq_getElem?_getD, List.getElem?_map, List.getElem?_eq_getElem hi, Option.map_some, Option.getD_some]
  ring

theorem call_single (c x : R) (h : [c] ≠ []) : (⟨[c], h⟩ : Poly R).call x = c := by
  rw [call_eq]; simp

variable [DecidableEq R] [ConstScalar R]

/-- Evaluating polynomials at a point. -/
theorem evaluation (x : R) : Evaluation (fun p : Poly R => p.call x) where
  add p q := call_add p q x
  sub p q := call_sub p q x
  mul p q := call_mul p q x
  neg p := by rw [show (ScalarOps.neg p : Poly R) = p.scale (-1) from rfl, call_scale]; ring
  makeConst v := call_single _ _ _
  isZero p hp := by
    rw [call_eq]
    refine Finset.sum_eq_zero fun i hi => ?_
    rw [Finset.mem_range] at hi
    have h := (List.all_eq_true.1 hp) p.coeffs[i] (List.getElem_mem hi)
    rw [List.getD_eq_getElem?_getD, List.getElem?_eq_getElem hi, Option.getD_some, of_decide_eq_true h, zero_mul]

end LC.Poly
