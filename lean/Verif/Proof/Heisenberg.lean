import Mathlib.Algebra.Algebra.Basic
import Mathlib.Tactic.NoncommRing
import Mathlib.Tactic.LinearCombination
import Mathlib.Tactic.Abel
import Mathlib.Tactic.Module
import Mathlib.Data.Complex.Basic
import Mathlib.Data.ZMod.Basic
import Mathlib.Algebra.BigOperators.Ring.Finset
import Mathlib.Algebra.BigOperators.Fin
/-
Chains of spins 1/2 in an algebra over ℂ: the exchange operators, `[H, S_tot] = 0`, `[H, Q3] = 0` for every length.
-/
set_option linter.unusedSectionVars false
set_option linter.unusedSimpArgs false
set_option linter.unusedTactic false
set_option linter.unreachableTactic false
namespace LC
namespace Heisenberg
open Complex
variable {κ A : Type _} [Ring A] [Algebra ℂ A]

/-- The axes. -/
inductive Axis
  | x | y | z

/-- Operators of spins 1/2 at the sites `κ`. -/
structure Spins (S : Axis → κ → A) : Prop where
  xx : ∀ i, S .x i * S .x i = (1 / 4 : ℂ) • 1
  yy : ∀ i, S .y i * S .y i = (1 / 4 : ℂ) • 1
  zz : ∀ i, S .z i * S .z i = (1 / 4 : ℂ) • 1
  xy : ∀ i, S .x i * S .y i = (I / 2) • S .z i
  yz : ∀ i, S .y i * S .z i = (I / 2) • S .x i
  zx : ∀ i, S .z i * S .x i = (I / 2) • S .y i
  yx : ∀ i, S .y i * S .x i = (-(I / 2)) • S .z i
  zy : ∀ i, S .z i * S .y i = (-(I / 2)) • S .x i
  xz : ∀ i, S .x i * S .z i = (-(I / 2)) • S .y i
  comm : ∀ a b i j, i ≠ j → S a i * S b j = S b j * S a i

/-- `S_i · S_j` -/
def D (S : Axis → κ → A) (i j : κ) : A := S .x i * S .x j + S .y i * S .y j + S .z i * S .z j

/-- `(S_i × S_j) · S_k` -/
def T (S : Axis → κ → A) (i j k : κ) : A :=
  (S .y i * S .z j - S .z i * S .y j) * S .x k + (S .z i * S .x j - S .x i * S .z j) * S .y k +
    (S .x i * S .y j - S .y i * S .x j) * S .z k

/-- The exchange operator of two sites. -/
noncomputable def P (S : Axis → κ → A) (i j : κ) : A := (2 : ℂ) • D S i j + (1 / 2 : ℂ) • 1

variable {S : Axis → κ → A}

theorem D_eq (i j : κ) : D S i j = (1 / 2 : ℂ) • P S i j - (1 / 4 : ℂ) • 1 := by
  simp only [P]; module

section rules
variable (h : Spins S)
include h
theorem Spins.xx' (i) (a : A) : S .x i * (S .x i * a) = (1 / 4 : ℂ) • a := by rw [← mul_assoc, h.xx]; simp
theorem Spins.yy' (i) (a : A) : S .y i * (S .y i * a) = (1 / 4 : ℂ) • a := by rw [← mul_assoc, h.yy]; simp
theorem Spins.zz' (i) (a : A) : S .z i * (S .z i * a) = (1 / 4 : ℂ) • a := by rw [← mul_assoc, h.zz]; simp
theorem Spins.xy' (i) (a : A) : S .x i * (S .y i * a) = (I / 2) • (S .z i * a) := by rw [← mul_assoc, h.xy]; simp
theorem Spins.yz' (i) (a : A) : S .y i * (S .z i * a) = (I / 2) • (S .x i * a) := by rw [← mul_assoc, h.yz]; simp
theorem Spins.zx' (i) (a : A) : S .z i * (S .x i * a) = (I / 2) • (S .y i * a) := by rw [← mul_assoc, h.zx]; simp
theorem Spins.yx' (i) (a : A) : S .y i * (S .x i * a) = (-(I / 2)) • (S .z i * a) := by rw [← mul_assoc, h.yx]; simp
theorem Spins.zy' (i) (a : A) : S .z i * (S .y i * a) = (-(I / 2)) • (S .x i * a) := by rw [← mul_assoc, h.zy]; simp
theorem Spins.xz' (i) (a : A) : S .x i * (S .z i * a) = (-(I / 2)) • (S .y i * a) := by rw [← mul_assoc, h.xz]; simp
theorem Spins.comm' (a b i j) (hij : i ≠ j) (c : A) : S a i * (S b j * c) = S b j * (S a i * c) := by
  rw [← mul_assoc, h.comm a b i j hij, mul_assoc]
end rules

theorem I3 : (I : ℂ) ^ 3 = -I := by rw [pow_succ, I_sq]; ring

/-- Normal form of polynomials in spin operators (sites ordered by the given rules). -/
macro "spinnf" h:term " with " r:Lean.Parser.Tactic.simpLemma,* : tactic => `(tactic|
  (simp only [P, D, T, add_mul, mul_add, sub_mul, mul_sub, smul_mul_assoc, mul_smul_comm, one_mul, mul_one, smul_add, smul_sub,
    smul_smul, mul_assoc, Spins.xx $h, Spins.yy $h, Spins.zz $h, Spins.xy $h, Spins.yz $h, Spins.zx $h, Spins.yx $h, Spins.zy $h,
    Spins.xz $h, Spins.xx' $h, Spins.yy' $h, Spins.zz' $h, Spins.xy' $h, Spins.yz' $h, Spins.zx' $h, Spins.yx' $h, Spins.zy' $h,
    Spins.xz' $h, $r,*];
   try (match_scalars <;> (ring_nf; try (simp only [Complex.I_sq, I3]; try ring)))))

theorem P_S (h : Spins S) {i j : κ} (hij : i ≠ j) (a : Axis) : P S i j * S a j = S a i * P S i j := by
  have c1 := fun a b => h.comm a b j i hij.symm
  have c2 := fun a b => h.comm' a b j i hij.symm
  cases a <;> spinnf h with c1, c2

theorem P_S' (h : Spins S) {i j : κ} (hij : i ≠ j) (a : Axis) : P S i j * S a i = S a j * P S i j := by
  have c1 := fun a b => h.comm a b j i hij.symm
  have c2 := fun a b => h.comm' a b j i hij.symm
  cases a <;> spinnf h with c1, c2

theorem P_sq (h : Spins S) {i j : κ} (hij : i ≠ j) : P S i j * P S i j = 1 := by
  have c1 := fun a b => h.comm a b j i hij.symm
  have c2 := fun a b => h.comm' a b j i hij.symm
  spinnf h with c1, c2

theorem D_same (h : Spins S) (i : κ) : D S i i = (3 / 4 : ℂ) • 1 := by
  spinnf h with

theorem D_symm (h : Spins S) {i j : κ} (hij : i ≠ j) : D S i j = D S j i := by
  simp only [D, h.comm _ _ i j hij]

theorem P_symm (h : Spins S) {i j : κ} (hij : i ≠ j) : P S i j = P S j i := by
  simp only [P, D_symm h hij]

theorem T_eq (h : Spins S) {i j k : κ} (h1 : i ≠ j) (h2 : j ≠ k) (h3 : i ≠ k) :
    T S i j k = (I / 4) • (P S i j * P S j k - P S j k * P S i j) := by
  have c1 := fun a b => h.comm a b j i h1.symm
  have c2 := fun a b => h.comm' a b j i h1.symm
  have c3 := fun a b => h.comm a b k j h2.symm
  have c4 := fun a b => h.comm' a b k j h2.symm
  have c5 := fun a b => h.comm a b k i h3.symm
  have c6 := fun a b => h.comm' a b k i h3.symm
  spinnf h with c1, c2, c3, c4, c5, c6

/-- `P_ij P_jk P_ij = P_jk P_ij P_jk` -/
theorem P_braid (h : Spins S) {i j k : κ} (h1 : i ≠ j) (h2 : j ≠ k) (h3 : i ≠ k) :
    P S i j * P S j k * P S i j = P S j k * P S i j * P S j k := by
  have c1 := fun a b => h.comm a b j i h1.symm
  have c2 := fun a b => h.comm' a b j i h1.symm
  have c3 := fun a b => h.comm a b k j h2.symm
  have c4 := fun a b => h.comm' a b k j h2.symm
  have c5 := fun a b => h.comm a b k i h3.symm
  have c6 := fun a b => h.comm' a b k i h3.symm
  spinnf h with c1, c2, c3, c4, c5, c6

theorem P_cyc (h : Spins S) {i j k : κ} (h1 : i ≠ j) (h2 : j ≠ k) (h3 : i ≠ k) :
    P S i j * P S j k = P S j k * P S k i := by
  have c1 := fun a b => h.comm a b j i h1.symm
  have c2 := fun a b => h.comm' a b j i h1.symm
  have c3 := fun a b => h.comm a b k j h2.symm
  have c4 := fun a b => h.comm' a b k j h2.symm
  have c5 := fun a b => h.comm a b k i h3.symm
  have c6 := fun a b => h.comm' a b k i h3.symm
  spinnf h with c1, c2, c3, c4, c5, c6

theorem T_back (h : Spins S) {i j : κ} (hij : i ≠ j) : T S i j i = (-I) • D S i j := by
  have c1 := fun a b => h.comm a b j i hij.symm
  have c2 := fun a b => h.comm' a b j i hij.symm
  spinnf h with c1, c2

theorem T_same (h : Spins S) (i : κ) : T S i i i = (3 * I / 4) • 1 := by
  spinnf h with

theorem P_comm_S (h : Spins S) {i j k : κ} (h1 : i ≠ k) (h2 : j ≠ k) (a : Axis) : P S i j * S a k = S a k * P S i j := by
  have c1 := fun b => h.comm b a i k h1
  have c2 := fun b => h.comm b a j k h2
  have c3 := fun b => h.comm' b a i k h1
  have c4 := fun b => h.comm' b a j k h2
  simp only [P, D, add_mul, mul_add, smul_mul_assoc, mul_smul_comm, one_mul, mul_one, mul_assoc, c1, c2, c3, c4]

theorem P_comm_far (h : Spins S) {i j k l : κ} (h1 : i ≠ k) (h2 : i ≠ l) (h3 : j ≠ k) (h4 : j ≠ l) :
    P S i j * P S k l = P S k l * P S i j := by
  have c : ∀ a b, Commute (P S i j) (S a k * S b l) := fun a b =>
    Commute.mul_right (P_comm_S h h1 h3 a) (P_comm_S h h2 h4 b)
  refine Commute.eq ?_
  conv => arg 2; simp only [P, D]
  exact .add_right (.smul_right (.add_right (.add_right (c _ _) (c _ _)) (c _ _)) _) (.smul_right (.one_right _) _)

/-- `S_i · S_j` commutes with the total spin of any set of sites that contains both. -/
theorem D_total [DecidableEq κ] (h : Spins S) (s : Finset κ) {i j : κ} (hi : i ∈ s) (hj : j ∈ s) (a : Axis) :
    Commute (D S i j) (∑ k ∈ s, S a k) := by
  rcases eq_or_ne i j with rfl | hij
  · rw [D_same h]; exact .smul_left (.one_left _) _
  · rw [D_eq]
    refine .sub_left (.smul_left ?_ _) (.smul_left (.one_left _) _)
    rw [← Finset.add_sum_erase s _ hi, ← Finset.add_sum_erase (s.erase i) _ (Finset.mem_erase.2 ⟨hij.symm, hj⟩), ← add_assoc]
    refine .add_right ?_ (Commute.sum_right _ _ _ fun k hk => ?_)
    · show P S i j * (S a i + S a j) = (S a i + S a j) * P S i j
      rw [mul_add, add_mul, P_S h hij, P_S' h hij, add_comm]
    · simp only [Finset.mem_erase] at hk
      exact P_comm_S h (Ne.symm hk.2.1) (Ne.symm hk.1) a

/-- The commutator. -/
def br (a b : A) : A := a * b - b * a

theorem br_sum {s t : Finset κ} {f g : κ → A} : br (∑ x ∈ s, f x) (∑ y ∈ t, g y) = ∑ y ∈ t, ∑ x ∈ s, br (f x) (g y) := by
  simp only [br, Finset.sum_mul_sum, Finset.sum_sub_distrib]
  rw [Finset.sum_comm]

/-- The local identity behind the conservation of `Q3`. -/
theorem reshetikhin {a b : A} (ha : a * a = 1) (hb : b * b = 1) (hab : a * b * a = b * a * b) :
    br a (br a b) + br b (br a b) = 2 * b - 2 * a := by
  have e1 : br a (br a b) = a * a * b - a * b * a - a * b * a + b * (a * a) := by simp only [br]; noncomm_ring
  have e2 : br b (br a b) = b * a * b - b * b * a - a * (b * b) + b * a * b := by simp only [br]; noncomm_ring
  rw [e1, e2, ha, hb, hab, one_mul, one_mul, mul_one, mul_one]
  noncomm_ring

theorem jacobi {a b c : A} (h : a * c = c * a) : br a (br b c) + br c (br a b) = 0 := by
  have e : br a (br b c) + br c (br a b) = b * (a * c - c * a) - (a * c - c * a) * b := by
    simp only [br]; noncomm_ring
  rw [e, h]; simp

section ring
variable {N : ℕ} [NeZero N] {p : ZMod N → A}

/-- Exchange operators around a ring of at least four sites. -/
theorem ring_q3 (hN : 4 ≤ N) (sq : ∀ x, p x * p x = 1) (braid : ∀ x, p x * p (x + 1) * p x = p (x + 1) * p x * p (x + 1))
    (far : ∀ x y, x ≠ y → x ≠ y + 1 → y ≠ x + 1 → p x * p y = p y * p x) :
    br (∑ x, p x) (∑ x, br (p x) (p (x + 1))) = 0 := by
  have ne : ∀ (x : ZMod N) (k : ℕ), 0 < k → k < N → x + k ≠ x := by
    intro x k h0 hk hx
    have : ((k : ℕ) : ZMod N) = 0 := by simpa using hx
    rw [ZMod.natCast_eq_zero_iff] at this
    exact absurd (Nat.le_of_dvd h0 this) (by omega)
  have n1 : ∀ x : ZMod N, x + 1 ≠ x := fun x => by simpa using ne x 1 (by omega) (by omega)
  have n2 : ∀ x : ZMod N, x + 2 ≠ x := fun x => by simpa using ne x 2 (by omega) (by omega)
  have n3 : ∀ x : ZMod N, x + 3 ≠ x := fun x => by simpa using ne x 3 (by omega) (by omega)
  rw [br_sum]
  have sh : ∀ f : ZMod N → A, ∑ x, f (x + 1) = ∑ x, f x := fun f => Equiv.sum_comp (Equiv.addRight (1 : ZMod N)) f
  have inner : ∀ w, ∑ x, br (p x) (br (p (w + 1)) (p (w + 2))) =
      br (p w) (br (p (w + 1)) (p (w + 2))) + (2 * p (w + 2) - 2 * p (w + 1)) + br (p (w + 3)) (br (p (w + 1)) (p (w + 2))) := by
    intro w
    have hsub : ∀ x ∈ (Finset.univ : Finset (ZMod N)), x ∉ ({w, w + 1, w + 2, w + 3} : Finset (ZMod N)) →
        br (p x) (br (p (w + 1)) (p (w + 2))) = 0 := by
      intro x _ hx
      simp only [Finset.mem_insert, Finset.mem_singleton, not_or] at hx
      obtain ⟨h1, h2, h3, h4⟩ := hx
      have c1 : Commute (p x) (p (w + 1)) := far x (w + 1) h2 (fun h => h3 (by rw [h]; ring))
        (fun h => h1 (add_right_cancel h).symm)
      have c2 : Commute (p x) (p (w + 2)) := far x (w + 2) h3 (fun h => h4 (by rw [h]; ring)) (fun h => h2 (by
        have e : w + 1 + 1 = x + 1 := by rw [← h]; ring
        exact (add_right_cancel e).symm))
      have : Commute (p x) (br (p (w + 1)) (p (w + 2))) := (c1.mul_right c2).sub_right (c2.mul_right c1)
      simp only [br]; rw [sub_eq_zero]; exact this.eq
    rw [← Finset.sum_subset (Finset.subset_univ _) hsub]
    have m1 : w ≠ w + 1 := (n1 w).symm
    have m2 : w ≠ w + 2 := (n2 w).symm
    have m3 : w ≠ w + 3 := (n3 w).symm
    have m4 : w + 1 ≠ w + 2 := fun h => n1 (w + 1) (by linear_combination -h)
    have m5 : w + 1 ≠ w + 3 := fun h => n2 (w + 1) (by linear_combination -h)
    have m6 : w + 2 ≠ w + 3 := fun h => n1 (w + 2) (by linear_combination -h)
    rw [Finset.sum_insert (by simp [m1, m2, m3]), Finset.sum_insert (by simp [m4, m5]), Finset.sum_insert (by simp [m6]),
      Finset.sum_singleton]
    have e : (w + 1 + 1 : ZMod N) = w + 2 := by ring
    have hb := braid (w + 1)
    rw [e] at hb
    rw [← reshetikhin (sq (w + 1)) (sq (w + 2)) hb]
    abel
  rw [← sh]
  have e : ∀ w : ZMod N, w + 1 + 1 = w + 2 := fun w => by ring
  simp only [e, inner]
  rw [Finset.sum_add_distrib, Finset.sum_add_distrib, Finset.sum_sub_distrib]
  have s1 : ∑ x : ZMod N, 2 * p (x + 2) = ∑ x : ZMod N, 2 * p (x + 1) := by
    rw [← sh fun x => 2 * p (x + 1)]; simp only [e]
  have s2 : ∑ x : ZMod N, br (p (x + 3)) (br (p (x + 1)) (p (x + 2))) = ∑ x, br (p (x + 2)) (br (p x) (p (x + 1))) := by
    rw [← sh fun x => br (p (x + 2)) (br (p x) (p (x + 1)))]
    refine Finset.sum_congr rfl fun x _ => ?_
    rw [show x + 1 + 2 = x + 3 by ring, e]
  rw [s1, s2, sub_self, add_zero, ← Finset.sum_add_distrib]
  refine Finset.sum_eq_zero fun w _ => jacobi (far w (w + 2) (n2 w).symm ?_ ?_)
  · intro h; exact n3 w (by linear_combination -h)
  · intro h; exact n1 (w + 1) (by rw [e, ← h])

end ring

/-- Three mutually adjacent exchanges. -/
theorem triangle {a b c : A} (ha : a * a = 1) (hb : b * b = 1) (hc : c * c = 1) (h1 : a * b = b * c) (h2 : b * c = c * a)
    (h3 : b * a = c * b) (h4 : c * b = a * c) : br (a + (b + c)) (br a b + (br b c + br c a)) = 0 := by
  have q : br a b + (br b c + br c a) = (3 : ℤ) • (a * b - b * a) := by
    simp only [br]; rw [← h2, ← h1, ← h4, ← h3]; abel
  have e1 : a * (a * b) = b := by rw [← mul_assoc, ha, one_mul]
  have e2 : b * (a * b) = c := by rw [h1, ← mul_assoc, hb, one_mul]
  have e3 : c * (a * b) = a := by rw [h1, h2, ← mul_assoc, hc, one_mul]
  have e4 : a * b * a = c := by rw [mul_assoc, h3, h4, ← mul_assoc, ha, one_mul]
  have e5 : a * b * b = a := by rw [mul_assoc, hb, mul_one]
  have e6 : a * b * c = b := by rw [h1, mul_assoc, hc, mul_one]
  have f1 : a * (b * a) = c := by rw [← mul_assoc, e4]
  have f2 : b * (b * a) = a := by rw [← mul_assoc, hb, one_mul]
  have f3 : c * (b * a) = b := by rw [h3, ← mul_assoc, hc, one_mul]
  have f4 : b * a * a = b := by rw [mul_assoc, ha, mul_one]
  have f5 : b * a * b = c := by rw [mul_assoc, e2]
  have f6 : b * a * c = a := by rw [h3, h4, mul_assoc, hc, mul_one]
  rw [q, br, mul_smul_comm, smul_mul_assoc]
  simp only [add_mul, mul_add, sub_mul, mul_sub, e1, e2, e3, e4, e5, e6, f1, f2, f3, f4, f5, f6]
  rw [← smul_sub]
  convert smul_zero (3 : ℤ) using 2
  abel

theorem br_smul (x y : ℂ) (a b : A) : br (x • a) (y • b) = (x * y) • br a b := by
  simp only [br, smul_mul_assoc, mul_smul_comm, smul_sub, smul_smul, mul_comm x y]

theorem br_sub_one (x : ℂ) (a b : A) : br (a - x • 1) b = br a b := by
  simp only [br, sub_mul, mul_sub, smul_mul_assoc, mul_smul_comm, one_mul, mul_one]; abel

/-- Around a ring of any length: `[∑ S_x · S_(x+1), ∑ (S_x × S_(x+1)) · S_(x+2)] = 0`. -/
theorem ring_total {N : ℕ} [NeZero N] {S : Axis → ZMod N → A} (h : Spins S) :
    br (∑ x, D S x (x + 1)) (∑ x, T S x (x + 1) (x + 2)) = 0 := by
  have big : 3 ≤ N → br (∑ x, P S x (x + 1)) (∑ x, br (P S x (x + 1)) (P S (x + 1) (x + 1 + 1))) = 0 →
      br (∑ x, D S x (x + 1)) (∑ x, T S x (x + 1) (x + 2)) = 0 := by
    intro hN h0
    have ne : ∀ (x : ZMod N) (k : ℕ), 0 < k → k < N → x ≠ x + k := by
      intro x k h0 hk hx
      have : ((k : ℕ) : ZMod N) = 0 := by simpa using hx.symm
      rw [ZMod.natCast_eq_zero_iff] at this
      exact absurd (Nat.le_of_dvd h0 this) (by omega)
    have e : ∀ w : ZMod N, w + 1 + 1 = w + 2 := fun w => by ring
    have ht : ∀ x, T S x (x + 1) (x + 2) = (I / 4) • br (P S x (x + 1)) (P S (x + 1) (x + 1 + 1)) := by
      intro x
      rw [e, br]
      refine T_eq h (by simpa using ne x 1 (by omega) (by omega)) ?_ (by simpa using ne x 2 (by omega) (by omega))
      have := ne (x + 1) 1 (by omega) (by omega)
      rwa [Nat.cast_one, e] at this
    simp only [ht, D_eq, Finset.sum_sub_distrib, ← Finset.smul_sum, Finset.sum_const]
    rw [show ∀ n : ℕ, (1 / 4 : ℂ) • n • (1 : A) = ((1 / 4 : ℂ) * n) • 1 from fun n => by
      rw [mul_smul, Nat.cast_smul_eq_nsmul], br_sub_one, br_smul, h0, smul_zero]
  have hN0 : N ≠ 0 := NeZero.ne N
  rcases Nat.lt_or_ge N 4 with hN | hN
  · have : N = 1 ∨ N = 2 ∨ N = 3 := by omega
    rcases this with rfl | rfl | rfl
    · have h1 : ∀ x : ZMod 1, x = 0 := fun x => Subsingleton.elim _ _
      rw [Fintype.sum_subsingleton _ (0 : ZMod 1), h1 (0 + 1), D_same h, br]
      simp
    · have h1 : ∀ x : ZMod 2, T S x (x + 1) (x + 2) = (-I) • D S x (x + 1) := by
        intro x
        have : x + 2 = x := by revert x; decide
        rw [this]
        exact T_back h (by revert x; decide)
      simp only [h1, ← Finset.smul_sum, br, mul_smul_comm, smul_mul_assoc, sub_self]
    · refine big le_rfl ?_
      have u : ∀ f : ZMod 3 → A, ∑ x, f x = f 0 + (f 1 + f 2) := fun f => by
        exact (Fin.sum_univ_three f).trans (add_assoc _ _ _)
      rw [u, u]
      have a0 : (0 + 1 : ZMod 3) = 1 := by decide
      have a1 : (1 + 1 : ZMod 3) = 2 := by decide
      have a2 : (2 + 1 : ZMod 3) = 0 := by decide
      simp only [a0, a1, a2]
      have n01 : (0 : ZMod 3) ≠ 1 := by decide
      have n12 : (1 : ZMod 3) ≠ 2 := by decide
      have n20 : (2 : ZMod 3) ≠ 0 := by decide
      refine triangle (P_sq h n01) (P_sq h n12) (P_sq h n20) (P_cyc h n01 n12 n20.symm) (P_cyc h n12 n20 n01.symm) ?_ ?_
      · rw [P_symm h n01, P_symm h n12, P_symm h n20, ← P_cyc h n20.symm n12.symm n01]
      · rw [P_symm h n01, P_symm h n12, P_symm h n20]
        exact (P_cyc h n20.symm n12.symm n01).trans (P_cyc h n12.symm n01.symm n20)
  · refine big (by omega) (ring_q3 (p := fun x => P S x (x + 1)) hN ?_ ?_ ?_)
    all_goals
      have ne : ∀ (x : ZMod N) (k : ℕ), 0 < k → k < N → x ≠ x + k := by
        intro x k h0 hk hx
        have : ((k : ℕ) : ZMod N) = 0 := by simpa using hx.symm
        rw [ZMod.natCast_eq_zero_iff] at this
        exact absurd (Nat.le_of_dvd h0 this) (by omega)
      have n1 : ∀ x : ZMod N, x ≠ x + 1 := fun x => by simpa using ne x 1 (by omega) (by omega)
      have n2 : ∀ x : ZMod N, x ≠ x + 1 + 1 := fun x => by
        have := ne x 2 (by omega) (by omega)
        rw [add_assoc]; convert this using 2; norm_num
    · exact fun x => P_sq h (n1 x)
    · exact fun x => P_braid h (n1 x) (n1 (x + 1)) (n2 x)
    · intro x y h1 h2 h3
      exact P_comm_far h h1 h2 (Ne.symm h3) (fun e => h1 (add_right_cancel e))

theorem Spins.comp {κ' : Type _} (h : Spins S) {f : κ' → κ} (hf : Function.Injective f) : Spins fun a x => S a (f x) where
  xx _ := h.xx _
  yy _ := h.yy _
  zz _ := h.zz _
  xy _ := h.xy _
  yz _ := h.yz _
  zx _ := h.zx _
  yx _ := h.yx _
  zy _ := h.zy _
  xz _ := h.xz _
  comm a b _ _ hij := h.comm a b _ _ fun e => hij (hf e)

theorem sum_range {M : Type _} [AddCommMonoid M] {N : ℕ} [NeZero N] (f : ℕ → M) : ∑ i ∈ Finset.range N, f i = ∑ x : ZMod N, f x.val := by
  obtain _ | n := N
  · exact absurd rfl (NeZero.ne 0)
  · exact (Fin.sum_univ_eq_sum_range f (n + 1)).symm

/-- The same for sites `0, …, N-1` with indices modulo `N`. -/
theorem range_total {S : Axis → ℕ → A} (h : Spins S) (N : ℕ) :
    br (∑ i ∈ Finset.range N, D S i ((i + 1) % N)) (∑ i ∈ Finset.range N, T S i ((i + 1) % N) ((i + 2) % N)) = 0 := by
  rcases Nat.eq_zero_or_pos N with rfl | hN
  · simp [br]
  · have : NeZero N := ⟨by omega⟩
    have v : ∀ (x : ZMod N) (k : ℕ), (x + k).val = (x.val + k) % N := fun x k => by
      rw [ZMod.val_add, ZMod.val_natCast, Nat.add_mod_mod]
    have hr := ring_total (h.comp (ZMod.val_injective N))
    rw [sum_range, sum_range]
    convert hr using 3 with x _ x _
    · simp only [D]; have := v x 1; rw [Nat.cast_one] at this; rw [this]
    · simp only [T]; have h1 := v x 1; have h2 := v x 2; rw [Nat.cast_one] at h1; rw [Nat.cast_ofNat] at h2; rw [h1, h2]

end Heisenberg
end LC
