import Verif.Props.PartitionProgram
import Verif.Props.LatticeSpin
/-
C116 (continued): the Hamiltonian of examples/partition.cpp:41-74 commutes, as an expression, with the operators that raise or lower the total spin,
for every number of orbitals and all parameters.
`flip` is not a part of the program; it is the sum a user would write with the factories of expression/factories.hpp.
-/
set_option linter.unusedSectionVars false
set_option linter.unusedSimpArgs false
namespace LC
namespace Atom
open Expr Factory Reg LC.Lattice
variable {ι S : Type _} [LinearOrder ι] [CommRing S] [DecidableEq S] [ConstScalar S] [ScalarLaws S] [IsDomain S] [CharZero S] [Star S]

/-- `S_+` for `s = true` (up), `S_-` for `s = false`: the sum over the orbitals of `c†(s, o) c(-s, o)`. -/
def flip (el : Bool → Nat → ι) (n : Nat) (s : Bool) : Expr (Gen ι) S :=
  (List.range n).foldl (fun F o => F + cDag (el s o) * c (el (!s) o)) 0

variable (el : Bool → Nat → ι) (n : Nat)

/-- `c†(s, o) c(s', o')`. -/
def bil (s : Bool) (o : Nat) (s' : Bool) (o' : Nat) : Module.End S (V ι S) := repU (S := S) (.fermion true (el s o)) * repU (.fermion false (el s' o'))

/-- The value of `flip`. -/
def flipVal (s : Bool) : Module.End S (V ι S) := ∑ o ∈ Finset.range n, bil el s o (!s) o

theorem is_flip (s : Bool) : Is (flip el n s : Expr (Gen ι) S) (flipVal el n s) := by
  have : Is (flip el n s : Expr (Gen ι) S) (0 + ((List.range n).map fun o => bil (S := S) el s o (!s) o).sum) := by
    rw [flip]
    refine Is.loop (fun e y o he => ?_) _ Is.zero
    exact he.add ((is_cDag _).mul (is_c _))
  rw [zero_add] at this
  simpa only [flipVal, list_sum_range] using this

section values
variable {e : Expr (Gen ι) S} {y : Module.End S (V ι S)} (he : Is e y) (mu U J : S)
include he

theorem val_chem : Is (chemical el n mu e) (y + ∑ o ∈ Finset.range n, (-mu) • (bil el true o true o + bil el false o false o)) := by
  rw [← list_sum_range, chemical]
  refine Is.loop (fun e y o he => ?_) _ he
  exact he.add (Is.smul _ ((is_n _).add (is_n _)))

theorem val_intra : Is (intra el n U e) (y + ∑ o ∈ Finset.range n, U • (bil el true o true o * bil el false o false o)) := by
  rw [← list_sum_range, intra]
  refine Is.loop (fun e y o he => ?_) _ he
  rw [← smul_mul_assoc]
  exact he.add ((Is.smul _ (is_n _)).mul (is_n _))

theorem val_diff : Is (interDiff el n U J e) (y + ∑ o ∈ Finset.range n, ∑ o' ∈ Finset.range n,
    if o ≠ o' then (U - 2 * J) • (bil el true o true o * bil el false o' false o') else 0) := by
  simp only [← list_sum_range]
  rw [interDiff]
  refine Is.loop (fun e y o he => ?_) _ he
  refine Is.loop (fun e y o' he => ?_) _ he
  by_cases h : o = o'
  · simpa [h] using he
  · simp only [beq_iff_eq, h, if_true, ne_eq, not_false_eq_true, Bool.not_eq_true', beq_eq_false_iff_ne]
    rw [← smul_mul_assoc]
    exact he.add ((Is.smul _ (is_n _)).mul (is_n _))

theorem val_same : Is (interSame el n U J e) (y + ∑ o ∈ Finset.range n, ∑ o' ∈ Finset.range n,
    if o' < o then (U - 3 * J) • (bil el true o true o * bil el true o' true o' + bil el false o false o * bil el false o' false o') else 0) := by
  simp only [← list_sum_range]
  rw [interSame]
  refine Is.loop (fun e y o he => ?_) _ he
  refine Is.loop (fun e y o' he => ?_) _ he
  by_cases h : o' < o
  · have h' : ¬ o' ≥ o := by omega
    simp only [h, h', if_true, decide_false, Bool.not_false]
    rw [smul_add, ← smul_mul_assoc, ← smul_mul_assoc, ← add_assoc]
    exact (he.add ((Is.smul _ (is_n _)).mul (is_n _))).add ((Is.smul _ (is_n _)).mul (is_n _))
  · have h' : o' ≥ o := by omega
    simpa [h, h'] using he

theorem val_exchange (hinj : ∀ s o s' o', el s o = el s' o' → s = s' ∧ o = o') : Is (exchange el n J e) (y + ∑ o ∈ Finset.range n, ∑ o' ∈ Finset.range n,
    if o ≠ o' then (-J) • (repU (.fermion true (el true o)) * repU (.fermion true (el false o)) * (repU (.fermion false (el true o')) * repU (.fermion false (el false o'))))
      + (-J) • (bil el true o false o * bil el false o' true o') else 0) := by
  have T := repU_core (ι := ι) (S := S) fun _ _ => False
  simp only [← list_sum_range]
  rw [exchange]
  refine Is.loop (fun e y o he => ?_) _ he
  refine Is.loop (fun e y o' he => ?_) _ he
  by_cases h : o = o'
  · simpa [h] using he
  · simp only [beq_iff_eq, h, if_true, ne_eq, not_false_eq_true, Bool.not_eq_true', beq_eq_false_iff_ne]
    have h1 := T.car false (el false o) true (el false o')
    have h2 := T.car false (el true o') false (el false o)
    rw [if_neg (fun h' => h (hinj _ _ _ _ h'.1).2)] at h1
    rw [if_neg (by simp)] at h2
    have e1 : bil (S := S) el true o false o * bil el false o' true o' = repU (.fermion true (el true o)) * repU (.fermion true (el false o')) *
        repU (.fermion false (el true o')) * repU (.fermion false (el false o)) := by
      rw [bil, bil]
      set p := repU (S := S) (.fermion true (el true o)); set q := repU (S := S) (.fermion false (el false o))
      set r := repU (S := S) (.fermion true (el false o')); set s := repU (S := S) (.fermion false (el true o'))
      have h3 : p * q * (r * s) - p * r * s * q = p * (q * r + r * q) * s - p * r * (s * q + q * s) := by noncomm_ring
      rw [h1, h2] at h3
      exact sub_eq_zero.1 (h3.trans (by simp))
    rw [e1, ← add_assoc, ← mul_assoc]
    simp only [← smul_mul_assoc]
    exact (he.add ((((Is.smul _ (is_cDag _)).mul (is_cDag _)).mul (is_c _)).mul (is_c _))).add
      ((((Is.smul _ (is_cDag _)).mul (is_cDag _)).mul (is_c _)).mul (is_c _))
end values

variable {el} (hinj : ∀ s o s' o', el s o = el s' o' → s = s' ∧ o = o')
include hinj

/-- How ladder operators change when they pass the flip. -/
theorem flip_ladder (s : Bool) {x : Nat} (hx : x < n) :
    flipVal (S := S) el n s * repU (.fermion true (el s x)) = repU (.fermion true (el s x)) * flipVal (S := S) el n s ∧
    flipVal (S := S) el n s * repU (.fermion true (el (!s) x)) = repU (.fermion true (el (!s) x)) * flipVal (S := S) el n s + repU (.fermion true (el s x)) ∧
    flipVal (S := S) el n s * repU (.fermion false (el s x)) = repU (.fermion false (el s x)) * flipVal (S := S) el n s - repU (.fermion false (el (!s) x)) ∧
    flipVal (S := S) el n s * repU (.fermion false (el (!s) x)) = repU (.fermion false (el (!s) x)) * flipVal (S := S) el n s := by
  have T := repU_core (ι := ι) (S := S) fun _ _ => False
  have hne : ∀ x x', el s x ≠ el (!s) x' := fun x x' h => by simpa using (hinj _ _ _ _ h).1
  have gen : ∀ (z : Module.End S (V ι S)) (v : Nat → Module.End S (V ι S)) (r : Module.End S (V ι S)),
      (∀ a < n, bil (S := S) el s a (!s) a * z = z * bil (S := S) el s a (!s) a + v a) →
      (∑ a ∈ Finset.range n, v a) = r → flipVal (S := S) el n s * z = z * flipVal (S := S) el n s + r := by
    intro z v r h hr
    rw [← hr]
    simp only [flipVal, Finset.sum_mul, Finset.mul_sum, ← Finset.sum_add_distrib]
    exact Finset.sum_congr rfl fun a ha => h a (Finset.mem_range.1 ha)
  have single : ∀ z : Module.End S (V ι S), (∑ a ∈ Finset.range n, if a = x then z else 0) = z := by
    intro z
    rw [Finset.sum_eq_single x]
    · simp
    · intro a _ h; simp [h]
    · intro h; exact absurd (Finset.mem_range.2 hx) h
  have swap : ∀ (p q z : Module.End S (V ι S)), p * q * z = z * (p * q) + (p * (q * z + z * q) - (p * z + z * p) * q) := fun p q z => by noncomm_ring
  have elinj : ∀ a r, el r a = el r x → a = x := fun a r h => (hinj _ _ _ _ h).2
  refine ⟨?_, ?_, ?_, ?_⟩
  · rw [gen _ (fun _ => 0) 0 ?_ (by simp), add_zero]
    intro a _
    rw [bil, swap, T.car, T.car, if_neg (fun h => hne _ _ h.1.symm), if_neg (by simp)]
    simp
  · refine gen _ (fun a => if a = x then repU (.fermion true (el s x)) else 0) _ ?_ (single _)
    intro a _
    rw [bil, swap, T.car, T.car, if_neg (c := el s a = el (!s) x ∧ true ≠ true) (by simp)]
    by_cases h : a = x
    · subst h; simp
    · rw [if_neg (fun h' => h (elinj _ _ h'.1)), if_neg h]; simp
  · rw [sub_eq_add_neg]
    refine gen _ (fun a => if a = x then -repU (.fermion false (el (!s) x)) else 0) _ ?_ (single _)
    intro a _
    rw [bil, swap, T.car, T.car, if_neg (c := el (!s) a = el s x ∧ false ≠ false) (by simp)]
    by_cases h : a = x
    · subst h; simp
    · rw [if_neg (fun h' => h (elinj _ _ h'.1)), if_neg h]; simp
  · rw [gen _ (fun _ => 0) 0 ?_ (by simp), add_zero]
    intro a _
    rw [bil, swap, T.car, T.car, if_neg (c := el s a = el (!s) x ∧ true ≠ false) (fun h => hne _ _ h.1), if_neg (by simp)]
    simp

/-- Products of a creation and an annihilation operator of one orbital. -/
theorem flip_bil (s : Bool) {x : Nat} (hx : x < n) :
    let X := flipVal (S := S) el n s
    X * bil el s x s x = bil el s x s x * X - bil el s x (!s) x ∧
    X * bil el (!s) x (!s) x = bil el (!s) x (!s) x * X + bil el s x (!s) x ∧
    X * bil el s x (!s) x = bil el s x (!s) x * X ∧
    X * bil el (!s) x s x = bil el (!s) x s x * X + (bil el s x s x - bil el (!s) x (!s) x) := by
  intro X
  obtain ⟨h1, h2, h3, h4⟩ := flip_ladder (S := S) n hinj s hx
  simp only [bil, X]
  refine ⟨?_, ?_, ?_, ?_⟩
  · rw [← mul_assoc, h1, mul_assoc, h3, mul_sub, ← mul_assoc]
  · rw [← mul_assoc, h2, add_mul, mul_assoc, h4]; noncomm_ring
  · rw [← mul_assoc, h1, mul_assoc, h4]; noncomm_ring
  · rw [← mul_assoc, h2, add_mul, mul_assoc, h3, mul_sub, ← mul_assoc]; abel

section algebra
omit hinj
variable {B : Type _} [_root_.Ring B] {X N1 N1' P1 M1 N2 N2' P2 M2 : B}

/-- Two orbitals: the densities and the exchange of spins. -/
theorem flip_two (a1 : X * N1 = N1 * X - P1) (a2 : X * N1' = N1' * X + P1) (a3 : X * P1 = P1 * X) (a4 : X * M1 = M1 * X + (N1 - N1'))
    (b1 : X * N2 = N2 * X - P2) (b2 : X * N2' = N2' * X + P2) (b3 : X * P2 = P2 * X) (b4 : X * M2 = M2 * X + (N2 - N2')) :
    X * (N1 * N2' + N1' * N2) = (N1 * N2' + N1' * N2) * X + (P1 * N2 - P1 * N2' + N1 * P2 - N1' * P2) ∧
    X * (N1 * N2 + N1' * N2') = (N1 * N2 + N1' * N2') * X - (P1 * N2 - P1 * N2' + N1 * P2 - N1' * P2) ∧
    X * (P1 * M2 + M1 * P2) = (P1 * M2 + M1 * P2) * X + (P1 * N2 - P1 * N2' + N1 * P2 - N1' * P2) := by
  have m : ∀ {p q p' q'}, X * p = p * X + p' → X * q = q * X + q' → X * (p * q) = p * q * X + (p * q' + p' * q) := by
    intro p q p' q' h1 h2
    rw [← mul_assoc, h1, add_mul, mul_assoc, h2]; noncomm_ring
  rw [sub_eq_add_neg] at a1 b1
  rw [← add_zero (P1 * X)] at a3
  rw [← add_zero (P2 * X)] at b3
  refine ⟨?_, ?_, ?_⟩
  · rw [mul_add, m a1 b2, m a2 b1]; noncomm_ring
  · rw [mul_add, m a1 b1, m a2 b2]; noncomm_ring
  · rw [mul_add, m a3 b4, m a4 b3]; noncomm_ring

omit [DecidableEq S] [ConstScalar S] [ScalarLaws S] [IsDomain S] [CharZero S] [Star S] in
theorem flip_three [Algebra S B] {K D C κ : B} (U J : S) (h1 : X * K = K * X + κ) (h2 : X * D = D * X - κ) (h3 : X * C = C * X + κ) :
    Commute X ((U - 2 * J) • K + (-J) • C + (U - 3 * J) • D) := by
  show X * _ = _ * X
  simp only [mul_add, add_mul, mul_smul_comm, smul_mul_assoc, h1, h2, h3]
  module

/-- Sums over ordered pairs as sums over pairs. -/
theorem sum_pairs (n : Nat) (f : Nat → Nat → B) : (∑ o ∈ Finset.range n, ∑ o' ∈ Finset.range n, if o ≠ o' then f o o' else 0) =
    ∑ o ∈ Finset.range n, ∑ o' ∈ Finset.range n, if o' < o then f o o' + f o' o else 0 := by
  have h1 : ∀ o o', (if o ≠ o' then f o o' else 0) = (if o' < o then f o o' else 0) + (if o < o' then f o o' else 0) := by
    intro o o'
    rcases lt_trichotomy o o' with h | h | h
    · simp [h, h.ne, h.not_gt]
    · simp [h]
    · simp [h, h.ne', h.not_gt]
  have h2 : ∀ o o', (if o' < o then f o o' + f o' o else 0) = (if o' < o then f o o' else 0) + (if o' < o then f o' o else 0) := by
    intro o o'; split_ifs <;> simp
  simp only [h1, h2, Finset.sum_add_distrib]
  congr 1
  rw [Finset.sum_comm]
theorem regroup (n : Nat) (a b : B) (d h c m : Nat → Nat → B) :
    0 + a + b + (∑ o ∈ Finset.range n, ∑ o' ∈ Finset.range n, if o ≠ o' then d o o' else 0) +
      (∑ o ∈ Finset.range n, ∑ o' ∈ Finset.range n, if o' < o then m o o' else 0) +
      (∑ o ∈ Finset.range n, ∑ o' ∈ Finset.range n, if o ≠ o' then h o o' + c o o' else 0) =
    a + b + (∑ o ∈ Finset.range n, ∑ o' ∈ Finset.range n, if o ≠ o' then h o o' else 0) +
      ∑ o ∈ Finset.range n, ∑ o' ∈ Finset.range n, if o' < o then (d o o' + d o' o) + (c o o' + c o' o) + m o o' else 0 := by
  have e1 : ∀ o o', (if o ≠ o' then h o o' + c o o' else 0) = (if o ≠ o' then h o o' else 0) + if o ≠ o' then c o o' else 0 := by
    intro o o'; split_ifs <;> simp
  have e2 : ∀ o o', (if o' < o then (d o o' + d o' o) + (c o o' + c o' o) + m o o' else 0) =
      (if o' < o then d o o' + d o' o else 0) + (if o' < o then c o o' + c o' o else 0) + if o' < o then m o o' else 0 := by
    intro o o'; split_ifs <;> simp
  simp only [e1, e2, Finset.sum_add_distrib, sum_pairs n d, sum_pairs n c]
  abel
end algebra

/-- **C116** The Hamiltonian commutes with the operators that raise and lower the total spin. -/
theorem C116_spin (mu U J : S) (s : Bool) : (ham el n mu U J * flip el n s).eqOp (flip el n s * ham el n mu U J) = true := by
  have T := repU_core (ι := ι) (S := S) fun _ _ => False
  rw [eqOp_iff]
  have hH := val_exchange el n (val_same el n (val_diff el n (val_intra el n (val_chem el n Is.zero mu) U) U J) U J) J hinj
  refine eq_of_commute hH (is_flip el n s) (Commute.eq ?_)
  have sq : ∀ (d : Bool) (i : ι), repU (S := S) (.fermion d i) * repU (.fermion d i) = 0 := by
    intro (d : Bool) (i : ι)
    have h := T.car d i d i
    rw [if_neg (by simp), ← two_smul S] at h
    exact (smul_eq_zero.1 h).resolve_left two_ne_zero
  have one : ∀ i : ι, repU (S := S) (.fermion true i) * repU (.fermion false i) + repU (.fermion false i) * repU (.fermion true i) = 1 := fun i => by
    rw [T.car]; simp
  have comm : ∀ (s1 : Bool) (o1 : Nat) (s2 : Bool) (o2 : Nat) (s3 : Bool) (o3 : Nat) (s4 : Bool) (o4 : Nat), ¬ (s2 = s3 ∧ o2 = o3) → ¬ (s1 = s4 ∧ o1 = o4) →
      bil (S := S) el s1 o1 s2 o2 * bil el s3 o3 s4 o4 = bil el s3 o3 s4 o4 * bil el s1 o1 s2 o2 := by
    intro s1 o1 s2 o2 s3 o3 s4 o4 h1 h2
    have c1 := T.car false (el s2 o2) true (el s3 o3)
    have c2 := T.car false (el s4 o4) true (el s1 o1)
    have c3 := T.car true (el s1 o1) true (el s3 o3)
    have c4 := T.car false (el s2 o2) false (el s4 o4)
    rw [if_neg (fun h => h1 (hinj _ _ _ _ h.1))] at c1
    rw [if_neg (fun h => h2 (by obtain ⟨a, b⟩ := hinj _ _ _ _ h.1; exact ⟨a.symm, b.symm⟩))] at c2
    rw [if_neg (by simp)] at c3 c4
    rw [bil, bil]
    set p := repU (S := S) (.fermion true (el s1 o1)); set q := repU (S := S) (.fermion false (el s2 o2))
    set r := repU (S := S) (.fermion true (el s3 o3)); set z := repU (S := S) (.fermion false (el s4 o4))
    have h3 : p * q * (r * z) - r * z * (p * q) = p * (q * r + r * q) * z - r * (z * p + p * z) * q - p * r * (q * z + z * q) + (p * r + r * p) * z * q := by
      noncomm_ring
    rw [c1, c2, c3, c4] at h3
    exact sub_eq_zero.1 (h3.trans (by simp))
  have lad := fun {x} (hx : x < n) => flip_ladder (S := S) n hinj s hx
  have bl := fun {x} (hx : x < n) => flip_bil (S := S) n hinj s hx
  refine (congrArg (Commute _) (regroup n _ _ (fun o o' => (U - 2 * J) • (bil (S := S) el true o true o * bil el false o' false o'))
    (fun o o' => (-J) • (repU (S := S) (.fermion true (el true o)) * repU (.fermion true (el false o)) * (repU (.fermion false (el true o')) * repU (.fermion false (el false o')))))
    (fun o o' => (-J) • (bil (S := S) el true o false o * bil el false o' true o'))
    (fun o o' => (U - 3 * J) • (bil (S := S) el true o true o * bil el true o' true o' + bil el false o false o * bil el false o' false o')))).mpr ?_
  refine Commute.add_right (Commute.add_right (Commute.add_right ?_ ?_) ?_) ?_
  · refine Commute.sum_right _ _ _ fun o ho => Commute.smul_right ?_ _
    obtain ⟨b1, b2, -⟩ := bl (Finset.mem_range.1 ho)
    show _ * _ = _ * _
    cases s
    · simp only [Bool.not_false] at b1 b2
      rw [mul_add, b1, b2]; noncomm_ring
    · simp only [Bool.not_true] at b1 b2
      rw [mul_add, b1, b2]; noncomm_ring
  · refine Commute.sum_right _ _ _ fun o ho => Commute.smul_right ?_ _
    obtain ⟨h1, h2, h3, h4⟩ := lad (Finset.mem_range.1 ho)
    have h := flip_coulomb (B := Module.End S (V ι S)) h1 h2 h3 h4 (sq _ _) (sq _ _) (one _) (one _)
    cases s
    · rw [comm _ _ _ _ _ _ _ _ (by simp) (by simp)]; exact h
    · exact h
  · refine Commute.sum_right _ _ _ fun o ho => Commute.sum_right _ _ _ fun o' ho' => ?_
    split_ifs
    · refine Commute.smul_right (Commute.mul_right ?_ ?_) _
      · obtain ⟨h1, h2, -, -⟩ := lad (Finset.mem_range.1 ho)
        show _ * _ = _ * _
        cases s
        · simp only [Bool.not_false] at h1 h2
          rw [← mul_assoc, h2, add_mul, mul_assoc, h1, sq, add_zero, mul_assoc]
        · simp only [Bool.not_true] at h1 h2
          rw [← mul_assoc, h1, mul_assoc, h2, mul_add, sq, add_zero, mul_assoc]
      · obtain ⟨-, -, h3, h4⟩ := lad (Finset.mem_range.1 ho')
        show _ * _ = _ * _
        cases s
        · simp only [Bool.not_false] at h3 h4
          rw [← mul_assoc, h4, mul_assoc, h3, mul_sub, sq, sub_zero, mul_assoc]
        · simp only [Bool.not_true] at h3 h4
          rw [← mul_assoc, h3, sub_mul, mul_assoc, h4, sq, sub_zero, mul_assoc]
    · exact Commute.zero_right _
  · refine Commute.sum_right _ _ _ fun o ho => Commute.sum_right _ _ _ fun o' ho' => ?_
    split_ifs with hlt
    · obtain ⟨a1, a2, a3, a4⟩ := bl (Finset.mem_range.1 ho)
      obtain ⟨b1, b2, b3, b4⟩ := bl (Finset.mem_range.1 ho')
      obtain ⟨k1, k2, k3⟩ := flip_two a1 a2 a3 a4 b1 b2 b3 b4
      have h := flip_three U J k1 k2 k3
      simp only [← smul_add]
      rw [comm true o' true o' false o false o (by simp) (by simp), comm true o' false o' false o true o (by simp [hlt.ne]) (by simp [hlt.ne])]
      cases s
      · simp only [Bool.not_false] at h
        rw [add_comm (bil el true o true o * bil el false o' false o'), add_comm (bil el true o false o * bil el false o' true o'),
          add_comm (bil el true o true o * bil el true o' true o')]
        exact h
      · simp only [Bool.not_true] at h
        exact h
    · exact Commute.zero_right _

omit hinj
/-- Not vacuous: three orbitals in the order of the program's indices; the raising operator has three terms and the Hamiltonian has some too. -/
theorem c116_spin_hypotheses : (∀ s o s' o', exAtom s o = exAtom s' o' → s = s' ∧ o = o') ∧
    (flip exAtom 3 true : Expr (Gen (Bool ×ₗ Nat)) ℚ).terms.length = 3 ∧ (ham exAtom 3 (1 : ℚ) 1 2).terms.length = 33 := by
  refine ⟨fun s o s' o' h => Prod.mk.inj (toLex.injective h), by decide +kernel, by decide +kernel⟩

end Atom
end LC
