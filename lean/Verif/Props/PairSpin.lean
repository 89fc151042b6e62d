import Verif.Props.SpinPair
import Verif.Props.SpinSymmetry
/-
C118 (continued): the symmetries of the exchange interaction of examples/exchange_matrix.cpp.
-/
set_option linter.unusedSectionVars false
namespace LC
namespace SpinPair
open Expr Factory HilbertSpace Terms LC.Lattice SpinRing
variable {ι S : Type _} [LinearOrder ι] [CommRing S] [DecidableEq S] [ConstScalar S] [ScalarLaws S] [IsDomain S] [CharZero S] [Star S] [Algebra ℝ S]

/-- The component `c` of the total spin of the two sites. -/
def pairSpin (i j : ι) (c : SpinComp) : Expr (Gen ι) S := spin 2 c i + spin 2 c j

/-- The two sites as a ring. -/
def two' (i j : ι) (k : Nat) : ι := if k = 0 then i else j

theorem distinct_two {i j : ι} (hij : i ≠ j) : Distinct (two' i j) 2 := by
  intro a ha b hb h
  have ha' : a = 0 ∨ a = 1 := by omega
  have hb' : b = 0 ∨ b = 1 := by omega
  rcases ha' with rfl | rfl <;> rcases hb' with rfl | rfl <;> simp_all [two', eq_comm]

theorem pair_total (i j : ι) (c : SpinComp) : (pairSpin i j c : Expr (Gen ι) S) = total (two' i j) 2 2 c := by
  have hi : (spin 2 c i : Expr (Gen ι) S).WF := (reach 2 c i).wfA
  have hj : (spin 2 c j : Expr (Gen ι) S).WF := (reach 2 c j).wfA
  have h0 : (0 : Expr (Gen ι) S).WF := wf_zero
  have e : (total (two' i j) 2 2 c : Expr (Gen ι) S) = 0 + spin 2 c i + spin 2 c j := rfl
  rw [e]
  refine ext_coeff (wf_add hi hj) (wf_add (wf_add h0 hi) hj) fun k => ?_
  rw [pairSpin, coeff_add hi hj, coeff_add (wf_add h0 hi) hj, coeff_add h0 hi, show (0 : Expr (Gen ι) S).coeff k = 0 from rfl, zero_add]

/-- No ladder power of the products is higher than two. -/
theorem good_counts {h : S} (hh : h ≠ 0) {i j : ι} (hij : i ≠ j) (c : SpinComp) (p q : List (Gen ι) × S) (hp : p ∈ (exchange h i j).terms)
    (hq : q ∈ (pairSpin i j c).terms) : GoodCnt (p.1 ++ q.1) ∧ GoodCnt (q.1 ++ p.1) := by
  rw [pair_total] at hq
  obtain ⟨a, -, rfl⟩ := ((total_facts (distinct_two hij) 2 c).2 q).1 hq
  obtain ⟨d, -, rfl⟩ := List.mem_map.1 ((exchange_perm hh hij).mem_iff.1 hp)
  have hne : min i j ≠ max i j := (min_lt_max.2 hij).ne
  have hcnt : ∀ g, List.count g (two 2 d i j) ≤ 1 := fun g =>
    List.nodup_iff_count_le_one.1 (by simp [two, hij]) g
  have key : ∀ g, List.count g (two 2 d i j ++ [Gen.spin 2 c (two' i j a)]) ≤ 2 := by
    intro g
    rw [List.count_append]
    have h1 := hcnt g
    have h2 : List.count g [Gen.spin 2 c (two' i j a)] ≤ 1 := List.count_le_length
    omega
  constructor
  · intro n x s hn hs r hr hle
    have := hle.trans (key _)
    omega
  · intro n x s hn hs r hr hle
    have e : List.count (Gen.spin n s x) ([Gen.spin 2 c (two' i j a)] ++ two 2 d i j) = List.count (Gen.spin n s x) (two 2 d i j ++ [Gen.spin 2 c (two' i j a)]) := by
      rw [List.count_append, List.count_append, add_comm]
    rw [show (([Gen.spin 2 c (two' i j a)], (1 : S)).1 ++ (two 2 d i j, weight h d).1) = [Gen.spin 2 c (two' i j a)] ++ two 2 d i j from rfl, e] at hle
    have := hle.trans (key _)
    omega

/-- **C118** The projection of the total spin of the pair commutes with the exchange interaction, and for `h = 1/2`, as in the program, all
components of the total spin do. -/
theorem C118_spin {h : S} (hh : h ≠ 0) {i j : ι} (hij : i ≠ j) (c : SpinComp) (hc : c = .z ∨ 2 * h = 1) :
    (exchange h i j * pairSpin i j c).eqOp (pairSpin i j c * exchange h i j) = true := by
  have rt : Reachable (Allowed (only 2)) (pairSpin i j c : Expr (Gen ι) S) := (reach 2 c i).add (reach 2 c j)
  have rh : Reachable (Allowed (only 2)) (exchange h i j) := by rw [exchange_eq]; exact reach_bond 2 h i j
  have hM := onlyAlone (ι := ι) 2
  have hρ := Reg.repU_core (ι := ι) (S := S) (only 2)
  rw [eqOp_iff]
  refine ext_kap (rh.mul rt).wfA (rt.mul rh).wfA ((rh.mul rt).canonA hM) ((rt.mul rh).canonA hM) fun k _ => ?_
  congr 1
  rw [eval_mul_good hM hρ (rh.canonA hM).inP (rt.canonA hM).inP fun p hp q hq => (good_counts hh hij c p q hp hq).1,
    eval_mul_good hM hρ (rt.canonA hM).inP (rh.canonA hM).inP fun q hq p hp => (good_counts hh hij c p q hp hq).2]
  rw [exchange_eq, eval_bond hρ, pair_total, eval_total]
  exact (bond_comm hρ (distinct_two hij) (a := 0) (b := 1) (by omega) (by omega) c hc).symm

theorem pair_counts {i j : ι} (hij : i ≠ j) (c d : SpinComp) (p q : List (Gen ι) × S) (hp : p ∈ (pairSpin i j c).terms)
    (hq : q ∈ (pairSpin i j d).terms) : GoodCnt (p.1 ++ q.1) := by
  rw [pair_total] at hp hq
  obtain ⟨a, -, rfl⟩ := ((total_facts (distinct_two hij) 2 c).2 p).1 hp
  obtain ⟨b, -, rfl⟩ := ((total_facts (distinct_two hij) 2 d).2 q).1 hq
  intro n x s hn hs r hr hle
  have h2 := hle.trans (List.count_le_length (a := Gen.spin n s x))
  simp at h2
  omega

section
variable {A : Type _} [Ring A] [Algebra S A] {ρ : Gen ι → A}

theorem square_identity (hρ : TextbookCore S (only 2) ρ) {h : S} (h2 : 2 * h = 1) {i j : ι} (hij : i ≠ j) :
    (2 : S) • ((ρ (.spin 2 .plus i) + ρ (.spin 2 .plus j)) * (ρ (.spin 2 .minus i) + ρ (.spin 2 .minus j)) +
      (ρ (.spin 2 .minus i) + ρ (.spin 2 .minus j)) * (ρ (.spin 2 .plus i) + ρ (.spin 2 .plus j))) +
      (4 : S) • ((ρ (.spin 2 .z i) + ρ (.spin 2 .z j)) * (ρ (.spin 2 .z i) + ρ (.spin 2 .z j))) =
    (8 : S) • bondOp ρ 2 h i j + algebraMap S A 6 := by
  have e1 := hρ.half_pm i rfl
  have e2 := hρ.half_pm j rfl
  have z1 := hρ.half_zz i rfl
  have z2 := hρ.half_zz j rfl
  have c1 := hρ.spin_comm 2 .plus j 2 .minus i rfl rfl (.inr hij.symm)
  have c2 := hρ.spin_comm 2 .minus j 2 .plus i rfl rfl (.inr hij.symm)
  have c3 := hρ.spin_comm 2 .z j 2 .z i rfl rfl (.inr hij.symm)
  have h8 : (8 : S) * h = 4 := by linear_combination 4 * h2
  rw [bondOp, smul_add (8 : S), smul_smul, h8]
  have num : ∀ (n : Nat) [n.AtLeastTwo] (x : A), (OfNat.ofNat n : S) • x = (OfNat.ofNat n : Nat) • x := fun n _ x => by
    rw [ofNat_smul_eq_nsmul]
  have h6 : algebraMap S A 6 = (6 : Nat) • (1 : A) := by rw [Algebra.algebraMap_eq_smul_one, num]
  rw [num, num, num, num, h6]
  have z1' : (4 : Nat) • (ρ (.spin 2 .z i) * ρ (.spin 2 .z i)) = 1 := by rw [← z1, nsmul_eq_mul]; rfl
  have z2' : (4 : Nat) • (ρ (.spin 2 .z j) * ρ (.spin 2 .z j)) = 1 := by rw [← z2, nsmul_eq_mul]; rfl
  simp only [mul_add, add_mul, smul_add, c1, c2, c3]
  have e1' := eq_sub_of_add_eq e1
  have e2' := eq_sub_of_add_eq e2
  rw [e1', e2', z1', z2']
  simp only [smul_sub]
  abel
end

/-- Four times the square of the total spin of the pair. -/
def pairSquare (i j : ι) : Expr (Gen ι) S :=
  (2 : S) • ((pairSpin i j .plus : Expr (Gen ι) S) * pairSpin i j .minus + pairSpin i j .minus * pairSpin i j .plus : Expr (Gen ι) S) +
    (4 : S) • ((pairSpin i j .z : Expr (Gen ι) S) * pairSpin i j .z : Expr (Gen ι) S)

theorem eval_sides {A : Type _} [Ring A] [Algebra S A] {ρ : Gen ι → A} (hρ : TextbookCore S (only 2) ρ) {h : S} (h2 : 2 * h = 1) {i j : ι} (hij : i ≠ j) :
    evalExpr ρ (pairSquare i j : Expr (Gen ι) S) = evalExpr ρ ((8 : S) • exchange h i j + const 6 : Expr (Gen ι) S) := by
  have rt : ∀ c, Reachable (Allowed (only 2)) (pairSpin i j c : Expr (Gen ι) S) := fun c => (reach 2 c i).add (reach 2 c j)
  have hM := onlyAlone (ι := ι) 2
  have ev : ∀ (x : S) (e : Expr (Gen ι) S), evalExpr ρ (x • e) = x • evalExpr ρ e := fun x e => eval_smul x e
  have em : ∀ c d, evalExpr ρ (pairSpin i j c * pairSpin i j d : Expr (Gen ι) S) =
      evalExpr ρ (pairSpin i j c : Expr (Gen ι) S) * evalExpr ρ (pairSpin i j d : Expr (Gen ι) S) := fun c d =>
    eval_mul_good hM hρ ((rt c).canonA hM).inP ((rt d).canonA hM).inP fun p hp q hq => pair_counts hij c d p q hp hq
  have es : ∀ c, evalExpr ρ (pairSpin i j c : Expr (Gen ι) S) = ρ (.spin 2 c i) + ρ (.spin 2 c j) := fun c => by
    rw [pairSpin, eval_add, eval_spin, eval_spin]
  rw [pairSquare, eval_add, eval_add, ev, ev, ev, eval_add, em, em, em, eval_const, exchange_eq, eval_bond hρ, es, es, es]
  exact square_identity hρ h2 hij

/-- **C118** For `h = 1/2` the interaction is, up to a constant, the square of the total spin: `4 S^2 = 8 H + 6`, where `4 S^2` is
`2 * (S_p * S_m + S_m * S_p) + 4 * S_z * S_z`. -/
theorem C118_square {h : S} (h2 : 2 * h = 1) {i j : ι} (hij : i ≠ j) :
    (pairSquare i j : Expr (Gen ι) S).eqOp
      ((8 : S) • exchange h i j + const 6) = true := by
  have rt : ∀ c, Reachable (Allowed (only 2)) (pairSpin i j c : Expr (Gen ι) S) := fun c => (reach 2 c i).add (reach 2 c j)
  have rh : Reachable (Allowed (only 2)) (exchange h i j) := by rw [exchange_eq]; exact reach_bond 2 h i j
  have hM := onlyAlone (ι := ι) 2
  have hρ := Reg.repU_core (ι := ι) (S := S) (only 2)
  have r1 : Reachable (Allowed (only 2)) (pairSquare i j : Expr (Gen ι) S) :=
    .add (.smulPrefix _ (((rt _).mul (rt _)).add ((rt _).mul (rt _)))) (.smulPrefix _ ((rt _).mul (rt _)))
  have r2 : Reachable (Allowed (only 2)) ((8 : S) • exchange h i j + const 6) := .add (.smulPrefix _ rh) (.const _)
  rw [eqOp_iff]
  refine ext_kap r1.wfA r2.wfA (r1.canonA hM) (r2.canonA hM) fun k _ => ?_
  congr 1
  exact eval_sides hρ h2 hij

open scoped Classical in
/-- Not vacuous: the published program; and the exchange with the coupling `1/2` has a term that a ladder component does not commute with alone. -/
theorem c118_spin_hypotheses : (1 / 2 : ℝ) ≠ 0 ∧ 2 * (1 / 2 : ℝ) = 1 ∧ (1 : ℤ) ≠ 2 ∧
    ([Gen.spin 2 .plus (1 : ℤ), .spin 2 .minus 2], (1 / 2 : ℝ)) ∈ (exchange (1 / 2 : ℝ) (1 : ℤ) 2).terms := by
  have hh : (1 / 2 : ℝ) ≠ 0 := by norm_num
  refine ⟨hh, by norm_num, by norm_num, (exchange_perm hh (by norm_num)).mem_iff.2 (List.mem_map.2 ⟨.plus, by simp [comps], ?_⟩)⟩
  simp [two, weight, opp]

end SpinPair
end LC
