import Verif.Props.SpinPrograms
import Verif.Props.AllSpins
/-
C117 (continued): the expression built by examples/spin1_heisenberg.cpp:40-54 commutes, as an expression, with the components of the total spin:
always with the projection, and with the ladder components too if the transverse coupling is 1/2, as in the program.
`total` is not a part of the library; it is the sum a user would write with the factories of expression/factories.hpp:81-105.
-/
set_option linter.unusedSectionVars false
set_option linter.unusedSimpArgs false
set_option linter.unusedVariables false
namespace LC
namespace SpinRing
open Expr Factory HilbertSpace Terms LC.Lattice
variable {ι S : Type _} [LinearOrder ι] [CommRing S] [DecidableEq S] [ConstScalar S] [ScalarLaws S] [IsDomain S] [CharZero S] [Star S] [Algebra ℝ S]
variable {site : Nat → ι} {N : Nat}

/-- A component of the total spin, as a user of the API would add it up. -/
def total (site : Nat → ι) (m N : Nat) (c : SpinComp) : Expr (Gen ι) S := (List.range N).foldl (fun T a => T + spin m c (site a)) 0

theorem total_fold (m : Nat) (c : SpinComp) (l : List Nat) (e : Expr (Gen ι) S) (he : e.WF) (hr : Reachable (Allowed (only m)) e) :
    (l.foldl (fun T a => T + spin m c (site a)) e).WF ∧ Reachable (Allowed (only m)) (l.foldl (fun T a => T + spin m c (site a)) e) ∧
    ∀ k, (l.foldl (fun T a => T + spin m c (site a)) e).coeff k = e.coeff k + sumAt (l.map fun a => ([Gen.spin m c (site a)], (1 : S))) k := by
  classical
  induction l generalizing e with
  | nil => exact ⟨he, hr, fun k => by simp⟩
  | cons a l ih =>
    have hw : (spin m c (site a) : Expr (Gen ι) S).WF := (reach m c (site a)).wfA
    obtain ⟨h1, h2, h3⟩ := ih _ (wf_add he hw) (hr.add (reach m c (site a)))
    refine ⟨h1, h2, fun k => ?_⟩
    have e1 : (spin m c (site a) : Expr (Gen ι) S).coeff k = sumAt [([Gen.spin m c (site a)], (1 : S))] k := by
      have : (spin m c (site a) : Expr (Gen ι) S).terms = [([Gen.spin m c (site a)], 1)] := ofMonomial_single_terms _
      rw [Expr.coeff, coeff_eq_sumAt hw.1, this]
    rw [List.foldl_cons, h3, coeff_add he hw, e1, List.map_cons, add_assoc]
    congr 1
    rw [sumAt_cons, sumAt_cons, sumAt_nil]; ring


theorem total_facts (hd : Distinct site N) (m : Nat) (c : SpinComp) : Reachable (Allowed (only m)) (total site m N c : Expr (Gen ι) S) ∧
    ∀ p : List (Gen ι) × S, p ∈ (total site m N c).terms ↔ ∃ a < N, p = ([.spin m c (site a)], 1) := by
  have hwf0 : (0 : Expr (Gen ι) S).WF := wf_zero
  obtain ⟨h1, h2, h3⟩ := total_fold (site := site) m c (List.range N) (0 : Expr (Gen ι) S) hwf0 .zero
  refine ⟨h2, fun p => ?_⟩
  rw [total, terms_of_coeff h1 (l := (List.range N).map fun a => ([Gen.spin m c (site a)], (1 : S))) (fun k => by rw [h3]; exact zero_add _) (by
      rw [List.map_map]
      refine List.Nodup.map_on (fun a ha b hb e => ?_) List.nodup_range
      simp only [Function.comp, List.cons.injEq, Gen.spin.injEq, true_and, and_true] at e
      exact hd _ (List.mem_range.1 ha) _ (List.mem_range.1 hb) e) (by
      intro p hp
      obtain ⟨a, -, rfl⟩ := List.mem_map.1 hp
      exact one_ne_zero) p]
  simp only [List.mem_map, List.mem_range]
  exact ⟨fun ⟨a, ha, e⟩ => ⟨a, ha, e.symm⟩, fun ⟨a, ha, e⟩ => ⟨a, ha, e.symm⟩⟩

section
variable {A : Type _} [Ring A] [Algebra S A] {ρ : Gen ι → A} {m : Nat}

theorem eval_spin (c : SpinComp) (i : ι) : evalExpr ρ (spin m c i : Expr (Gen ι) S) = ρ (.spin m c i) := by
  have : (spin m c i : Expr (Gen ι) S).terms = [([.spin m c i], 1)] := ofMonomial_single_terms _
  rw [evalExpr, this]
  simp [evalTerms, evalMon]

theorem eval_total (c : SpinComp) : evalExpr ρ (total site m N c : Expr (Gen ι) S) = ∑ a ∈ Finset.range N, ρ (.spin m c (site a)) := by
  have : ∀ (l : List Nat) (e : Expr (Gen ι) S), evalExpr ρ (l.foldl (fun T a => T + spin m c (site a)) e) =
      evalExpr ρ e + (l.map fun a => ρ (.spin m c (site a))).sum := by
    intro l
    induction l with
    | nil => intro e; simp
    | cons a l ih => intro e; rw [List.foldl_cons, ih, eval_add, eval_spin, List.map_cons, List.sum_cons, add_assoc]
  rw [total, this, eval_zero, zero_add]
  rfl

theorem eval_two (hρ : TextbookCore S (only m) ρ) (c d : SpinComp) (i j : ι) :
    evalExpr ρ (spin m c i * spin m d j : Expr (Gen ι) S) = ρ (.spin m c i) * ρ (.spin m d j) := by
  have ht : ∀ c i, (spin m c i : Expr (Gen ι) S).terms = [([.spin m c i], 1)] := fun c i => ofMonomial_single_terms _
  rw [eval_mul_good (onlyAlone m) hρ ((reach m c i).canonA (onlyAlone m)).inP ((reach m d j).canonA (onlyAlone m)).inP, eval_spin, eval_spin]
  intro p hp q hq
  rw [ht, List.mem_singleton] at hp hq
  subst hp hq
  intro n x s hn hs p hp hle
  have := hle.trans List.count_le_length
  simp at this
  omega

/-- The two-site expression as an operator. -/
def bondOp (ρ : Gen ι → A) (m : Nat) (h : S) (i j : ι) : A :=
  ρ (.spin m .z i) * ρ (.spin m .z j) + h • (ρ (.spin m .plus i) * ρ (.spin m .minus j) + ρ (.spin m .minus i) * ρ (.spin m .plus j))

theorem eval_bond (hρ : TextbookCore S (only m) ρ) (h : S) (i j : ι) : evalExpr ρ (bond m h i j) = bondOp ρ m h i j := by
  have ev : ∀ (x : S) (e : Expr (Gen ι) S), evalExpr ρ (x • e) = x • evalExpr ρ e := fun x e => eval_smul x e
  rw [bond, eval_add, ev, eval_add, eval_two hρ _ _ i j, eval_two hρ _ _ i j, eval_two hρ _ _ i j, bondOp]

theorem eval_ham (hρ : TextbookCore S (only m) ρ) (hd : Distinct site N) (hN : 2 ≤ N) (h : S) :
    evalExpr ρ (ham site m N h) = ((List.range N).map fun i => bondOp ρ m h (site i) (site ((i + 1) % N))).sum := by
  have : ∀ (l : List Nat), (∀ i ∈ l, i < N) → ∀ (e : Expr (Gen ι) S),
      evalExpr ρ (l.foldl (fun H i => let j := (i + 1) % N; H + bond m h (site i) (site j)) e) =
      evalExpr ρ e + (l.map fun i => bondOp ρ m h (site i) (site ((i + 1) % N))).sum := by
    intro l
    induction l with
    | nil => intro _ e; simp
    | cons a l ih =>
      intro hl e
      rw [List.foldl_cons, ih (fun j hj => hl j (by simp [hj])), eval_add, eval_bond hρ h, List.map_cons, List.sum_cons, add_assoc]
  rw [ham, this _ (fun i hi => List.mem_range.1 hi), eval_zero, zero_add]

/-- The commutator of the component `c` with the component `d` of one spin. -/
def lie (ρ : Gen ι → A) (m : Nat) (c d : SpinComp) (i : ι) : A := ρ (.spin m c i) * ρ (.spin m d i) - ρ (.spin m d i) * ρ (.spin m c i)

theorem total_comm (hρ : TextbookCore S (only m) ρ) (hd : Distinct site N) (c d : SpinComp) {a : Nat} (ha : a < N) :
    (∑ b ∈ Finset.range N, ρ (.spin m c (site b))) * ρ (.spin m d (site a)) =
      ρ (.spin m d (site a)) * (∑ b ∈ Finset.range N, ρ (.spin m c (site b))) + lie ρ m c d (site a) := by
  rw [← sub_eq_iff_eq_add', Finset.sum_mul, Finset.mul_sum, ← Finset.sum_sub_distrib, Finset.sum_eq_single a, lie]
  · intro b hb hne
    rw [hρ.spin_comm m c (site b) m d (site a) rfl rfl (.inr fun e => hne (hd _ (Finset.mem_range.1 hb) _ ha e)), sub_self]
  · intro h; exact absurd (Finset.mem_range.2 ha) h

theorem bond_comm (hρ : TextbookCore S (only m) ρ) (hd : Distinct site N) {a b : Nat} (ha : a < N) (hb : b < N) (c : SpinComp) {h : S}
    (hc : c = .z ∨ 2 * h = 1) :
    (∑ x ∈ Finset.range N, ρ (.spin m c (site x))) * bondOp ρ m h (site a) (site b) =
      bondOp ρ m h (site a) (site b) * ∑ x ∈ Finset.range N, ρ (.spin m c (site x)) := by
  have ta := fun d => total_comm hρ hd c d ha
  have tb := fun d => total_comm hρ hd c d hb
  set X := ∑ x ∈ Finset.range N, ρ (.spin m c (site x)) with hX
  have two : ∀ d e, X * (ρ (.spin m d (site a)) * ρ (.spin m e (site b))) = ρ (.spin m d (site a)) * ρ (.spin m e (site b)) * X +
      (ρ (.spin m d (site a)) * lie ρ m c e (site b) + lie ρ m c d (site a) * ρ (.spin m e (site b))) := by
    intro d e
    rw [← mul_assoc, ta, add_mul, mul_assoc, tb, mul_add, ← mul_assoc, add_assoc]
  rw [bondOp, mul_add, add_mul, mul_smul_comm, smul_mul_assoc, mul_add, add_mul, two, two, two]
  have l1 : ∀ i, lie ρ m .plus .z i = - ρ (.spin m .plus i) := fun i => by rw [lie, ← neg_sub, hρ.spin_zp m i rfl]
  have l2 : ∀ i, lie ρ m .minus .z i = ρ (.spin m .minus i) := fun i => by rw [lie, ← neg_sub, hρ.spin_zm m i rfl, neg_neg]
  have l3 : ∀ i, lie ρ m .plus .minus i = 2 * ρ (.spin m .z i) := fun i => hρ.spin_pm m i rfl
  have l4 : ∀ i, lie ρ m .minus .plus i = -(2 * ρ (.spin m .z i)) := fun i => by rw [lie, ← neg_sub, hρ.spin_pm m i rfl]
  have l5 : ∀ c i, lie ρ m c c i = 0 := fun c i => sub_self _
  have l6 : ∀ i, lie ρ m .z .plus i = ρ (.spin m .plus i) := fun i => hρ.spin_zp m i rfl
  have l7 : ∀ i, lie ρ m .z .minus i = - ρ (.spin m .minus i) := fun i => hρ.spin_zm m i rfl
  have two_smul' : ∀ x : A, 2 * h = 1 → h • (2 * x) = x := fun x hh => by
    rw [two_mul, ← two_smul S x, smul_smul, mul_comm, hh, one_smul]
  have c2 : ∀ x y : A, x * (2 * y) = 2 * (x * y) := fun x y => by rw [two_mul, two_mul, mul_add]
  have c3 : ∀ x y : A, 2 * x * y = 2 * (x * y) := fun x y => mul_assoc _ _ _
  cases c with
  | plus =>
    have hh : 2 * h = 1 := hc.resolve_left (by simp)
    simp only [l1, l3, l5, mul_zero, zero_mul, mul_neg, neg_mul, add_zero, zero_add, c2, c3, smul_add, two_smul' _ hh]
    abel
  | minus =>
    have hh : 2 * h = 1 := hc.resolve_left (by simp)
    simp only [l2, l4, l5, mul_zero, zero_mul, mul_neg, neg_mul, add_zero, zero_add, c2, c3, smul_add, smul_neg, two_smul' _ hh]
    abel
  | z =>
    simp only [l5, l6, l7, mul_zero, zero_mul, mul_neg, neg_mul, add_zero, zero_add]
    congr 2
    abel

theorem ham_comm (hρ : TextbookCore S (only m) ρ) (hd : Distinct site N) (hN : 2 ≤ N) (c : SpinComp) {h : S} (hc : c = .z ∨ 2 * h = 1) :
    evalExpr ρ (total site m N c : Expr (Gen ι) S) * evalExpr ρ (ham site m N h) = evalExpr ρ (ham site m N h) * evalExpr ρ (total site m N c : Expr (Gen ι) S) := by
  rw [eval_total, eval_ham hρ hd hN]
  have : ∀ (l : List Nat), (∀ i ∈ l, i < N) → (∑ x ∈ Finset.range N, ρ (.spin m c (site x))) * (l.map fun i => bondOp ρ m h (site i) (site ((i + 1) % N))).sum =
      (l.map fun i => bondOp ρ m h (site i) (site ((i + 1) % N))).sum * ∑ x ∈ Finset.range N, ρ (.spin m c (site x)) := by
    intro l
    induction l with
    | nil => intro _; simp
    | cons a l ih =>
      intro hl
      rw [List.map_cons, List.sum_cons, mul_add, add_mul, ih (fun j hj => hl j (by simp [hj])),
        bond_comm hρ hd (hl a (by simp)) (next_ne hN (hl a (by simp))).2 c hc]
  exact this _ fun i hi => List.mem_range.1 hi
end

/-- No ladder power of a product of the Hamiltonian and a component of the total spin is higher than two. -/
theorem good_counts (hd : Distinct site N) (hN : 2 ≤ N) (m : Nat) (c : SpinComp) {h : S} (hh : h ≠ 0) (p q : List (Gen ι) × S) (hp : p ∈ (ham site m N h).terms)
    (hq : q ∈ (total site m N c).terms) : GoodCnt (p.1 ++ q.1) ∧ GoodCnt (q.1 ++ p.1) := by
  obtain ⟨a, -, rfl⟩ := ((total_facts hd m c).2 q).1 hq
  obtain ⟨i, hi, i', rfl, lo, hi', rfl, rfl, h3⟩ := (C117_terms hd hN m hh p).1 hp
  have hne : min (site i) (site ((i + 1) % N)) ≠ max (site i) (site ((i + 1) % N)) := (min_lt_max.2 (site_ne hd hN hi)).ne
  have hcnt : ∀ g, List.count g p.1 ≤ 1 := by
    intro g
    rcases h3 with rfl | rfl | rfl <;> simp only [List.count_cons, List.count_nil, beq_iff_eq] <;> split_ifs with h1 h2 h2 <;> try omega
    all_goals
      rw [← h1] at h2
      simp [hne, hne.symm] at h2
  have key : ∀ g, List.count g (p.1 ++ [Gen.spin m c (site a)]) ≤ 2 := by
    intro g
    rw [List.count_append]
    have h1 := hcnt g
    have h2 : List.count g [Gen.spin m c (site a)] ≤ 1 := List.count_le_length
    omega
  constructor
  · intro n x s hn hs r hr hle
    have := hle.trans (key _)
    omega
  · intro n x s hn hs r hr hle
    have e : List.count (Gen.spin n s x) ([Gen.spin m c (site a)] ++ p.1) = List.count (Gen.spin n s x) (p.1 ++ [Gen.spin m c (site a)]) := by
      rw [List.count_append, List.count_append, add_comm]
    rw [e] at hle
    have := hle.trans (key _)
    omega

/-- **C117** The projection of the total spin commutes with the Hamiltonian, and for `h = 1/2` all components of the total spin do. -/
theorem C117_total_spin (hd : Distinct site N) (hN : 2 ≤ N) (m : Nat) {h : S} (hh : h ≠ 0) (c : SpinComp) (hc : c = .z ∨ 2 * h = 1) :
    (ham site m N h * total site m N c).eqOp (total site m N c * ham site m N h) = true := by
  have rt := (total_facts (S := S) hd m c).1
  have rh := reach_ham (site := site) (N := N) m h
  have hM := onlyAlone (ι := ι) m
  have hρ := Reg.repU_core (ι := ι) (S := S) (only m)
  rw [eqOp_iff]
  refine ext_kap (rh.mul rt).wfA (rt.mul rh).wfA ((rh.mul rt).canonA hM) ((rt.mul rh).canonA hM) fun k _ => ?_
  congr 1
  rw [eval_mul_good hM hρ (rh.canonA hM).inP (rt.canonA hM).inP fun p hp q hq => (good_counts hd hN m c hh p q hp hq).1,
    eval_mul_good hM hρ (rt.canonA hM).inP (rh.canonA hM).inP fun q hq p hp => (good_counts hd hN m c hh p q hp hq).2]
  exact (ham_comm hρ hd hN c hc).symm

open scoped Classical in
/-- Not vacuous: the published ring, six spins 1 with `h = 1/2`, where `S_+` of the whole ring has six terms and the Hamiltonian eighteen or more. -/
theorem c117_total_hypotheses : Distinct (fun i => (i : ℤ)) 6 ∧ (1 / 2 : ℝ) ≠ 0 ∧ 2 * (1 / 2 : ℝ) = 1 ∧
    (([Gen.spin 3 .plus (4 : ℤ)], (1 : ℝ)) ∈ (total (fun i => (i : ℤ)) 3 6 .plus : Expr (Gen ℤ) ℝ).terms) ∧
    (([Gen.spin 3 .plus (0 : ℤ), Gen.spin 3 .minus (5 : ℤ)], (1 / 2 : ℝ)) ∈ (ham (fun i => (i : ℤ)) 3 6 (1 / 2 : ℝ)).terms) := by
  have hd : Distinct (fun i => (i : ℤ)) 6 := fun a _ b _ h => by simpa using h
  have hh : (1 / 2 : ℝ) ≠ 0 := by norm_num
  refine ⟨hd, hh, by norm_num, ((total_facts hd 3 .plus).2 _).2 ⟨4, by decide, rfl⟩, ?_⟩
  exact (C117_terms hd (by decide) 3 hh _).2 ⟨5, by decide, 0, rfl, 0, 5, by decide, by decide, .inr (.inl (by simp))⟩

end SpinRing
end LC
