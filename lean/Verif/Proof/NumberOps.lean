import Verif.Spec.NumberOps
import Verif.Props.AllSpins
/-
The commutator with the operator of an additive quantum number.
-/
set_option linter.unusedSectionVars false
set_option linter.unusedVariables false
namespace LC
open Expr Terms Factory Reg
variable {ι S : Type _} [LinearOrder ι] [CommRing S] [DecidableEq S] [ConstScalar S] [ScalarLaws S] [IsDomain S] [CharZero S] [Star S]
  {M : Nat → ι → Prop}

/-- The quanta a generator adds to its mode. -/
def Gen.sgn : Gen ι → S
  | .fermion d _ => if d then 1 else -1
  | .boson d _ => if d then 1 else -1
  | .spin _ .plus _ => 1
  | .spin _ .minus _ => -1
  | .spin _ .z _ => 0

theorem Charge.gen_eq (w : Charge ι S) (g : Gen ι) : w.gen g = g.sgn * w.mode g.mode := by
  rcases g with ⟨d, i⟩ | ⟨d, i⟩ | ⟨m, c, i⟩
  · cases d <;> simp [Charge.gen, Gen.sgn, Charge.mode, Gen.mode]
  · cases d <;> simp [Charge.gen, Gen.sgn, Charge.mode, Gen.mode]
  · cases c <;> simp [Charge.gen, Gen.sgn, Charge.mode, Gen.mode]

/-- The value of a counter. -/
def counterVal {A : Type _} [Mul A] (ρ : Gen ι → A) : Mode ι → A
  | .fermion i => ρ (.fermion true i) * ρ (.fermion false i)
  | .boson i => ρ (.boson true i) * ρ (.boson false i)
  | .spin m i => ρ (.spin m .z i)

def ModeOK (M : Nat → ι → Prop) : Mode ι → Prop
  | .spin n i => M n i
  | _ => True

section
variable {A : Type _} [Ring A] [Algebra S A] {ρ : Gen ι → A}

theorem counter_comm (T : TextbookCore S M ρ) (k : Mode ι) (hk : ModeOK M k) (g : Gen ι) (hg : Allowed M g) :
    counterVal ρ k * ρ g - ρ g * counterVal ρ k = if g.mode = k then (g.sgn : S) • ρ g else 0 := by
  rcases k with i | i | ⟨m, i⟩ <;> rcases g with ⟨e, j⟩ | ⟨e, j⟩ | ⟨n, c, j⟩ <;> simp only [Gen.mode, counterVal, reduceCtorEq, if_false, Mode.fermion.injEq, Mode.boson.injEq, Mode.spin.injEq]
  · have h1 := T.car false i e j
    have h2 := T.car true i e j
    set x := ρ (.fermion true i); set y := ρ (.fermion false i); set z := ρ (.fermion e j)
    have key : x * y * z - z * (x * y) = x * (y * z + z * y) - (x * z + z * x) * y := by noncomm_ring
    rw [key, h1, h2]
    by_cases hij : j = i
    · subst hij; cases e <;> simp [Gen.sgn, x, y, z]
    · simp [hij, Ne.symm hij]
  · rw [mul_assoc, T.comm_fb, ← mul_assoc, T.comm_fb, mul_assoc, sub_self]
  · rw [mul_assoc, T.comm_fs _ _ _ _ _ hg, ← mul_assoc, T.comm_fs _ _ _ _ _ hg, mul_assoc, sub_self]
  · rw [mul_assoc, ← T.comm_fb, ← mul_assoc, ← T.comm_fb, mul_assoc, sub_self]
  · have h1 := T.ccr i j
    have h2 := T.ccr j i
    have h3 := T.ccr_same true i j
    have h4 := T.ccr_same false i j
    cases e
    · set x := ρ (.boson true i); set y := ρ (.boson false i); set z := ρ (.boson false j)
      have key : x * y * z - z * (x * y) = x * (y * z - z * y) - (z * x - x * z) * y := by noncomm_ring
      rw [key, h2, sub_eq_zero.2 h4]
      by_cases hij : j = i
      · subst hij; simp [Gen.sgn, y, z]
      · simp [hij]
    · set x := ρ (.boson true i); set y := ρ (.boson false i); set z := ρ (.boson true j)
      have key : x * y * z - z * (x * y) = x * (y * z - z * y) + (x * z - z * x) * y := by noncomm_ring
      rw [key, h1, sub_eq_zero.2 h3]
      by_cases hij : j = i
      · subst hij; simp [Gen.sgn, x, z]
      · simp [hij, Ne.symm hij]
  · rw [mul_assoc, T.comm_bs _ _ _ _ _ hg, ← mul_assoc, T.comm_bs _ _ _ _ _ hg, mul_assoc, sub_self]
  · rw [T.comm_fs _ _ _ _ _ hk, sub_self]
  · rw [T.comm_bs _ _ _ _ _ hk, sub_self]
  · by_cases hh : n = m ∧ j = i
    · obtain ⟨rfl, rfl⟩ := hh
      cases c
      all_goals simp only [Gen.sgn, and_self, if_true, one_smul, neg_smul, zero_smul]
      · exact T.spin_zp _ _ hk
      · exact T.spin_zm _ _ hk
      · exact sub_self _
    · rw [if_neg hh, T.spin_comm _ _ _ _ _ _ hk hg (by tauto), sub_self]

theorem op_comm_gen (T : TextbookCore S M ρ) (w : Charge ι S) (l : List (Mode ι)) (hl : l.Nodup) (hlM : ∀ k ∈ l, ModeOK M k) (g : Gen ι)
    (hg : Allowed M g) (hc : w.gen g ≠ 0 → g.mode ∈ l) :
    (l.map fun k => w.mode k • counterVal ρ k).sum * ρ g - ρ g * (l.map fun k => w.mode k • counterVal ρ k).sum = w.gen g • ρ g := by
  have e : (l.map fun k => w.mode k • counterVal ρ k).sum * ρ g - ρ g * (l.map fun k => w.mode k • counterVal ρ k).sum
      = (l.map fun k => if g.mode = k then w.gen g • ρ g else 0).sum := by
    clear hc hl
    induction l with
    | nil => simp
    | cons k l ih =>
      have ih := ih fun k hk => hlM k (by simp [hk])
      simp only [List.map_cons, List.sum_cons, add_mul, mul_add, smul_mul_assoc, mul_smul_comm]
      rw [add_sub_add_comm, ih, ← smul_sub, counter_comm T k (hlM k (by simp)) g hg]
      congr 1
      split
      · rename_i h; rw [w.gen_eq, h, smul_smul, mul_comm]
      · simp
  rw [e]
  by_cases hm : g.mode ∈ l
  · clear e hlM hc
    induction l with
    | nil => simp at hm
    | cons k l ih =>
      rw [List.nodup_cons] at hl
      rw [List.map_cons, List.sum_cons]
      by_cases h : g.mode = k
      · subst h
        rw [if_pos rfl]
        have : (l.map fun k => if g.mode = k then w.gen g • ρ g else 0).sum = 0 := by
          apply List.sum_eq_zero
          intro y hy
          obtain ⟨k, hk, rfl⟩ := List.mem_map.1 hy
          rw [if_neg]
          rintro rfl
          exact hl.1 hk
        rw [this, add_zero]
      · rw [if_neg h, zero_add]
        exact ih hl.2 (by simpa [h] using hm)
  · have h0 : w.gen g = 0 := by by_contra h; exact hm (hc h)
    simp [h0]

theorem comm_mon {Q : A} {w : Charge ι S} {m : List (Gen ι)} (h : ∀ g ∈ m, Q * ρ g - ρ g * Q = w.gen g • ρ g) :
    Q * evalMon ρ m - evalMon ρ m * Q = w.mon m • evalMon ρ m := by
  induction m with
  | nil => simp [evalMon, Charge.mon]
  | cons g m ih =>
    have ih := ih fun g hg => h g (by simp [hg])
    have h1 := h g (by simp)
    have e : evalMon ρ (g :: m) = ρ g * evalMon ρ m := by simp [evalMon]
    have e2 : w.mon (g :: m) = w.gen g + w.mon m := by simp [Charge.mon]
    rw [e, e2]
    calc Q * (ρ g * evalMon ρ m) - ρ g * evalMon ρ m * Q
        = (Q * ρ g - ρ g * Q) * evalMon ρ m + ρ g * (Q * evalMon ρ m - evalMon ρ m * Q) := by noncomm_ring
      _ = _ := by rw [h1, ih, smul_mul_assoc, mul_smul_comm, add_smul]

end

theorem ev_counter (hM : HalfAlone M) (k : Mode ι) (hk : ModeOK M k) :
    Reachable (Allowed M) (k.counter : Expr (Gen ι) S) ∧ evalExpr (repU (S := S)) (k.counter : Expr (Gen ι) S) = counterVal repU k := by
  have hr : Represents S (Allowed fun _ _ => False) (repU (ι := ι) (S := S)) := by
    have T := repU_core (ι := ι) (S := S) fun _ _ => False
    exact represents_of_textbook (fun _ _ h => h.elim) ⟨T.car, T.ccr, T.ccr_same, T.spin_pm, T.spin_zp, T.spin_zm, T.spin_comm,
      fun _ _ _ h => h.elim, T.half_zz, T.half_pm, T.half_z, T.comm_fb, T.comm_fs, T.comm_bs⟩
  rcases k with i | i | ⟨m, i⟩
  · refine ⟨.ofMonomial _ _ (by simp [Allowed]), ?_⟩
    rw [Mode.counter, Factory.n, eval_ofMonomial hr _ _ (by simp [Allowed])]
    simp [evalMon, counterVal]
  · have h1 : Reachable (Allowed fun _ _ => False) (Factory.aDag i : Expr (Gen ι) S) := .ofMonomial _ _ (by simp [Allowed])
    have h2 : Reachable (Allowed fun _ _ => False) (Factory.a i : Expr (Gen ι) S) := .ofMonomial _ _ (by simp [Allowed])
    refine ⟨.mul (.ofMonomial _ _ (by simp [Allowed])) (.ofMonomial _ _ (by simp [Allowed])), ?_⟩
    rw [Mode.counter, eval_mul hr (h1.canonA fun _ _ h => h.elim).inP (h2.canonA fun _ _ h => h.elim).inP, Factory.aDag, Factory.a,
      eval_ofMonomial hr _ _ (by simp [Allowed]), eval_ofMonomial hr _ _ (by simp [Allowed])]
    simp [evalMon, counterVal]
  · refine ⟨.ofMonomial _ _ (by simpa [Allowed] using (show M m i from hk)), ?_⟩
    rw [Mode.counter, Factory.spin]
    rw [evalExpr, ofMonomial_single_terms]
    simp [evalTerms, evalMon, counterVal]

theorem ev_op (hM : HalfAlone M) (w : Charge ι S) (l : List (Mode ι)) (hlM : ∀ k ∈ l, ModeOK M k) :
    Reachable (Allowed M) (w.op l) ∧ evalExpr (repU (S := S)) (w.op l) = (l.map fun k => w.mode k • counterVal repU k).sum := by
  have : ∀ (l : List (Mode ι)) (z : Expr (Gen ι) S), (∀ k ∈ l, ModeOK M k) → Reachable (Allowed M) z →
      Reachable (Allowed M) (l.foldl (fun Q k => Q + w.mode k • (k.counter : Expr (Gen ι) S)) z) ∧
      evalExpr (repU (S := S)) (l.foldl (fun Q k => Q + w.mode k • (k.counter : Expr (Gen ι) S)) z) =
        evalExpr repU z + (l.map fun k => w.mode k • counterVal repU k).sum := by
    intro l
    induction l with
    | nil => intro z _ hz; exact ⟨hz, by simp⟩
    | cons k l ih =>
      intro z h hz
      obtain ⟨c1, c2⟩ := ev_counter (S := S) hM k (h k (by simp))
      obtain ⟨h1, h2⟩ := ih (z + w.mode k • (k.counter : Expr (Gen ι) S)) (fun k hk => h k (by simp [hk])) (hz.add (.smulPrefix _ c1))
      refine ⟨h1, ?_⟩
      rw [List.foldl_cons, h2, eval_add, show evalExpr repU (w.mode k • (k.counter : Expr (Gen ι) S)) = w.mode k • evalExpr repU k.counter from eval_smul _ _, c2, List.map_cons, List.sum_cons, add_assoc]
  obtain ⟨h1, h2⟩ := this l 0 hlM .zero
  exact ⟨h1, h2.trans (by rw [show evalExpr (repU (S := S)) (0 : Expr (Gen ι) S) = 0 from rfl, zero_add])⟩

theorem commutator_coeff (hM : HalfAlone M) (w : Charge ι S) (l : List (Mode ι)) (hl : l.Nodup) (hlM : ∀ k ∈ l, ModeOK M k)
    (e : Expr (Gen ι) S) (he : Reachable (Allowed M) e) (hc : ∀ p ∈ e.terms, ∀ g ∈ p.1, w.gen g ≠ 0 → g.mode ∈ l) (k : List (Gen ι)) :
    (w.op l * e - e * w.op l).coeff k = w.mon k * e.coeff k := by
  classical
  obtain ⟨q1, q2⟩ := ev_op hM w l hlM
  have hQ := q1.canonA hM
  have hE := he.canonA hM
  have r := (q1.mul he).sub (he.mul q1)
  by_cases hk : CanonMon (Allowed M) k
  · rw [coeff_kap r.wfA (r.canonA hM) hk, coeff_kap he.wfA hE hk, eval_sub, map_sub, kap_mul hM hQ.inP hE.inP hk,
      kap_mul hM hE.inP hQ.inP hk, ← map_sub, q2]
    have T := repU_core (ι := ι) (S := S) M
    have main : ∀ t : List (List (Gen ι) × S), (∀ p ∈ t, CanonMon (Allowed M) p.1) → (∀ p ∈ t, ∀ g ∈ p.1, w.gen g ≠ 0 → g.mode ∈ l) →
        kap k ((l.map fun k => w.mode k • counterVal (repU (S := S)) k).sum * evalTerms repU t
          - evalTerms repU t * (l.map fun k => w.mode k • counterVal (repU (S := S)) k).sum) = w.mon k * kap k (evalTerms repU t) := by
      intro t
      induction t with
      | nil => intro _ _; simp [evalTerms]
      | cons p t ih =>
        intro h1 h2
        have ih := ih (fun p hp => h1 p (by simp [hp])) (fun p hp => h2 p (by simp [hp]))
        have hp := h1 p (by simp)
        have hm := comm_mon (ρ := repU (S := S)) (w := w) (m := p.1)
          fun g hg => op_comm_gen T w l hl hlM g (hp.mem g hg) (h2 p (by simp) g hg)
        rw [Expr.evalTerms_cons, mul_add, add_mul, add_sub_add_comm, map_add, ih, mul_smul_comm, smul_mul_assoc, ← smul_sub, hm, map_add,
          kap_smul, kap_smul, kap_smul, kap_mon hk.mem hk.chain hp.mem hp.chain]
        split
        · rename_i h; rw [h]; ring
        · ring
    exact main e.terms hE hc
  · have : ∀ e : Expr (Gen ι) S, e.AllCanon (Allowed M) → e.coeff k = 0 := by
      intro e hc
      simp only [Expr.coeff, Terms.coeff]
      cases hf : e.terms.find? k with
      | none => rfl
      | some v => exact absurd (hc _ (Terms.find?_mem hf)) hk
    rw [this _ (r.canonA hM), this _ hE, mul_zero]
end LC
