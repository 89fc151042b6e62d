import Verif.Proof.NumberOps
/-
C112: commutators with operators of additive quantum numbers.
-/
set_option linter.unusedSectionVars false
namespace LC
open Expr
variable {ι S : Type _} [LinearOrder ι] [CommRing S] [DecidableEq S] [ConstScalar S] [ScalarLaws S] [IsDomain S] [CharZero S] [Star S]
  {M : Nat → ι → Prop}

section
variable (hM : HalfAlone M) (w : Charge ι S) (l : List (Mode ι)) (hl : l.Nodup) (hlM : ∀ n i, Mode.spin n i ∈ l → M n i)
  (e : Expr (Gen ι) S) (he : Reachable (Allowed M) e) (hc : ∀ p ∈ e.terms, ∀ g ∈ p.1, w.gen g ≠ 0 → g.mode ∈ l)
include hM hl hlM he hc

/-- **C112** The commutator with `Q = Σ w_i n_i` multiplies the coefficient of every monomial with the amount by which the monomial
changes the quantum number. The sum has to include the modes that `e` changes and that have a weight. -/
theorem C112_commutator (k : List (Gen ι)) : (w.op l * e - e * w.op l).coeff k = w.mon k * e.coeff k :=
  commutator_coeff hM w l hl (fun k hk => by cases k <;> first | trivial | exact hlM _ _ hk) e he hc k

/-- **C112** `[Q, e] = d e` holds exactly if all terms of `e` change the quantum number by `d`. -/
theorem C112_eigenoperator (d : S) : (w.op l * e - e * w.op l).eqOp (d • e) = true ↔ w.Homogeneous d e := by
  have h := C112_commutator hM w l hl hlM e he hc
  have q1 := (ev_op (S := S) hM w l fun k hk => by cases k <;> first | trivial | exact hlM _ _ hk).1
  have r := ((q1.mul he).sub (he.mul q1)).wfA
  have r' : (d • e).WF := (Reachable.smulPrefix d he).wfA
  have cs : ∀ k, (d • e).coeff k = d * e.coeff k := coeff_smulPrefix d e
  rw [eqOp_iff]
  constructor
  · intro heq p hp
    have h1 := h p.1
    rw [heq, cs] at h1
    have h2 : e.coeff p.1 = p.2 := by
      rw [coeff, Terms.coeff, Terms.find?_of_mem he.wfA.1 hp]; rfl
    rw [h2] at h1
    exact (mul_right_cancel₀ (he.wfA.2 p hp) h1).symm
  · intro hh
    refine ext_coeff r r' fun k => ?_
    rw [h, cs]
    by_cases h0 : e.coeff k = 0
    · rw [h0, mul_zero, mul_zero]
    · rw [coeff, Terms.coeff] at h0
      cases hf : e.terms.find? k with
      | none => rw [hf] at h0; exact absurd rfl h0
      | some v => rw [hh _ (Terms.find?_mem hf)]

/-- **C112** An expression commutes with `Q` exactly if none of its terms changes the quantum number. -/
theorem C112_conserved : (w.op l * e).eqOp (e * w.op l) = true ↔ w.Homogeneous 0 e := by
  rw [← C112_eigenoperator hM w l hl hlM e he hc 0, eqOp_iff, eqOp_iff]
  have q1 := (ev_op (S := S) hM w l fun k hk => by cases k <;> first | trivial | exact hlM _ _ hk).1
  have z : (0 : S) • e = 0 := by
    refine ext_coeff (Reachable.smulPrefix 0 he).wfA wf_zero fun k => ?_
    rw [show ((0 : S) • e).coeff k = 0 * e.coeff k from coeff_smulPrefix 0 e k, zero_mul]; rfl
  rw [z]
  have w1 := (q1.mul he).wfA
  have w2 := (he.mul q1).wfA
  constructor
  · intro h
    refine ext_coeff ((q1.mul he).sub (he.mul q1)).wfA wf_zero fun k => ?_
    rw [coeff_sub w1 w2, h, sub_self]; rfl
  · intro h
    refine ext_coeff w1 w2 fun k => ?_
    have := congrArg (fun e => e.coeff k) h
    simp only [coeff_sub w1 w2] at this
    exact sub_eq_zero.1 (this.trans rfl)

end
/-- A fermion absorbed by a spin 1, plus a constant number of bosons: the number of fermions plus the spin projection is conserved,
the number of bosons too, the number of fermions is not. -/
def c112Example : Expr (Gen Nat) ℚ := Factory.cDag 0 * Factory.spin 3 .minus 1 + Factory.aDag 0 * Factory.a 1

def c112Charge : Charge Nat ℚ := ⟨fun _ => 1, fun _ => 1, fun _ _ => 1⟩
def c112Modes : List (Mode Nat) := [.fermion 0, .boson 0, .boson 1, .spin 3 1]

theorem c112_hypotheses : HalfAlone (fun (n : Nat) (_ : Nat) => n = 3) ∧ c112Modes.Nodup ∧
    (∀ n i, Mode.spin n i ∈ c112Modes → n = 3) ∧ Reachable (Allowed fun n _ => n = 3) c112Example ∧
    (∀ p ∈ c112Example.terms, ∀ g ∈ p.1, c112Charge.gen g ≠ 0 → g.mode ∈ c112Modes) ∧ c112Charge.Homogeneous 0 c112Example ∧
    c112Example.terms.length = 2 ∧ ¬ (⟨fun _ => 1, fun _ => 1, fun _ _ => 0⟩ : Charge Nat ℚ).Homogeneous 0 c112Example := by
  refine ⟨?_, by decide, by simp [c112Modes], ?_, ?_, ?_, by decide +kernel, ?_⟩
  · intro n i h; omega
  · exact .add (.mul (.ofMonomial _ _ (by simp [Allowed])) (.ofMonomial _ _ (by simp [Allowed])))
      (.mul (.ofMonomial _ _ (by simp [Allowed])) (.ofMonomial _ _ (by simp [Allowed])))
  · decide +kernel
  · unfold Charge.Homogeneous; decide +kernel
  · unfold Charge.Homogeneous; decide +kernel

end LC
