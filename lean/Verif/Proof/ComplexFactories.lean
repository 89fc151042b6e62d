import Verif.Spec.ComplexFactories
import Verif.Model.Factories
import Verif.Proof.ThrowSafe
import Verif.Proof.AnyCoeff
import Verif.Proof.Laws
/-
Real and complex coefficients with exact arithmetic; `make_complex` as a change of coefficients.
-/
set_option linter.unusedSectionVars false
set_option linter.unusedSimpArgs false
set_option linter.unusedVariables false
namespace LC
open Thr

instance : ScalarLaws ℝ where
  mk_isZero v h := by
    cases v with
    | integer i => simp [VarNumber.isZero] at h; subst h; exact Int.cast_zero
    | rational a b =>
      simp [VarNumber.isZero] at h; subst h
      show ((0 : Int) : ℝ) / (b : ℝ) = 0
      simp
    | real x =>
      simp [VarNumber.isZero] at h; subst h
      show (((0 : ℚ).num : Int) : ℝ) / _ = 0
      simp

theorem exactReal : ExactScalar ℝ :=
  { add := fun _ _ => rfl, sub := fun _ _ => rfl, mul := fun _ _ => rfl, neg := fun _ => rfl,
    makeConst := fun _ => rfl, isZero := fun x => by simp [ScalarOps.isZero],
    conj := fun _ => rfl, eq := fun x y => by simp [ScalarOps.eq] }

theorem exactComplex : ExactScalar ℂ :=
  { add := fun _ _ => rfl, sub := fun _ _ => rfl, mul := fun _ _ => rfl, neg := fun _ => rfl,
    makeConst := fun _ => rfl, isZero := fun x => by simp [ScalarOps.isZero],
    conj := fun _ => rfl, eq := fun x y => by simp [ScalarOps.eq] }

theorem embedReal : ScalarEmbedding (id : ℝ → ℝ) where
  isZero x := rfl
  add x y := rfl
  sub x y := rfl
  mul x y := rfl
  neg x := rfl
  conj x := rfl
  eq x y := rfl
  makeConst v h := rfl
  zero := rfl

theorem embedComplex : ScalarEmbedding (fun x : ℝ => (x : ℂ)) where
  isZero x := by simp [ScalarOps.isZero]
  add x y := Complex.ofReal_add x y
  sub x y := Complex.ofReal_sub x y
  mul x y := Complex.ofReal_mul x y
  neg x := Complex.ofReal_neg x
  conj x := by
    show ((x : ℝ) : ℂ) = star (x : ℂ)
    exact (Complex.conj_ofReal x).symm
  eq x y := by simp [ScalarOps.eq]
  makeConst v h := by
    cases v with
    | integer i => exact Complex.ofReal_intCast i
    | rational a b =>
      show (((a : ℝ) / (b : ℝ) : ℝ) : ℂ) = (a : ℂ) / (b : ℂ)
      push_cast; rfl
    | real q =>
      show ((((q.num : ℝ) / ((q.den : Int) : ℝ)) : ℝ) : ℂ) = (q.num : ℂ) / ((q.den : Int) : ℂ)
      push_cast; rfl
  zero := rfl

namespace ComplexFactory
variable {G : Type _} [GenOps G] [LawfulGen G]

theorem toC_eq {a : Expr G ℝ} (ha : a.WF) : toC a = a.mapCoeffs (fun x : ℝ => (x : ℂ)) := by
  have := Mixed.convert_terms (fun x : ℝ => (x : ℂ)) ha.1
  simp only [toC, makeComplex]
  exact this

theorem mapId (a : Expr G ℝ) : a.mapCoeffs id = a := by
  cases a with
  | mk t => simp [Expr.mapCoeffs]

theorem convertible : ConvertibleGen ℝ (fun _ : G => True) where
  swap_const _ _ _ _ _ := rfl
  swap _ _ _ _ _ := ⟨⟨rfl, fun _ _ => rfl⟩, fun _ _ => trivial⟩
  simp _ _ _ _ _ _ := ⟨⟨rfl, fun _ _ => rfl⟩, fun _ _ => trivial⟩
  red _ _ _ _ _ _ := ⟨⟨rfl, fun _ _ => rfl⟩, fun _ _ => trivial⟩
  conj _ _ := ⟨⟨rfl, fun _ _ => rfl⟩, fun _ _ => trivial⟩

theorem closed {ι : Type _} [LinearOrder ι] : ClosedGen (fun _ : Gen ι => True) :=
  closedGen_true fun g p f _ _ => by cases g <;> rfl

theorem inPTrue (a : Expr G ℝ) : a.InP (fun _ => True) := fun _ _ _ _ => trivial

theorem map_mul (a b : Expr G ℝ) : (a * b).mapCoeffs (fun x : ℝ => (x : ℂ)) =
    a.mapCoeffs (fun x : ℝ => (x : ℂ)) * b.mapCoeffs (fun x : ℝ => (x : ℂ)) := by
  obtain ⟨e, h⟩ := mul_safe (convertible (G := G)) rfl (inPTrue a) (inPTrue b)
  have h1 := mul_sim embedReal a b e h
  rw [mapId, mapId, mapId, Any.mulAssign_exact exactReal] at h1
  have h2 := mul_sim embedComplex a b e h
  rw [Any.mulAssign_exact exactComplex] at h2
  exact (congrArg _ h1).trans h2.symm

theorem map_conj {ι : Type _} [LinearOrder ι] (a : Expr (Gen ι) ℝ) : a.conj.mapCoeffs (fun x : ℝ => (x : ℂ)) =
    (a.mapCoeffs (fun x : ℝ => (x : ℂ))).conj := by
  obtain ⟨e, h⟩ := conj_safe (convertible (G := Gen ι)) rfl exactReal embedReal closed (inPTrue a)
  have h1 := conj_sim embedReal a e h
  rw [mapId, mapId, Any.conj_exact exactReal] at h1
  have h2 := conj_sim embedComplex a e h
  rw [Any.conj_exact exactComplex] at h2
  rw [h1]; exact h2.symm

theorem map_ofMonomial (x : ℝ) (m : List G) : (Expr.ofMonomial x m).mapCoeffs (fun x : ℝ => (x : ℂ)) =
    Expr.ofMonomial (x : ℂ) m := by
  obtain ⟨e, h⟩ := ofMonomial_safe (convertible (G := G)) rfl x (m := m) (fun _ _ => trivial)
  have h1 := ofMonomial_sim embedReal x m e h
  rw [mapId, Any.ofMonomial_exact exactReal] at h1
  have h2 := ofMonomial_sim embedComplex x m e h
  rw [Any.ofMonomial_exact exactComplex] at h2
  exact (congrArg _ h1).trans h2.symm

theorem map_add (a b : Expr G ℝ) : (a + b).mapCoeffs (fun x : ℝ => (x : ℂ)) =
    a.mapCoeffs (fun x : ℝ => (x : ℂ)) + b.mapCoeffs (fun x : ℝ => (x : ℂ)) := by
  have := addAssign_map embedComplex a b
  rw [Any.addAssign_exact exactComplex, Any.addAssign_exact exactReal] at this
  exact this.symm

theorem map_sub (a b : Expr G ℝ) : (a - b).mapCoeffs (fun x : ℝ => (x : ℂ)) =
    a.mapCoeffs (fun x : ℝ => (x : ℂ)) - b.mapCoeffs (fun x : ℝ => (x : ℂ)) := by
  have := subAssign_map embedComplex a b
  rw [Any.subAssign_exact exactComplex, Any.subAssign_exact exactReal] at this
  exact this.symm

theorem map_neg (a : Expr G ℝ) : (-a).mapCoeffs (fun x : ℝ => (x : ℂ)) =
    -a.mapCoeffs (fun x : ℝ => (x : ℂ)) := by
  have := neg_map embedComplex a
  rw [Any.neg_exact exactComplex, Any.neg_exact exactReal] at this
  exact this.symm

theorem map_smul (x : ℝ) (a : Expr G ℝ) : (x • a).mapCoeffs (fun x : ℝ => (x : ℂ)) =
    (x : ℂ) • a.mapCoeffs (fun x : ℝ => (x : ℂ)) := by
  have := smulPrefix_map embedComplex x a
  rw [Any.smulPrefix_exact exactComplex, Any.smulPrefix_exact exactReal] at this
  exact this.symm

theorem map_eqOp (a b : Expr G ℝ) : Expr.eqOp (a.mapCoeffs (fun x : ℝ => (x : ℂ))) (b.mapCoeffs (fun x : ℝ => (x : ℂ))) =
    Expr.eqOp a b := by
  have := eqOp_map embedComplex a b
  rwa [Any.eqOp_exact exactComplex, Any.eqOp_exact exactReal] at this

theorem map_const (x : ℝ) : (Expr.const x : Expr G ℝ).mapCoeffs (fun x : ℝ => (x : ℂ)) = Expr.const (x : ℂ) := by
  have := const_map (G := G) embedComplex x
  rw [Any.const_exact exactComplex, Any.const_exact exactReal] at this
  exact this.symm

variable {ι : Type _} [LinearOrder ι]

theorem spin_exact (m : Nat) (c : SpinComp) (i : ι) : (spinOf m c i : Expr (Gen ι) ℝ) = Factory.spin m c i := by
  have h1 : (ScalarOps.makeConst (.integer 1) : ℝ) = 1 := by
    show ((1 : Int) : ℝ) = 1
    norm_num
  rw [spinOf, Any.ofMonomial_exact exactReal, h1]; rfl

theorem wf_spin {S : Type _} [CommRing S] [IsDomain S] [CharZero S] [DecidableEq S] [ConstScalar S] [ScalarLaws S]
    (m : Nat) (c : SpinComp) (i : ι) : (Factory.spin m c i : Expr (Gen ι) S).WF := Expr.wf_ofMonomial _ _

theorem smulPrefix_cr (z : ℂ) {a : Expr G ℝ} (ha : a.WF) : Mixed.smulPrefix cr z a = z • toC a := by
  rw [Mixed.smulPrefix_eq_convert (S' := ℂ) (S := ℝ) (R := ℂ) cr (fun x : ℝ => (x : ℂ)) id (fun _ _ => rfl) z rfl ha.1,
    Any.smulPrefix_exact exactComplex]
  rfl

theorem sX_eq (m : Nat) (i : ι) : Sx m i =
    ((1 / 2 : ℂ) • (Factory.spin m .plus i + Factory.spin m .minus i) : Expr (Gen ι) ℂ) := by
  have hz : (⟨1 / 2, 0⟩ : ℂ) = 1 / 2 := by apply Complex.ext <;> simp
  rw [Sx, hz, sX, spin_exact, spin_exact, Any.addAssign_exact exactReal]
  have hw : (Factory.spin m .plus i + Factory.spin m .minus i : Expr (Gen ι) ℝ).WF := Expr.wf_add (wf_spin _ _ _) (wf_spin _ _ _)
  refine (smulPrefix_cr _ hw).trans ?_
  rw [toC_eq hw, map_add, Factory.spin, Factory.spin, map_ofMonomial, map_ofMonomial]
  simp [Factory.spin]

theorem sY_eq (m : Nat) (i : ι) : Sy m i =
    ((-(1 / 2) * Complex.I : ℂ) • (Factory.spin m .plus i - Factory.spin m .minus i) : Expr (Gen ι) ℂ) := by
  have hz : (⟨0, -1 / 2⟩ : ℂ) = -(1 / 2) * Complex.I := by apply Complex.ext <;> simp [neg_div]
  rw [Sy, hz, sY, spin_exact, spin_exact, Any.subAssign_exact exactReal]
  have hw : (Factory.spin m .plus i - Factory.spin m .minus i : Expr (Gen ι) ℝ).WF := Expr.wf_sub (wf_spin _ _ _) (wf_spin _ _ _)
  refine (smulPrefix_cr _ hw).trans ?_
  rw [toC_eq hw, map_sub, Factory.spin, Factory.spin, map_ofMonomial, map_ofMonomial]
  simp [Factory.spin]

end ComplexFactory
end LC
