import Verif.Proof.Hom
import Verif.Proof.Faithful
/-
Hermitian conjugation.
-/
set_option linter.unusedSectionVars false
set_option linter.unusedSimpArgs false
set_option linter.unusedTactic false
namespace LC
open MulOpposite

/-- The opposite algebra with complex-conjugated scalars. -/
def Tw (A : Type _) := Aᵐᵒᵖ

instance {A : Type _} [Ring A] : Ring (Tw A) := inferInstanceAs (Ring Aᵐᵒᵖ)

section
variable {S A : Type _} [CommRing S] [StarRing S] [Ring A] [Algebra S A]

/-- The element `x` seen in the opposite algebra. -/
def tw (x : A) : Tw A := op x
theorem tw_inj {x y : A} (h : tw x = tw y) : x = y := op_injective h
theorem tw_add (x y : A) : tw (x + y) = tw x + tw y := rfl
theorem tw_sub (x y : A) : tw (x - y) = tw x - tw y := rfl
theorem tw_neg (x : A) : tw (-x) = - tw x := rfl
theorem tw_mul (x y : A) : tw (x * y) = tw y * tw x := rfl
theorem tw_one : tw (1 : A) = 1 := rfl
theorem tw_zero : tw (0 : A) = 0 := rfl
theorem tw_pow (x : A) (n : Nat) : tw (x ^ n) = tw x ^ n := by
  induction n with
  | zero => simp [tw_one]
  | succ n ih => rw [pow_succ, tw_mul, ih, pow_succ']
theorem tw_ite (p : Prop) [Decidable p] : tw (if p then (1 : A) else 0) = if p then 1 else 0 := by
  split <;> rfl

instance : Algebra S (Tw A) :=
  RingHom.toAlgebra' { toFun := fun c => tw (algebraMap S A (star c))
                       map_one' := by simp [tw_one]
                       map_mul' := fun c d => by rw [star_mul, map_mul, tw_mul]
                       map_zero' := by simp [tw_zero]
                       map_add' := fun c d => by rw [star_add, map_add, tw_add] } fun c x => by
    show tw _ * tw (unop x) = tw (unop x) * tw _
    rw [← tw_mul, ← tw_mul, Algebra.commutes]

theorem tw_smul (c : S) (x : A) : c • tw x = tw (star c • x) := by
  rw [Algebra.smul_def, Algebra.smul_def]
  show tw (algebraMap S A (star c)) * tw x = _
  rw [← tw_mul, Algebra.commutes]
end

/-- Exchange of creation and annihilation operators. -/
def Gen.dag {ι : Type _} : Gen ι → Gen ι
  | .fermion d i => .fermion (!d) i
  | .boson d i => .boson (!d) i
  | .spin n c i => .spin n (match c with | .z => .z | .plus => .minus | .minus => .plus) i

theorem Gen.dag_dag {ι : Type _} (g : Gen ι) : g.dag.dag = g := by
  cases g with
  | fermion d i => simp [dag]
  | boson d i => simp [dag]
  | spin n c i => cases c <;> rfl

variable {ι S A : Type _} [LinearOrder ι] [CommRing S] [DecidableEq S] [ConstScalar S] [ScalarLaws S] [StarRing S]
  [Ring A] [Algebra S A]

theorem evalLin_conj (ρ : Gen ι → A) (g : Gen ι) : evalLin S ρ (GenOps.conj g) = ρ g.dag := by
  cases g with
  | fermion d i => simp [evalLin, GenOps.conj, Gen.conj, ConstScalar.mk_integer, Gen.dag]
  | boson d i => simp [evalLin, GenOps.conj, Gen.conj, ConstScalar.mk_integer, Gen.dag]
  | spin n c i => cases c <;> simp [evalLin, GenOps.conj, Gen.conj, ConstScalar.mk_integer, Gen.dag]

/-- The conjugate generators in the opposite algebra. -/
def twRep (ρ : Gen ι → A) (g : Gen ι) : Tw A := tw (ρ g.dag)

theorem tw_core {M : Nat → ι → Prop} {ρ : Gen ι → A} (h : TextbookCore S M ρ) :
    TextbookCore S M (twRep ρ) where
  car d i e j := by
    have := h.car (!e) j (!d) i
    simp only [twRep, Gen.dag, ← tw_mul, ← tw_add, this, tw_ite]
    have e' : (j = i ∧ (!e) ≠ (!d)) ↔ (i = j ∧ d ≠ e) := by
      constructor <;> (rintro ⟨rfl, h⟩; refine ⟨rfl, ?_⟩; cases d <;> cases e <;> simp_all)
    simp only [e']
  ccr i j := by
    have := h.ccr j i
    simp only [twRep, Gen.dag, Bool.not_true, Bool.not_false, ← tw_mul, ← tw_sub, this, tw_ite]
    simp only [eq_comm]
  ccr_same d i j := by
    simp only [twRep, Gen.dag, ← tw_mul, h.ccr_same (!d) j i]
  spin_pm n i hM := by
    simp only [twRep, Gen.dag, ← tw_mul, ← tw_sub, h.spin_pm n i hM]
    rw [two_mul, two_mul, tw_add]
  spin_zp n i hM := by
    simp only [twRep, Gen.dag, ← tw_mul, ← tw_sub]
    rw [← neg_sub, h.spin_zm n i hM, neg_neg]
  spin_zm n i hM := by
    simp only [twRep, Gen.dag, ← tw_mul, ← tw_sub]
    rw [← neg_sub, h.spin_zp n i hM, tw_neg]
  spin_comm n c i m e j hi hj hh := by
    simp only [twRep, Gen.dag, ← tw_mul, h.spin_comm m _ j n _ i hj hi (by tauto)]
  half_nil i c hM hc := by
    simp only [twRep, Gen.dag, ← tw_mul]
    rw [h.half_nil i _ hM, tw_zero]
    cases c
    · simp
    · simp
    · exact absurd rfl hc
  half_zz i hM := by
    have := h.half_zz i hM
    simp only [twRep, Gen.dag, ← tw_mul]
    rw [← tw_one, ← this]
    have e4 : (4 : A) = 1 + 1 + 1 + 1 := by norm_num
    have e4' : (4 : Tw A) = 1 + 1 + 1 + 1 := by norm_num
    rw [e4, e4']
    simp only [add_mul, one_mul, tw_add]
  half_pm i hM := by
    simp only [twRep, Gen.dag, ← tw_mul, ← tw_add, h.half_pm i hM, tw_one]
  half_z i c hM hc := by
    simp only [twRep, Gen.dag, ← tw_mul, ← tw_add]
    rw [add_comm, h.half_z i _ hM, tw_zero]
    cases c
    · simp
    · simp
    · exact absurd rfl hc
  comm_fb d i e j := by simp only [twRep, Gen.dag, ← tw_mul, h.comm_fb]
  comm_fs d i n c j hM := by simp only [twRep, Gen.dag, ← tw_mul, h.comm_fs _ _ _ _ _ hM]
  comm_bs d i n c j hM := by simp only [twRep, Gen.dag, ← tw_mul, h.comm_bs _ _ _ _ _ hM]

theorem tw_textbook {M : Nat → ι → Prop} {ρ : Gen ι → A} (h : TextbookRel S M ρ) :
    TextbookRel S M (twRep ρ) := (tw_core h.core).rel fun n c i hM hc => by
    simp only [twRep, Gen.dag, ← tw_pow]
    rw [h.spin_nil n _ i hM, tw_zero]
    cases c
    · simp
    · simp
    · exact absurd rfl hc

theorem conjOK (M : Nat → ι → Prop) : ConjOK (Allowed M) where
  good g := by
    cases g <;> simp [GenOps.conj, Gen.conj, LinFun.Good, VarNumber.isZero, VarNumber.Good]
  mem g hg p hp := by
    cases g <;> simp [GenOps.conj, Gen.conj] at hp <;> subst hp
    · trivial
    · trivial
    · exact hg

variable {M : Nat → ι → Prop}

theorem evalMon_tw (ρ : Gen ι → A) (m : List (Gen ι)) :
    evalMon (twRep ρ) m = tw (m.reverse.map fun g => ρ g.dag).prod := by
  induction m with
  | nil => rfl
  | cons g m ih =>
    have : evalMon (twRep ρ) (g :: m) = tw (ρ g.dag) * evalMon (twRep ρ) m := by
      simp [evalMon, twRep]
    rw [this, ih, ← tw_mul]
    simp

/-- `conj` is evaluation in the opposite algebra. -/
theorem eval_conj_tw (hM : HalfAlone M) {ρ : Gen ι → A} (h : TextbookRel S M ρ) {a : Expr (Gen ι) S}
    (ha : a.InP (Allowed M)) (h0 : ∀ p ∈ a.terms, p.2 ≠ 0) :
    tw (evalExpr ρ a.conj) = evalExpr (twRep ρ) a := by
  rw [Expr.eval_conj (represents_of_textbook hM h) (nfGen M hM) (conjOK M) ha h0]
  simp only [evalLin_conj, evalExpr, evalTerms]
  have : ∀ t : List (List (Gen ι) × S),
      tw (t.map fun p => star p.2 • (p.1.reverse.map fun g => ρ g.dag).prod).sum
        = (t.map fun p => p.2 • evalMon (twRep ρ) p.1).sum := by
    intro t
    induction t with
    | nil => rfl
    | cons p t ih =>
      simp only [List.map_cons, List.sum_cons]
      rw [← ih, evalMon_tw, tw_smul, tw_add]
  exact this _

section
variable [IsDomain S] [CharZero S]

theorem eval_conj_conj (hM : HalfAlone M) {ρ : Gen ι → A} (h : TextbookRel S M ρ) {a : Expr (Gen ι) S}
    (hw : a.WF) (ha : a.AllCanon (Allowed M)) :
    evalExpr ρ a.conj.conj = evalExpr ρ a := by
  apply tw_inj
  have hwc : a.conj.WF := Expr.wf_conj (conjOK M).good a
  rw [eval_conj_tw hM h (Expr.ac_conj (nfGen M hM) (conjOK M) ha).inP hwc.2]
  rw [Expr.eval_conj (represents_of_textbook hM (tw_textbook (S := S) h)) (nfGen M hM) (conjOK M) ha.inP hw.2]
  simp only [evalLin_conj, evalExpr, evalTerms]
  have key : ∀ m : List (Gen ι), (m.reverse.map fun g => twRep ρ g.dag).prod = tw (evalMon ρ m) := by
    intro m
    induction m with
    | nil => rfl
    | cons g m ih =>
      rw [List.reverse_cons, List.map_append, List.prod_append, ih]
      have h1 : (List.map (fun g => twRep ρ g.dag) [g]).prod = tw (ρ g) := by
        simp [twRep, Gen.dag_dag]
      rw [h1, ← tw_mul]
      simp [evalMon]
  have : ∀ t : List (List (Gen ι) × S),
      (t.map fun p => star p.2 • (p.1.reverse.map fun g => twRep ρ g.dag).prod).sum
        = tw (t.map fun p => p.2 • evalMon ρ p.1).sum := by
    intro t
    induction t with
    | nil => rfl
    | cons p t ih =>
      simp only [List.map_cons, List.sum_cons]
      rw [ih, key, tw_smul, star_star, tw_add]
  exact this _

end
end LC
