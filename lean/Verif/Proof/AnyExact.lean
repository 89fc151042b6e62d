import Verif.Spec.Tolerance
import Verif.Proof.AnyNormalize
/-
For scalar types with exact arithmetic and an exact zero test the model of `Model/AnyScalar.lean` is the one of
`Model/Expression.lean`.
-/
set_option linter.unusedSectionVars false
set_option linter.unusedSimpArgs false
namespace LC.Any
variable {G S T : Type _} [GenOps G] [CommRing S] [DecidableEq S] [ConstScalar S] [Star S] [ScalarOps S]

variable (h : ExactScalar S)
include h

theorem x_isZero (x : S) : ScalarOps.isZero x = decide (x = 0) := by
  rw [Bool.eq_iff_iff]; simp [h.isZero]

theorem x_zero : (zero : S) = 0 := by
  rw [zero, h.makeConst, ConstScalar.mk_integer]; simp

theorem processF_exact (N : List G → S → T → T) (pre post : List G) (f : LinFun G) (c : S) (t : T) :
    processF N pre post f c t = LC.processF N pre post f c t := by
  simp only [processF, LC.processF, h.mul, h.makeConst]

theorem pass_exact (N : List G → S → T → T) (cnt : Nat) (pre : List G) (x : G) (rest : List G) (c : S) (sw : Bool) (t : T) :
    pass N cnt pre x rest c sw t = LC.pass N cnt pre x rest c sw t := by
  induction cnt generalizing pre x rest c sw t with
  | zero => rfl
  | succ cnt ih =>
    cases rest with
    | nil => rfl
    | cons y rest =>
      simp only [pass, LC.pass, processF_exact h, h.mul, h.makeConst, ih]
      rfl

theorem sortLoop_exact (N : List G → S → T → T) (nmax : Nat) (m : List G) (c : S) (t : T) :
    sortLoop N nmax m c t = LC.sortLoop N nmax m c t := by
  induction nmax generalizing m c t with
  | zero =>
    cases m with
    | nil => rfl
    | cons x rest =>
      simp only [sortLoop, LC.sortLoop, pass_exact h]
      rfl
  | succ nmax ih =>
    cases m with
    | nil => rfl
    | cons x rest =>
      simp only [sortLoop, LC.sortLoop, pass_exact h, ih]
      rfl

theorem normStep_exact (N R : List G → S → T → T) (m : List G) (c : S) (t : T) :
    normStep N R m c t = LC.normStep N R m c t := by
  simp only [normStep, LC.normStep, sortLoop_exact h, x_isZero h, decide_eq_true_eq]
  rfl

theorem reduceLoop_exact (st N R : List G → S → T → T) (pre run : List G) (x : G) (rest : List G) (f : LinFun G) (c : S)
    (t : T) : reduceLoop st N R pre run x rest f c t = LC.reduceLoop st N R pre run x rest f c t := by
  induction rest generalizing pre run x f with
  | nil => rfl
  | cons y rest ih =>
    simp only [reduceLoop, LC.reduceLoop, ih, x_isZero h, decide_eq_true_eq, h.mul, h.makeConst]

theorem reduceStep_exact (st N R : List G → S → T → T) (m : List G) (c : S) (t : T) :
    reduceStep st N R m c t = LC.reduceStep st N R m c t := by
  cases m with
  | nil => rfl
  | cons x rest => simp only [reduceStep, LC.reduceStep, reduceLoop_exact h]

theorem both_exact (st : List G → S → T → T) (n : Nat) : both st n = LC.both st n := by
  induction n with
  | zero => rfl
  | succ n ih =>
    simp only [both, LC.both, ih]
    refine Prod.ext ?_ ?_
    · funext m c t
      simp only
      rw [show reduceStep st (LC.both st n).1 (LC.both st n).2 = LC.reduceStep st (LC.both st n).1 (LC.both st n).2 from
        funext fun m => funext fun c => funext fun t => reduceStep_exact h _ _ _ m c t]
      exact normStep_exact h _ _ m c t
    · funext m c t; exact reduceStep_exact h _ _ _ m c t

theorem normalize_exact (st : List G → S → T → T) (m : List G) (c : S) (t : T) :
    normalize st m c t = LC.normalize st m c t := by simp only [normalize, LC.normalize, both_exact h]

theorem store_exact (k : List G) (c : S) (t : Terms G S) : store k c t = Terms.store k c t := by
  simp only [store, Terms.store, h.add, x_isZero h, decide_eq_true_eq]
  rfl

theorem store_exact' : (store : List G → S → Terms G S → Terms G S) = Terms.store := by
  funext k c t; exact store_exact h k c t

theorem const_exact (x : S) : (const x : Expr G S) = Expr.const x := by
  simp only [const, Expr.const, x_isZero h, decide_eq_true_eq]

theorem ofMonomial_exact (x : S) (m : List G) : ofMonomial x m = Expr.ofMonomial x m := by
  simp only [ofMonomial, Expr.ofMonomial, x_isZero h, decide_eq_true_eq, normalize_exact h, store_exact' h]

theorem addAssign_exact (a b : Expr G S) : addAssign a b = Expr.addAssign a b := by
  simp only [addAssign, Expr.addAssign, h.add, x_isZero h, decide_eq_true_eq]
  rfl

theorem subAssign_exact (a b : Expr G S) : subAssign a b = Expr.subAssign a b := by
  simp only [subAssign, Expr.subAssign, h.sub, x_isZero h, decide_eq_true_eq, x_zero h]
  rfl

theorem mulAssign_exact (a b : Expr G S) : mulAssign a b = Expr.mulAssign a b := by
  simp only [mulAssign, Expr.mulAssign, h.mul, normalize_exact h, store_exact' h]

theorem neg_exact (a : Expr G S) : neg a = -a := by
  show _ = (⟨a.terms.map fun p => (p.1, -p.2)⟩ : Expr G S)
  simp only [neg, h.neg]

theorem smulPrefix_exact (x : S) (a : Expr G S) : smulPrefix x a = Expr.smulPrefix x a := by
  simp only [smulPrefix, Expr.smulPrefix, h.mul, x_isZero h, decide_eq_true_eq]

theorem smulPostfix_exact (x : S) (a : Expr G S) : smulPostfix a x = Expr.smulPostfix a x := by
  simp only [smulPostfix, Expr.smulPostfix, h.mul, x_isZero h, decide_eq_true_eq]

theorem addScalar_exact (x : S) (a : Expr G S) : addScalar a x = Expr.addScalar a x := by
  simp only [addScalar, Expr.addScalar, h.add, x_isZero h, decide_eq_true_eq]
  rfl

theorem addAssignScalar_exact (x : S) (a : Expr G S) : addAssignScalar a x = Expr.addAssignScalar a x := by
  simp only [addAssignScalar, Expr.addAssignScalar, h.add, x_isZero h, decide_eq_true_eq, x_zero h]
  rfl

theorem subScalar_exact (x : S) (a : Expr G S) : subScalar a x = Expr.subScalar a x := by
  simp only [subScalar, Expr.subScalar, h.sub, x_isZero h, decide_eq_true_eq, x_zero h]
  rfl

theorem scalarSub_exact (x : S) (a : Expr G S) : scalarSub x a = Expr.scalarSub x a := by
  simp only [scalarSub, Expr.scalarSub, h.add, h.sub, x_isZero h, decide_eq_true_eq, x_zero h]
  rfl

theorem transform_exact (a : Expr G S) (f : List G → S → S) : transform a f = Expr.transform a f := by
  simp only [transform, Expr.transform, x_isZero h, decide_eq_true_eq]

theorem ofLinFun_exact (f : LinFun G) : (ofLinFun f : Expr G S) = Expr.ofLinFun f := by
  simp only [ofLinFun, Expr.ofLinFun, h.makeConst, x_isZero h, decide_eq_true_eq, addAssign_exact h, ofMonomial_exact h]

theorem conj_exact (a : Expr G S) : conj a = Expr.conj a := by
  simp only [conj, Expr.conj, h.conj, x_isZero h, decide_eq_true_eq, addAssign_exact h, mulAssign_exact h, ofLinFun_exact h,
    const_exact h]

theorem eqOp_exact (a b : Expr G S) : eqOp a b = Expr.eqOp a b := by
  have : ∀ x y : S, ScalarOps.eq x y = decide (x = y) := fun x y => by rw [Bool.eq_iff_iff]; simp [h.eq]
  simp only [eqOp, Expr.eqOp, this]

end LC.Any
