import Verif.Model.LOperator
/-
Model of `parametric_loperator` when the arguments of the coefficient functions are given as rvalues: `std::forward<CoeffArgs>(args)...` is passed
to every coefficient function in turn.
-/
namespace LC
variable {ι S T V W Args : Type _}

/-- A coefficient function as an object of C++: its value for given arguments, and what it leaves in arguments passed as rvalues: the same
arguments if they are taken by reference, moved-from objects if they are taken by value. -/
structure CoeffFn (Args S : Type _) where
  value : Args → S
  left : Args → Args

/-- `parametric_loperator` (loperator.hpp:151-159) with such coefficients. -/
structure MoveLOperator (Args S : Type _) where
  actions : List (MonomialAction × CoeffFn Args S)

/-- The operator with the coefficient functions reduced to their values, as in `Model/LOperator`. -/
def MoveLOperator.pure (op : MoveLOperator Args S) : ParamLOperator Args S := ⟨op.actions.map fun p => (p.1, p.2.value)⟩

/-- Evaluation of the coefficients (loperator.hpp:248-250) with arguments given as rvalues. -/
def evalMoved : List (MonomialAction × CoeffFn Args S) → Args → List S
  | [], _ => []
  | (_, f) :: l, args => f.value args :: evalMoved l (f.left args)

/-- Evaluation of the coefficients (loperator.hpp:248-250) with arguments given as lvalues: `std::forward` yields an lvalue, the functions get
copies or constant references. -/
def evalKept : List (MonomialAction × CoeffFn Args S) → Args → List S
  | [], _ => []
  | (_, f) :: l, args => f.value args :: evalKept l args

section
variable [CommRing S] [Algebra ℝ S] [AddCommMonoid T] [Module S T] [StateVec V T] [StateVec W T]

/-- `parametric_loperator::act_impl` (loperator.hpp:236-266); `moved`: the arguments are rvalues. -/
noncomputable def MoveLOperator.actImpl (op : MoveLOperator Args S) (src : V) (dst : W) (coeffs : List S) (moved : Bool) (args : Args) :
    Except SVError (W × List S) :=
  let coeffs := coeffs ++ if moved then evalMoved op.actions args else evalKept op.actions args
  match StateVec.foreach src with
  | .error e => .error e
  | .ok l =>
    match paramAll (op.actions.map fun p => (p.1, p.2.value)) coeffs l dst with
    | .error e => .error e
    | .ok dst => .ok (dst, coeffs)

/-- `op(src, dst, args...)` (loperator.hpp:191-199). -/
noncomputable def MoveLOperator.applyTo (op : MoveLOperator Args S) (src : V) (dst : W) (moved : Bool) (args : Args) : Except SVError W :=
  match op.actImpl src (StateVec.setZeros dst) [] moved args with
  | .error e => .error e
  | .ok r => .ok r.1

/-- `op(sv, args...)` (loperator.hpp:173-181). -/
noncomputable def MoveLOperator.apply [ZerosLike V] (op : MoveLOperator Args S) (sv : V) (moved : Bool) (args : Args) : Except SVError V :=
  match op.actImpl sv (ZerosLike.zerosLike sv) [] moved args with
  | .error e => .error e
  | .ok r => .ok r.1

/-- `op.act_and_store_coeffs(src, dst, evaluated_coeffs, args...)` (loperator.hpp:207-217). -/
noncomputable def MoveLOperator.actAndStoreCoeffs (op : MoveLOperator Args S) (src : V) (dst : W) (_coeffs : List S) (moved : Bool) (args : Args) :
    Except SVError (W × List S) :=
  op.actImpl src (StateVec.setZeros dst) [] moved args

end

/-- The loop of `at` (loperator.hpp:228-231). -/
def MoveLOperator.atLoop (moved : Bool) : List (MonomialAction × CoeffFn Args S) → Args → LOperator S → LOperator S
  | [], _, lop => lop
  | (ma, f) :: l, args, lop => atLoop moved l (if moved then f.left args else args) (lop.addMonomialAction ma (f.value args))

/-- `op.at(args...)` (loperator.hpp:224-233). -/
def MoveLOperator.at (op : MoveLOperator Args S) (moved : Bool) (args : Args) : LOperator S := atLoop moved op.actions args ⟨[]⟩

end LC
