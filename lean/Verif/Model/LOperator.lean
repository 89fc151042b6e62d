import Mathlib.Algebra.Module.Defs
import Verif.Model.Expression
import Verif.Model.MonomialAction
import Verif.Model.StateVector
/-
Model of `loperator/loperator.hpp`.

`S` is the scalar type of the operator and `T` the type of the amplitudes (the same for source and destination vectors); the
product of a scalar and an amplitude is `•`. Coefficients of parametric operators are pure functions of the arguments.
-/
namespace LC
variable {ι S T V W : Type _} [LinearOrder ι]

/-- `loperator_base<S, fermion, boson, spin>` (loperator.hpp:35-78), and with it `loperator`. -/
structure LOperator (S : Type _) where
  actions : List (MonomialAction × S)

/-- The constructor loop (loperator.hpp:44-55) over the terms of an expression. -/
noncomputable def LOperator.makeLoop (hs : HilbertSpace ι) : List (List (Gen ι) × S) →
    Except (ActError ι) (List (MonomialAction × S))
  | [] => .ok []
  | (m, c) :: l =>
    match MonomialAction.make m hs with
    | .error e => .error e
    | .ok a =>
      match makeLoop hs l with
      | .error e => .error e
      | .ok r => .ok ((a, c) :: r)

/-- The constructor (loperator.hpp:44-55), `make_loperator` and `make_param_loperator` (loperator.hpp:269-283). -/
noncomputable def LOperator.make (e : Expr (Gen ι) S) (hs : HilbertSpace ι) : Except (ActError ι) (LOperator S) :=
  match makeLoop hs e.terms with
  | .error e => .error e
  | .ok l => .ok ⟨l⟩

/-- `add_monomial_action` (loperator.hpp:57-61). -/
def LOperator.addMonomialAction (op : LOperator S) (a : MonomialAction) (c : S) : LOperator S := ⟨op.actions ++ [(a, c)]⟩

section
variable [CommRing S] [Algebra ℝ S] [AddCommMonoid T] [Module S T] [StateVec V T] [StateVec W T]

/-- One iteration of the inner loop (loperator.hpp:137-141, 257-263). -/
noncomputable def applyTerm (inIndex : Nat) (a : T) (ma : MonomialAction) (c : S) (dst : W) : Except SVError W :=
  match ma.act inIndex (1 : S) with
  | .ub => .error .ub
  | .zero => .ok dst
  | .nonzero index coeff => StateVec.updateAdd dst index ((c * coeff) • a)

/-- The inner loop (loperator.hpp:136-142). -/
noncomputable def applyTerms (inIndex : Nat) (a : T) : List (MonomialAction × S) → W → Except SVError W
  | [], dst => .ok dst
  | (ma, c) :: l, dst =>
    match applyTerm inIndex a ma c dst with
    | .error e => .error e
    | .ok dst => applyTerms inIndex a l dst

/-- The calls of the functor made by `foreach` (loperator.hpp:133-143). -/
noncomputable def applyAll (acts : List (MonomialAction × S)) : List (Nat × T) → W → Except SVError W
  | [], dst => .ok dst
  | (k, a) :: l, dst =>
    match applyTerms k a acts dst with
    | .error e => .error e
    | .ok dst => applyAll acts l dst

/-- `loperator::act_impl` (loperator.hpp:124-144). If both the iteration over `src` and an update of `dst` fail, the model
reports the former. -/
noncomputable def LOperator.actImpl (op : LOperator S) (src : V) (dst : W) : Except SVError W :=
  match StateVec.foreach src with
  | .error e => .error e
  | .ok l => applyAll op.actions l dst

/-- `op(sv)` and `op * sv` (loperator.hpp:101-121). -/
noncomputable def LOperator.apply [ZerosLike V] (op : LOperator S) (sv : V) : Except SVError V :=
  op.actImpl sv (ZerosLike.zerosLike sv)

/-- `op(src, dst)` (loperator.hpp:109-115) for distinct objects `src` and `dst`. -/
noncomputable def LOperator.applyTo (op : LOperator S) (src : V) (dst : W) : Except SVError W :=
  op.actImpl src (StateVec.setZeros dst)

/-- `op(v, v)` (loperator.hpp:109-115): source and destination are the same object. The loop over `src` sees the vector
after `set_zeros`. Only meaningful if that loop makes no calls (true for the vectors modelled here). -/
noncomputable def LOperator.applyAliased (op : LOperator S) (v : V) : Except SVError V :=
  op.actImpl (StateVec.setZeros v) (StateVec.setZeros v)

/-! ### Parametric operators -/

variable {Args : Type _}

/-- `parametric_loperator` (loperator.hpp:151-159): the coefficients are functions. -/
structure ParamLOperator (Args S : Type _) where
  actions : List (MonomialAction × (Args → S))

/-- The constructor (loperator.hpp:159, 44-55), `make_param_loperator` (loperator.hpp:277-283). -/
noncomputable def ParamLOperator.make (e : Expr (Gen ι) (Args → S)) (hs : HilbertSpace ι) :
    Except (ActError ι) (ParamLOperator Args S) :=
  match LOperator.make e hs with
  | .error e => .error e
  | .ok op => .ok ⟨op.actions⟩

/-- Inner loop of `parametric_loperator::act_impl` over `n` (loperator.hpp:256-264); reads of `evaluated_coeffs[n]` beyond
the end are undefined behaviour. -/
noncomputable def paramTerms (coeffs : List S) (inIndex : Nat) (a : T) : List (MonomialAction × (Args → S)) → Nat → W →
    Except SVError W
  | [], _, dst => .ok dst
  | (ma, _) :: l, n, dst =>
    match ma.act inIndex (1 : S) with
    | .ub => .error .ub
    | .zero => paramTerms coeffs inIndex a l (n + 1) dst
    | .nonzero index coeff =>
      match coeffs[n]? with
      | none => .error .ub
      | some c =>
        match StateVec.updateAdd dst index ((c * coeff) • a) with
        | .error e => .error e
        | .ok dst => paramTerms coeffs inIndex a l (n + 1) dst

/-- Outer loop of `parametric_loperator::act_impl` (loperator.hpp:253-265). -/
noncomputable def paramAll (acts : List (MonomialAction × (Args → S))) (coeffs : List S) : List (Nat × T) → W →
    Except SVError W
  | [], dst => .ok dst
  | (k, a) :: l, dst =>
    match paramTerms coeffs k a acts 0 dst with
    | .error e => .error e
    | .ok dst => paramAll acts coeffs l dst

/-- `parametric_loperator::act_impl` (loperator.hpp:236-266): the values of the coefficients are appended to
`evaluated_coeffs`. -/
noncomputable def ParamLOperator.actImpl (op : ParamLOperator Args S) (src : V) (dst : W) (coeffs : List S) (args : Args) :
    Except SVError (W × List S) :=
  let coeffs := coeffs ++ op.actions.map fun p => p.2 args
  match StateVec.foreach src with
  | .error e => .error e
  | .ok l =>
    match paramAll op.actions coeffs l dst with
    | .error e => .error e
    | .ok dst => .ok (dst, coeffs)

/-- `op(sv, args...)` (loperator.hpp:173-181). -/
noncomputable def ParamLOperator.apply [ZerosLike V] (op : ParamLOperator Args S) (sv : V) (args : Args) : Except SVError V :=
  match op.actImpl sv (ZerosLike.zerosLike sv) [] args with
  | .error e => .error e
  | .ok r => .ok r.1

/-- `op(src, dst, args...)` (loperator.hpp:191-199). -/
noncomputable def ParamLOperator.applyTo (op : ParamLOperator Args S) (src : V) (dst : W) (args : Args) : Except SVError W :=
  match op.actImpl src (StateVec.setZeros dst) [] args with
  | .error e => .error e
  | .ok r => .ok r.1

/-- `op.act_and_store_coeffs(src, dst, evaluated_coeffs, args...)` (loperator.hpp:207-217). -/
noncomputable def ParamLOperator.actAndStoreCoeffs (op : ParamLOperator Args S) (src : V) (dst : W) (_coeffs : List S)
    (args : Args) : Except SVError (W × List S) :=
  op.actImpl src (StateVec.setZeros dst) [] args

/-- The loop of `at` (loperator.hpp:228-231). -/
def ParamLOperator.atLoop (args : Args) : List (MonomialAction × (Args → S)) → LOperator S → LOperator S
  | [], lop => lop
  | (ma, f) :: l, lop => atLoop args l (lop.addMonomialAction ma (f args))

/-- `op.at(args...)` (loperator.hpp:224-233). -/
def ParamLOperator.at (op : ParamLOperator Args S) (args : Args) : LOperator S := atLoop args op.actions ⟨[]⟩

end
end LC
