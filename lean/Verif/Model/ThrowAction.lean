import Verif.Model.LOperator
import Mathlib.Algebra.Order.Floor.Ring
import Mathlib.Algebra.Order.Archimedean.Basic
import Mathlib.Algebra.Order.Archimedean.Real.Basic
/-
Model of `monomial_action*.hpp` and `loperator.hpp` for scalar types whose `make_const(double)` may throw: integral types, `mpz_class`,
`mpq_class`, `boost::rational`. The code is the one modelled in `Model/MonomialAction`, `Model/LOperator`.
-/
namespace LC

/-- `scalar_traits<S>::make_const(double)`; `none` if it throws. -/
class DoubleConst (S : Type _) where
  makeDouble : ℝ → Option S

open Classical in
/-- Integral types and `mpz_class` (scalar_traits.hpp:56-62, scalars/gmpxx.hpp:84-91): only integers are converted. -/
noncomputable instance : DoubleConst ℤ where
  makeDouble x := if ((⌊x⌋ : ℤ) : ℝ) = x then some ⌊x⌋ else none

open Classical in
/-- `mpq_class` and `boost::rational` (scalars/gmpxx.hpp:114-121, scalars/boost_rational.hpp:34-41): only integers are converted. -/
noncomputable instance : DoubleConst ℚ where
  makeDouble x := if ((⌊x⌋ : ℤ) : ℝ) = x then some (⌊x⌋ : ℤ) else none

/-- How a call of `act` can fail: a read outside a table, or an exception. -/
inductive ActFail where
  | ub
  | thrown
  deriving DecidableEq, Repr

/-- How `op(src, dst)` can fail. -/
inductive OpFail where
  | sv (e : SVError)
  | thrown
  deriving DecidableEq, Repr

namespace Thr
variable {ι S T V W : Type _} [CommRing S] [DoubleConst S]

/-- `mul_assign(coeff, make_const(x))`. -/
def mulConst (c : S) (x : ℝ) : Except ActFail S :=
  match DoubleConst.makeDouble x with
  | none => .error .thrown
  | some y => .ok (c * y)

/-- `monomial_action<fermion>::act` (monomial_action_fermion.hpp:82-102). -/
noncomputable def fermionAct (a : FermionAction) (index : Nat) (coeff : S) : Except ActFail (Option (Nat × S)) :=
  if a.isConst then .ok (some (index, coeff))
  else if index &&& a.annihilationMask ≠ a.annihilationMask then .ok none
  else
    let inter := index &&& not64 a.annihilationMask
    if (inter ^^^ a.creationMask) &&& a.creationMask ≠ a.creationMask then .ok none
    else
      let index := not64 (not64 inter &&& not64 a.creationMask)
      let minus := parityPopcount ((inter &&& a.annihilationCountMask) ^^^ (index &&& a.creationCountMask))
      if minus then
        match mulConst coeff (-1) with
        | .error e => .error e
        | .ok coeff => .ok (some (index, coeff))
      else .ok (some (index, coeff))

/-- `for(…) mul_assign(coeff, make_const(sqr_root(arg)))` (monomial_action_boson.hpp:148-158, monomial_action_spin.hpp:135-138, 143-146). -/
noncomputable def mulRoots (tab : List ℝ) : List Nat → S → Except ActFail S
  | [], c => .ok c
  | n :: l, c =>
    match sqrRoot tab n with
    | none => .error .ub
    | some r =>
      match mulConst c r with
      | .error e => .error e
      | .ok c => mulRoots tab l c

/-- Loop of `monomial_action<boson>::act` (monomial_action_boson.hpp:139-160). -/
noncomputable def bosonActLoop (tab : List ℝ) : List BosonUpdate → Nat → S → Except ActFail (Option (Nat × S))
  | [], index, coeff => .ok (some (index, coeff))
  | u :: us, index, coeff =>
    let nPart : Int := ((index >>> u.shift) &&& u.mask : Nat)
    let newNPart := nPart + u.nChange
    if newNPart < 0 ∨ newNPart > u.nMax then .ok none
    else
      match mulRoots tab (u.rootArgs nPart) coeff with
      | .error e => .error e
      | .ok coeff => bosonActLoop tab us (((index : Int) + u.stateChange) % W64).toNat coeff

/-- `monomial_action<boson>::act` (monomial_action_boson.hpp:134-162). -/
noncomputable def bosonAct (a : BosonAction) (index : Nat) (coeff : S) : Except ActFail (Option (Nat × S)) :=
  if a.vanishing then .ok none else bosonActLoop a.sqrRoots a.updates.reverse index coeff

/-- Loop of `monomial_action<spin>::act` (monomial_action_spin.hpp:129-157). -/
noncomputable def spinActLoop (tab : List ℝ) : List SpinUpdate → Nat → S → Except ActFail (Option (Nat × S))
  | [], index, coeff => .ok (some (index, coeff))
  | u :: us, index, coeff =>
    let n := (index >>> u.shift) &&& u.mask
    match u.c with
    | .plus =>
      if n + u.power > u.s2 then .ok none
      else
        match mulRoots tab ((List.range u.power).map fun d : Nat => mul64 (sub64 u.s2 (n + d)) (n + d + 1)) coeff with
        | .error e => .error e
        | .ok coeff => spinActLoop tab us (add64 index ((u.power <<< u.shift) % W64)) coeff
    | .minus =>
      if n < u.power then .ok none
      else
        match mulRoots tab ((List.range u.power).map fun d : Nat => mul64 (add64 (sub64 u.s2 (n - d)) 1) (n - d)) coeff with
        | .error e => .error e
        | .ok coeff => spinActLoop tab us (sub64 index ((u.power <<< u.shift) % W64)) coeff
    | .z =>
      if u.s2 % 2 = 0 ∧ n = u.s2 / 2 then .ok none
      else
        match mulConst coeff (((n : ℝ) - (u.s2 : ℝ) / 2) ^ u.power) with
        | .error e => .error e
        | .ok coeff => spinActLoop tab us index coeff

/-- `monomial_action<spin>::act` (monomial_action_spin.hpp:126-159). -/
noncomputable def spinAct (a : SpinAction) (index : Nat) (coeff : S) : Except ActFail (Option (Nat × S)) :=
  spinActLoop a.sqrRoots a.updates.reverse index coeff

/-- `&&` of two actions (monomial_action.hpp:94-98). -/
def andThen (r : Except ActFail (Option (Nat × S))) (f : Nat → S → Except ActFail (Option (Nat × S))) : Except ActFail (Option (Nat × S)) :=
  match r with
  | .error e => .error e
  | .ok none => .ok none
  | .ok (some (i, c)) => f i c

/-- `monomial_action<fermion, boson, spin>::act` (monomial_action.hpp:94-98, 113-117). -/
noncomputable def act (a : MonomialAction) (index : Nat) (coeff : S) : Except ActFail (Option (Nat × S)) :=
  andThen (fermionAct a.fermions index coeff) fun index coeff => andThen (bosonAct a.bosons index coeff) fun index coeff => spinAct a.spins index coeff

variable [AddCommMonoid T] [Module S T] [StateVec V T] [StateVec W T]

/-- One iteration of the inner loop (loperator.hpp:137-141). -/
noncomputable def applyTerm (inIndex : Nat) (a : T) (ma : MonomialAction) (c : S) (dst : W) : Except OpFail W :=
  match (DoubleConst.makeDouble 1 : Option S) with
  | none => .error .thrown
  | some one =>
    match act ma inIndex one with
    | .error .ub => .error (.sv .ub)
    | .error .thrown => .error .thrown
    | .ok none => .ok dst
    | .ok (some (index, coeff)) =>
      match StateVec.updateAdd dst index ((c * coeff) • a) with
      | .error e => .error (.sv e)
      | .ok dst => .ok dst

/-- The inner loop (loperator.hpp:136-142). -/
noncomputable def applyTerms (inIndex : Nat) (a : T) : List (MonomialAction × S) → W → Except OpFail W
  | [], dst => .ok dst
  | (ma, c) :: l, dst =>
    match applyTerm inIndex a ma c dst with
    | .error e => .error e
    | .ok dst => applyTerms inIndex a l dst

/-- The calls of the functor made by `foreach` (loperator.hpp:133-143). -/
noncomputable def applyAll (acts : List (MonomialAction × S)) : List (Nat × T) → W → Except OpFail W
  | [], dst => .ok dst
  | (k, a) :: l, dst =>
    match applyTerms k a acts dst with
    | .error e => .error e
    | .ok dst => applyAll acts l dst

/-- `loperator::act_impl` (loperator.hpp:124-144). -/
noncomputable def actImpl (op : LOperator S) (src : V) (dst : W) : Except OpFail W :=
  match StateVec.foreach src with
  | .error e => .error (.sv e)
  | .ok l => applyAll op.actions l dst

/-- `op(sv)` and `op * sv` (loperator.hpp:101-121). -/
noncomputable def apply [ZerosLike V] (op : LOperator S) (sv : V) : Except OpFail V := actImpl op sv (ZerosLike.zerosLike sv)

/-- `op(src, dst)` (loperator.hpp:109-115). -/
noncomputable def applyTo (op : LOperator S) (src : V) (dst : W) : Except OpFail W := actImpl op src (StateVec.setZeros dst)

end Thr
end LC
