import Verif.Model.LOperator
/-
Model of `monomial_action*.hpp`, `loperator.hpp`, `state_vector.hpp`, `sparse_state_vector.hpp` for scalar types given only by
their operations (floating-point numbers, complex numbers made of them): nothing is assumed about rounding, overflow, NaNs or
the tolerance of `is_zero`. The code is the one modelled in `Model/MonomialAction`, `Model/LOperator`, `Model/StateVector` for
exact scalars.
-/
namespace LC

/-- Operations on amplitudes of type `T`: `make_const(0)`, `is_zero` (scalar_traits.hpp:52-111) and `+=`. -/
class AmpOps (T : Type _) where
  zero : T
  isZero : T → Bool
  add : T → T → T

/-- Operations on coefficients of type `S` and products with amplitudes of type `T`. `D` is `double`. -/
class CoefOps (D : outParam (Type _)) (S : Type _) (T : outParam (Type _)) where
  /-- `scalar_traits<S>::make_const(double)` (scalar_traits.hpp:88, 106). -/
  const : D → S
  /-- `x * y`, `mul_assign` -/
  mul : S → S → S
  /-- Coefficient times amplitude, converted to the type of the amplitudes. -/
  scale : S → T → T
  one : D
  minusOne : D
  /-- `std::sqrt(double(n))` -/
  sqrt : Nat → D
  /-- `std::pow(x, n)`; the first argument is `double(n) - double(s2) / 2`, which is exact. -/
  pow : ℝ → Nat → D

/-! ### Vectors -/

/-- `std::vector<T>`. -/
structure FloVec (T : Type _) where
  data : List T

namespace FloVec
variable {T : Type _} [AmpOps T]

/-- `update_add_element` (state_vector.hpp:51-55). -/
def updateAdd (sv : FloVec T) (n : Nat) (value : T) : Except SVError (FloVec T) :=
  match sv.data[n]? with
  | some a => .ok ⟨sv.data.set n (AmpOps.add a value)⟩
  | none => .error .ub

/-- Loop of `foreach` (state_vector.hpp:71-80) from position `n` on. -/
def foreachFrom : Nat → List T → List (Nat × T)
  | _, [] => []
  | n, a :: l => if AmpOps.isZero a then foreachFrom (n + 1) l else (n, a) :: foreachFrom (n + 1) l

/-- state_vector.hpp:45-48, 51-55, 58-60, 71-80. -/
instance : StateVec (FloVec T) T where
  getElement sv n := match sv.data[n]? with | some a => .ok a | none => .error .ub
  updateAdd := updateAdd
  setZeros sv := ⟨sv.data.map fun _ => AmpOps.zero⟩
  foreach sv := .ok (foreachFrom 0 sv.data)

/-- `zeros_like` (state_vector.hpp:64-67). -/
instance : ZerosLike (FloVec T) := ⟨fun sv => ⟨List.replicate sv.data.length AmpOps.zero⟩⟩

end FloVec

/-- `sparse_state_vector<T>` (sparse_state_vector.hpp:28-31). -/
structure FloSparse (H T : Type _) where
  size : Nat
  data : UMap H Nat T

namespace FloSparse
variable {H T : Type _} [HashImpl H Nat T] [AmpOps T]

/-- `get_element` (sparse_state_vector.hpp:47-55); the assertion is not modelled. -/
def getElement (sv : FloSparse H T) (n : Nat) : T :=
  match sv.data.find? n with
  | none => AmpOps.zero
  | some a => a

/-- `update_add_element` (sparse_state_vector.hpp:58-69). -/
def updateAdd (sv : FloSparse H T) (n : Nat) (value : T) : FloSparse H T :=
  match sv.data.find? n with
  | none => if !AmpOps.isZero value then { sv with data := sv.data.set n value } else sv
  | some a =>
    let data := sv.data.assign n (AmpOps.add a value)
    if AmpOps.isZero (AmpOps.add a value) then { sv with data := data.erase n } else { sv with data := data }

/-- sparse_state_vector.hpp:47-84. -/
instance : StateVec (FloSparse H T) T where
  getElement sv n := .ok (sv.getElement n)
  updateAdd sv n a := .ok (sv.updateAdd n a)
  setZeros sv := { sv with data := ⟨sv.data.h, []⟩ }
  foreach sv := .ok sv.data.items

/-- `zeros_like` (sparse_state_vector.hpp:75-77). -/
instance : ZerosLike (FloSparse H T) := ⟨fun sv => ⟨sv.size, UMap.empty⟩⟩

end FloSparse

namespace Flo
variable {D S T V W : Type _} [CoefOps D S T]

/-- `monomial_action<fermion>::act` (monomial_action_fermion.hpp:82-102). -/
def fermionAct (a : FermionAction) (index : Nat) (coeff : S) : ActRes S :=
  if a.isConst then .nonzero index coeff
  else if index &&& a.annihilationMask ≠ a.annihilationMask then .zero
  else
    let inter := index &&& not64 a.annihilationMask
    if (inter ^^^ a.creationMask) &&& a.creationMask ≠ a.creationMask then .zero
    else
      let index := not64 (not64 inter &&& not64 a.creationMask)
      let minus := parityPopcount ((inter &&& a.annihilationCountMask) ^^^ (index &&& a.creationCountMask))
      .nonzero index (if minus then CoefOps.mul coeff (CoefOps.const (CoefOps.minusOne S)) else coeff)

/-- The vector `sqr_roots_` of a given size (monomial_action_boson.hpp:124-131, monomial_action_spin.hpp:116-123). -/
def roots (S : Type _) [CoefOps D S T] (size : Nat) : List D := (List.range size).map fun n => CoefOps.sqrt S n

/-- `sqr_root(n)` (monomial_action_boson.hpp:66-71, monomial_action_spin.hpp:67-72); `none` is a read beyond the end. -/
def sqrRoot (S : Type _) [CoefOps D S T] (tab : List D) (n : Nat) : Option D :=
  if n < maxNumPrecomputedSqrt then tab[n]? else some (CoefOps.sqrt S n)

/-- `for(…) mul_assign(coeff, make_const(sqr_root(arg)))` (monomial_action_boson.hpp:148-158, monomial_action_spin.hpp:135-138,
143-146). -/
def mulRoots (tab : List D) : List Nat → S → Option S
  | [], c => some c
  | n :: l, c =>
    match sqrRoot S tab n with
    | none => none
    | some r => mulRoots tab l (CoefOps.mul c (CoefOps.const r))

/-- Loop of `monomial_action<boson>::act` (monomial_action_boson.hpp:139-160). -/
def bosonActLoop (tab : List D) : List BosonUpdate → Nat → S → ActRes S
  | [], index, coeff => .nonzero index coeff
  | u :: us, index, coeff =>
    let nPart : Int := ((index >>> u.shift) &&& u.mask : Nat)
    let newNPart := nPart + u.nChange
    if newNPart < 0 ∨ newNPart > u.nMax then .zero
    else
      match mulRoots tab (u.rootArgs nPart) coeff with
      | none => .ub
      | some coeff => bosonActLoop tab us (((index : Int) + u.stateChange) % W64).toNat coeff

/-- `monomial_action<boson>::act` (monomial_action_boson.hpp:134-162). -/
noncomputable def bosonAct (a : BosonAction) (index : Nat) (coeff : S) : ActRes S :=
  if a.vanishing then .zero else bosonActLoop (roots S a.sqrRoots.length) a.updates.reverse index coeff

/-- Loop of `monomial_action<spin>::act` (monomial_action_spin.hpp:129-157). -/
noncomputable def spinActLoop (tab : List D) : List SpinUpdate → Nat → S → ActRes S
  | [], index, coeff => .nonzero index coeff
  | u :: us, index, coeff =>
    let n := (index >>> u.shift) &&& u.mask
    match u.c with
    | .plus =>
      if n + u.power > u.s2 then .zero
      else
        match mulRoots tab ((List.range u.power).map fun d : Nat => mul64 (sub64 u.s2 (n + d)) (n + d + 1)) coeff with
        | none => .ub
        | some coeff => spinActLoop tab us (add64 index ((u.power <<< u.shift) % W64)) coeff
    | .minus =>
      if n < u.power then .zero
      else
        match mulRoots tab ((List.range u.power).map fun d : Nat => mul64 (add64 (sub64 u.s2 (n - d)) 1) (n - d)) coeff with
        | none => .ub
        | some coeff => spinActLoop tab us (sub64 index ((u.power <<< u.shift) % W64)) coeff
    | .z =>
      if u.s2 % 2 = 0 ∧ n = u.s2 / 2 then .zero
      else spinActLoop tab us index
        (CoefOps.mul coeff (CoefOps.const (CoefOps.pow S ((n : ℝ) - (u.s2 : ℝ) / 2) u.power)))

/-- `monomial_action<spin>::act` (monomial_action_spin.hpp:126-159). -/
noncomputable def spinAct (a : SpinAction) (index : Nat) (coeff : S) : ActRes S :=
  spinActLoop (roots S a.sqrRoots.length) a.updates.reverse index coeff

/-- `monomial_action<fermion, boson, spin>::act` (monomial_action.hpp:94-98, 113-117). -/
noncomputable def act (a : MonomialAction) (index : Nat) (coeff : S) : ActRes S :=
  (fermionAct a.fermions index coeff).andThen fun index coeff =>
    (bosonAct a.bosons index coeff).andThen fun index coeff => spinAct a.spins index coeff

variable [StateVec V T] [StateVec W T]

/-- One iteration of the inner loop (loperator.hpp:137-141). -/
noncomputable def applyTerm (inIndex : Nat) (a : T) (ma : MonomialAction) (c : S) (dst : W) : Except SVError W :=
  match act ma inIndex (CoefOps.const (S := S) (CoefOps.one S)) with
  | .ub => .error .ub
  | .zero => .ok dst
  | .nonzero index coeff => StateVec.updateAdd dst index (CoefOps.scale (CoefOps.mul c coeff) a)

/-- The inner loop (loperator.hpp:136-142). -/
noncomputable def applyTerms (inIndex : Nat) (a : T) : List (MonomialAction × S) → W → Except SVError W
  | [], dst => .ok dst
  | (ma, c) :: l, dst =>
    match applyTerm inIndex a ma c dst with
    | .error e => .error e
    | .ok dst => applyTerms inIndex a l dst

/-- The calls of the functor made by `foreach` (loperator.hpp:133-143). -/
noncomputable def applyAll (acts : List (MonomialAction × S)) : List (Nat × T) → W → Except SVError W
  | [], dst => .ok dst
  | (k, a) :: l, dst =>
    match applyTerms k a acts dst with
    | .error e => .error e
    | .ok dst => applyAll acts l dst

/-- `loperator::act_impl` (loperator.hpp:124-144). -/
noncomputable def actImpl (op : LOperator S) (src : V) (dst : W) : Except SVError W :=
  match StateVec.foreach src with
  | .error e => .error e
  | .ok l => applyAll op.actions l dst

/-- `op(sv)` and `op * sv` (loperator.hpp:101-106, 117-121). -/
noncomputable def apply [ZerosLike V] (op : LOperator S) (sv : V) : Except SVError V :=
  actImpl op sv (ZerosLike.zerosLike sv)

/-- `op(src, dst)` (loperator.hpp:109-115) for distinct objects. -/
noncomputable def applyTo (op : LOperator S) (src : V) (dst : W) : Except SVError W :=
  actImpl op src (StateVec.setZeros dst)

end Flo
end LC
