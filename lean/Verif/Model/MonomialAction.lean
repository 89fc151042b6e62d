import Mathlib.Analysis.Real.Sqrt
import Verif.Model.HilbertSpace
/-
Model of `loperator/monomial_action.hpp`, `monomial_action_fermion.hpp`, `monomial_action_boson.hpp`,
`monomial_action_spin.hpp`.

`double` is `ℝ`, `scalar_traits<S>::make_const(double)` is `algebraMap ℝ S` (floating point and complex scalar types; integral
and rational types, for which non-integral constants throw, are in `Model/ThrowAction`). Powers of generators (`sv_index_type`, loop
counters `int d`) are unbounded naturals.
-/
namespace LC
variable {ι S : Type _} [LinearOrder ι]

/-- Exceptions thrown by the constructors: `unknown_generator` (monomial_action.hpp:42-51) or an exception of
`hilbert_space`. -/
inductive ActError (ι : Type _) where
  | unknownGenerator (g : Gen ι)
  | hs (e : HSError)
  deriving DecidableEq, Repr

/-- Outcome of `act(index, coeff)`: `ub` is a read outside a table of square roots, `zero` is the return value `false`,
`nonzero` is the return value `true` with the new values of the two reference arguments. -/
inductive ActRes (S : Type _) where
  | ub
  | zero
  | nonzero (index : Nat) (coeff : S)

/-- `&&` of two actions (monomial_action.hpp:94-98): the second one is called only if the first one returns true. -/
def ActRes.andThen (r : ActRes S) (f : Nat → S → ActRes S) : ActRes S :=
  match r with
  | ub => ub
  | zero => zero
  | nonzero i c => f i c

/-- `find_algebra_monomial_subrange` (monomial_action.hpp:67-85): the generators of algebra `a` at the beginning of the range
and the rest. -/
def findSubrange (a : Int) : List (Gen ι) → Except (ActError ι) (List (Gen ι) × List (Gen ι))
  | [] => .ok ([], [])
  | g :: l =>
    if g.algebraId < a then .error (.unknownGenerator g)
    else if g.algebraId = a then
      match findSubrange a l with
      | .error e => .error e
      | .ok (p, q) => .ok (g :: p, q)
    else .ok ([], g :: l)

/-! ### Fermions -/

/-- Data members of `monomial_action<fermion>` (monomial_action_fermion.hpp:36-42). -/
structure FermionAction where
  isConst : Bool
  annihilationMask : Nat
  creationMask : Nat
  annihilationCountMask : Nat
  creationCountMask : Nat
  deriving DecidableEq, Repr

/-- Loop of `compute_count_mask` (monomial_action_fermion.hpp:109-114) over the bits `i, i+1, …` (`cnt` of them). -/
def countMaskLoop (d : List Int) : Nat → Int → Bool → Nat → Nat
  | 0, _, _, mask => mask
  | cnt + 1, i, isOn, mask =>
    if i ∈ d then countMaskLoop d cnt (i + 1) (!isOn) mask
    else countMaskLoop d cnt (i + 1) isOn (if isOn then mask ||| pow2 i.toNat else mask)

/-- `compute_count_mask` (monomial_action_fermion.hpp:105-116). -/
def computeCountMask (d : List Int) (r : BitRange) : Nat :=
  countMaskLoop d (r.second - r.first + 1).toNat r.first (d.length % 2 == 1) 0

/-- `(set_bits, mask)` of the daggered (first) and non-daggered (second) generators, filled by the constructor loop
(monomial_action_fermion.hpp:54-74). -/
structure FermionBits where
  creationSetBits : List Int
  annihilationSetBits : List Int
  creationMask : Nat
  annihilationMask : Nat

/-- Loop of the constructor of `monomial_action<fermion>` (monomial_action_fermion.hpp:57-74). -/
def fermionLoop (hs : HilbertSpace ι) : List (Gen ι) → FermionBits → Except (ActError ι) FermionBits
  | [], b => .ok b
  | .fermion dagger i :: l, b =>
    if !hs.has (ESpace.fermion i) then .error (.unknownGenerator (.fermion dagger i))
    else
      match hs.bitRange (ESpace.fermion i) with
      | .error e => .error (.hs e)
      | .ok br =>
        fermionLoop hs l
          (if dagger then { b with creationSetBits := b.creationSetBits ++ [br.first],
                                    creationMask := b.creationMask ||| pow2 br.first.toNat }
           else { b with annihilationSetBits := b.annihilationSetBits ++ [br.first],
                         annihilationMask := b.annihilationMask ||| pow2 br.first.toNat })
  | g :: _, _ => .error (.unknownGenerator g)

/-- Constructor of `monomial_action<fermion>` (monomial_action_fermion.hpp:45-80). -/
def FermionAction.make (m : List (Gen ι)) (hs : HilbertSpace ι) : Except (ActError ι) FermionAction :=
  if m.isEmpty then .ok ⟨true, 0, 0, 0, 0⟩
  else
    match fermionLoop hs m ⟨[], [], 0, 0⟩ with
    | .error e => .error e
    | .ok b =>
      match hs.algebraBitRange (-3) with
      | .error e => .error (.hs e)
      | .ok range =>
        .ok ⟨false, b.annihilationMask, b.creationMask, computeCountMask b.annihilationSetBits range,
          computeCountMask b.creationSetBits range⟩

/-- `monomial_action<fermion>::act` (monomial_action_fermion.hpp:82-102). -/
def FermionAction.act [Ring S] (a : FermionAction) (index : Nat) (coeff : S) : ActRes S :=
  if a.isConst then .nonzero index coeff
  else if index &&& a.annihilationMask ≠ a.annihilationMask then .zero
  else
    let inter := index &&& not64 a.annihilationMask
    if (inter ^^^ a.creationMask) &&& a.creationMask ≠ a.creationMask then .zero
    else
      let index := not64 (not64 inter &&& not64 a.creationMask)
      let minus := parityPopcount ((inter &&& a.annihilationCountMask) ^^^ (index &&& a.creationCountMask))
      .nonzero index (if minus then coeff * (-1) else coeff)

/-! ### Bosons -/

/-- `LIBCOMMUTE_BOSON_MAX_NUM_PRECOMPUTED_SQRT`, `LIBCOMMUTE_SPIN_MAX_NUM_PRECOMPUTED_SQRT`
(monomial_action_boson.hpp:30-33, monomial_action_spin.hpp:30-33), default values. -/
def maxNumPrecomputedSqrt : Nat := 128

/-- The vector `sqr_roots_` after the constructor (monomial_action_boson.hpp:124-131, monomial_action_spin.hpp:116-123). -/
noncomputable def makeSqrRoots (size : Nat) : List ℝ :=
  (List.range (min size maxNumPrecomputedSqrt)).map fun n : Nat => Real.sqrt (n : ℝ)

/-- `sqr_root(n)` (monomial_action_boson.hpp:66-71, monomial_action_spin.hpp:67-72); `none` is a read beyond the end of
`sqr_roots_`. -/
noncomputable def sqrRoot (tab : List ℝ) (n : Nat) : Option ℝ :=
  if n < maxNumPrecomputedSqrt then tab[n]? else some (Real.sqrt n)

/-- `for(…) mul_assign(coeff, make_const(sqr_root(arg)))` over the given arguments (monomial_action_boson.hpp:148-158,
monomial_action_spin.hpp:135-138, 143-146); `none` if one of the reads is out of bounds. -/
noncomputable def mulRoots [CommRing S] [Algebra ℝ S] (tab : List ℝ) : List Nat → S → Option S
  | [], c => some c
  | n :: l, c =>
    match sqrRoot tab n with
    | none => none
    | some r => mulRoots tab l (c * algebraMap ℝ S r)

/-- `single_boson_update_t` (monomial_action_boson.hpp:40-55). `state_change` is recomputed where it is used. -/
structure BosonUpdate where
  shift : Nat
  mask : Nat
  nChange : Int
  nMax : Nat

/-- `state_change = n_change * (int64_t(1) << shift)` (monomial_action_boson.hpp:110). `|n_change| ≤ n_max` and at most 63
bits are in use, so the product fits into `int64_t`. -/
def BosonUpdate.stateChange (u : BosonUpdate) : Int := u.nChange * 2 ^ u.shift

/-- Data members of `monomial_action<boson>` (monomial_action_boson.hpp:57-64). -/
structure BosonAction where
  updates : List BosonUpdate
  sqrRoots : List ℝ
  vanishing : Bool

/-- Is the generator that follows in the monomial a different one, or is there none
(`next_it == end_it || *next_it != *it`, monomial_action_boson.hpp:88, monomial_action_spin.hpp:89)? -/
def runEnds (g : Gen ι) : List (Gen ι) → Bool
  | [] => true
  | h :: _ => !(Gen.eqOp h g)

/-- Constructor loop of `monomial_action<boson>` (monomial_action_boson.hpp:84-122) with the variables `power`,
`sqr_roots_size` and `updates_`. -/
noncomputable def bosonLoop (hs : HilbertSpace ι) : List (Gen ι) → Nat → Nat → List BosonUpdate →
    Except (ActError ι) BosonAction
  | [], _, size, updates => .ok ⟨updates, if updates.isEmpty then [] else makeSqrRoots size, false⟩
  | .boson dagger i :: l, power, size, updates =>
    if runEnds (.boson dagger i) l then
      if !hs.has (ESpace.boson 1 i) then .error (.unknownGenerator (.boson dagger i))
      else
        match hs.bitRange (ESpace.boson 1 i), hs.dimOf (ESpace.boson 1 i) with
        | .error e, _ => .error (.hs e)
        | _, .error e => .error (.hs e)
        | .ok br, .ok dim =>
          let nMax := sub64 dim 1
          if power > nMax then .ok ⟨updates, [], true⟩
          else
            bosonLoop hs l 1 (max size (add64 nMax 1))
              (updates ++ [⟨br.first.toNat, sub64 (pow2 (br.second - br.first + 1).toNat) 1,
                if dagger then power else -(power : Int), nMax⟩])
    else bosonLoop hs l (power + 1) size updates
  | g :: _, _, _, _ => .error (.unknownGenerator g)

/-- Constructor of `monomial_action<boson>` (monomial_action_boson.hpp:74-132). -/
noncomputable def BosonAction.make (m : List (Gen ι)) (hs : HilbertSpace ι) : Except (ActError ι) BosonAction :=
  bosonLoop hs m 1 0 []

/-- The arguments of `sqr_root` in the two loops over `d` (monomial_action_boson.hpp:148-158). -/
def BosonUpdate.rootArgs (u : BosonUpdate) (n : Int) : List Nat :=
  if u.nChange > 0 then (List.range u.nChange.toNat).map fun d : Nat => (n + ((d : Int) + 1)).toNat
  else (List.range (-u.nChange).toNat).map fun d : Nat => (n - (d : Int)).toNat

/-- Loop of `monomial_action<boson>::act` (monomial_action_boson.hpp:139-160) over the updates, last one first. -/
noncomputable def bosonActLoop [CommRing S] [Algebra ℝ S] (tab : List ℝ) : List BosonUpdate → Nat → S → ActRes S
  | [], index, coeff => .nonzero index coeff
  | u :: us, index, coeff =>
    let nPart : Int := ((index >>> u.shift) &&& u.mask : Nat)
    let newNPart := nPart + u.nChange
    if newNPart < 0 ∨ newNPart > u.nMax then .zero
    else
      match mulRoots tab (u.rootArgs nPart) coeff with
      | none => .ub
      | some coeff => bosonActLoop tab us (((index : Int) + u.stateChange) % W64).toNat coeff

/-- `monomial_action<boson>::act` (monomial_action_boson.hpp:134-162). -/
noncomputable def BosonAction.act [CommRing S] [Algebra ℝ S] (a : BosonAction) (index : Nat) (coeff : S) : ActRes S :=
  if a.vanishing then .zero else bosonActLoop a.sqrRoots a.updates.reverse index coeff

/-! ### Spins -/

/-- `single_spin_update_t` (monomial_action_spin.hpp:45-59). -/
structure SpinUpdate where
  s2 : Nat
  shift : Nat
  mask : Nat
  c : SpinComp
  power : Nat

/-- Data members of `monomial_action<spin>` (monomial_action_spin.hpp:61-65). -/
structure SpinAction where
  updates : List SpinUpdate
  sqrRoots : List ℝ

/-- `ss` (monomial_action_spin.hpp:100-101) with `s = (multiplicity - 1) / 2`: `(s+1/2)^2` for even multiplicities, `s(s+1)` for
odd ones. -/
def spinSS (mult : Nat) : Nat :=
  if mult % 2 = 0 then mult / 2 * (mult / 2) else (mult - 1) / 2 * ((mult - 1) / 2 + 1)

/-- Constructor loop of `monomial_action<spin>` (monomial_action_spin.hpp:85-114). `elementary_space_spin(s, indices)` has
multiplicity `2s+1` (elementary_space_spin.hpp:39-45), `sv_index_type(2 * s) = multiplicity - 1`. -/
noncomputable def spinLoop (hs : HilbertSpace ι) : List (Gen ι) → Nat → Nat → List SpinUpdate →
    Except (ActError ι) SpinAction
  | [], _, size, updates => .ok ⟨updates, if updates.isEmpty then [] else makeSqrRoots size⟩
  | .spin mult c i :: l, power, size, updates =>
    if runEnds (.spin mult c i) l then
      if !hs.has (ESpace.spin mult i) then .error (.unknownGenerator (.spin mult c i))
      else
        match hs.bitRange (ESpace.spin mult i) with
        | .error e => .error (.hs e)
        | .ok br =>
          spinLoop hs l 1 (max size (spinSS mult + 1))
            (updates ++ [⟨mult - 1, br.first.toNat, sub64 (pow2 (br.second - br.first + 1).toNat) 1, c, power⟩])
    else spinLoop hs l (power + 1) size updates
  | g :: _, _, _, _ => .error (.unknownGenerator g)

/-- Constructor of `monomial_action<spin>` (monomial_action_spin.hpp:75-124). -/
noncomputable def SpinAction.make (m : List (Gen ι)) (hs : HilbertSpace ι) : Except (ActError ι) SpinAction :=
  spinLoop hs m 1 0 []

/-- Loop of `monomial_action<spin>::act` (monomial_action_spin.hpp:129-157) over the updates, last one first. -/
noncomputable def spinActLoop [CommRing S] [Algebra ℝ S] (tab : List ℝ) : List SpinUpdate → Nat → S → ActRes S
  | [], index, coeff => .nonzero index coeff
  | u :: us, index, coeff =>
    let n := (index >>> u.shift) &&& u.mask
    match u.c with
    | .plus =>
      if n + u.power > u.s2 then .zero
      else
        match mulRoots tab ((List.range u.power).map fun d : Nat => mul64 (sub64 u.s2 (n + d)) (n + d + 1)) coeff with
        | none => .ub
        | some coeff => spinActLoop tab us (add64 index ((u.power <<< u.shift) % W64)) coeff
    | .minus =>
      if n < u.power then .zero
      else
        match mulRoots tab ((List.range u.power).map fun d : Nat => mul64 (add64 (sub64 u.s2 (n - d)) 1) (n - d)) coeff with
        | none => .ub
        | some coeff => spinActLoop tab us (sub64 index ((u.power <<< u.shift) % W64)) coeff
    | .z =>
      if u.s2 % 2 = 0 ∧ n = u.s2 / 2 then .zero
      else spinActLoop tab us index (coeff * algebraMap ℝ S (((n : ℝ) - (u.s2 : ℝ) / 2) ^ u.power))

/-- `monomial_action<spin>::act` (monomial_action_spin.hpp:126-159). -/
noncomputable def SpinAction.act [CommRing S] [Algebra ℝ S] (a : SpinAction) (index : Nat) (coeff : S) : ActRes S :=
  spinActLoop a.sqrRoots a.updates.reverse index coeff

/-! ### The combined action -/

/-- `monomial_action<fermion, boson, spin>` (monomial_action.hpp:60-135): the base class sub-objects. -/
structure MonomialAction where
  fermions : FermionAction
  bosons : BosonAction
  spins : SpinAction

/-- Constructor of `monomial_action<fermion, boson, spin>` (monomial_action.hpp:88-92, 108-111, 131-134). -/
noncomputable def MonomialAction.make (m : List (Gen ι)) (hs : HilbertSpace ι) : Except (ActError ι) MonomialAction :=
  match findSubrange (-3) m with
  | .error e => .error e
  | .ok (mf, m) =>
    match FermionAction.make mf hs with
    | .error e => .error e
    | .ok f =>
      match findSubrange (-2) m with
      | .error e => .error e
      | .ok (mb, m) =>
        match BosonAction.make mb hs with
        | .error e => .error e
        | .ok b =>
          match SpinAction.make m hs with
          | .error e => .error e
          | .ok s => .ok ⟨f, b, s⟩

/-- `monomial_action<fermion, boson, spin>::act` (monomial_action.hpp:94-98, 113-117). -/
noncomputable def MonomialAction.act [CommRing S] [Algebra ℝ S] (a : MonomialAction) (index : Nat) (coeff : S) : ActRes S :=
  (a.fermions.act index coeff).andThen fun index coeff =>
    (a.bosons.act index coeff).andThen fun index coeff => a.spins.act index coeff

end LC
