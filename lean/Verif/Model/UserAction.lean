import Verif.Model.LOperator
import Verif.Model.UserAlgebra
/-
Model of `monomial_action<AlgebraIDs...>` and `loperator<ScalarType, AlgebraIDs...>` for arbitrary lists of algebra IDs,
including user-defined algebras (monomial_action.hpp:53-154, loperator.hpp, examples/gamma.loperator.cpp).
-/
namespace LC
variable {ι U S T V W : Type _} [LinearOrder ι] [UserGen U]

/-- Exceptions thrown by the constructors: `unknown_generator` (monomial_action.hpp:42-51), an exception of `hilbert_space`, or
one of the user's own. -/
inductive UActError (ι U : Type _) where
  | unknownGenerator (g : AllGen ι U)
  | hs (e : HSError)
  | user

/-- The member function `act(index, coeff)` of an object of type `monomial_action<…>`. -/
abbrev Act (S : Type _) := Nat → S → ActRes S

/-- A specialisation `monomial_action<id>` (monomial_action.hpp:53, monomial_action_*.hpp, or the user's): its constructor, which
returns an object with the member function `act`. -/
structure ActionClass (ι U S : Type _) where
  id : Int
  make : List (AllGen ι U) → HilbertSpace ι → Except (UActError ι U) (Act S)

/-- The predefined generators before the first user-defined one, and that one. -/
def splitPre : List (AllGen ι U) → List (Gen ι) × Option (AllGen ι U)
  | [] => ([], none)
  | .pre g :: m => let r := splitPre m; (g :: r.1, r.2)
  | .user u :: _ => ([], some (.user u))

/-- The constructors of the three predefined classes, which throw `unknown_generator` when they meet a generator of another
algebra (monomial_action_fermion.hpp:58, monomial_action_boson.hpp:86, monomial_action_spin.hpp:87). `make` also returns whether the
constructor has returned before reaching the end of the range (monomial_action_boson.hpp:100-104). Simplification: if the range contains
a user-defined generator and another reason for an exception, the model does not say which one is reported. -/
def predefinedClass (id : Int) (make : List (Gen ι) → HilbertSpace ι → Except (ActError ι) (Act S × Bool)) : ActionClass ι U S where
  id := id
  make m hs :=
    match make (splitPre m).1 hs with
    | .error (.unknownGenerator g) => .error (.unknownGenerator (.pre g))
    | .error (.hs e) => .error (.hs e)
    | .ok (a, returned) =>
      match (splitPre m).2 with
      | some g => if returned then .ok a else .error (.unknownGenerator g)
      | none => .ok a

/-- `monomial_action<fermion>` (monomial_action_fermion.hpp:33-117). -/
def fermionClass [CommRing S] : ActionClass ι U S :=
  predefinedClass (-3) fun m hs =>
    match FermionAction.make m hs with
    | .error e => .error e
    | .ok a => .ok (a.act, false)

/-- `monomial_action<boson>` (monomial_action_boson.hpp:37-163). -/
noncomputable def bosonClass [CommRing S] [Algebra ℝ S] : ActionClass ι U S :=
  predefinedClass (-2) fun m hs =>
    match BosonAction.make m hs with
    | .error e => .error e
    | .ok a => .ok (a.act, a.vanishing)

/-- `monomial_action<spin>` (monomial_action_spin.hpp:37-160). -/
noncomputable def spinClass [CommRing S] [Algebra ℝ S] : ActionClass ι U S :=
  predefinedClass (-1) fun m hs =>
    match SpinAction.make m hs with
    | .error e => .error e
    | .ok a => .ok (a.act, false)

/-- `find_algebra_monomial_subrange` (monomial_action.hpp:67-85): the generators of algebra `a` at the beginning of the range
and the rest. -/
def findSubrangeAll (a : Int) : List (AllGen ι U) → Except (UActError ι U) (List (AllGen ι U) × List (AllGen ι U))
  | [] => .ok ([], [])
  | g :: l =>
    if g.algebraId < a then .error (.unknownGenerator g)
    else if g.algebraId = a then
      match findSubrangeAll a l with
      | .error e => .error e
      | .ok (p, q) => .ok (g :: p, q)
    else .ok ([], g :: l)

/-- Constructor of `monomial_action<AlgebraIDs...>` (monomial_action.hpp:88-92, 108-111, 131-134, 141-147): the `act`s of the base class
sub-objects. -/
def chainMake (hs : HilbertSpace ι) : List (ActionClass ι U S) → List (AllGen ι U) → Except (UActError ι U) (List (Act S))
  | [], [] => .ok []
  | [], g :: _ => .error (.unknownGenerator g)
  | [C], m =>
    match C.make m hs with
    | .error e => .error e
    | .ok a => .ok [a]
  | C :: C' :: Cs, m =>
    match findSubrangeAll C.id m with
    | .error e => .error e
    | .ok (p, q) =>
      match C.make p hs with
      | .error e => .error e
      | .ok a =>
        match chainMake hs (C' :: Cs) q with
        | .error e => .error e
        | .ok as => .ok (a :: as)

/-- `monomial_action<AlgebraIDs...>::act` (monomial_action.hpp:94-98, 113-117, 149-153). -/
def chainAct : List (Act S) → Act S
  | [], index, coeff => .nonzero index coeff
  | [a], index, coeff => a index coeff
  | a :: a' :: as, index, coeff => (a index coeff).andThen (chainAct (a' :: as))

/-- `loperator_base<S, AlgebraIDs...>` (loperator.hpp:35-78). -/
structure UserLOperator (S : Type _) where
  actions : List (List (Act S) × S)

/-- The constructor loop (loperator.hpp:44-55). -/
def UserLOperator.makeLoop (Cs : List (ActionClass ι U S)) (hs : HilbertSpace ι) : List (List (AllGen ι U) × S) →
    Except (UActError ι U) (List (List (Act S) × S))
  | [] => .ok []
  | (m, c) :: l =>
    match chainMake hs Cs m with
    | .error e => .error e
    | .ok a =>
      match makeLoop Cs hs l with
      | .error e => .error e
      | .ok r => .ok ((a, c) :: r)

/-- The constructor `loperator<S, AlgebraIDs...>(expr, hs)` (loperator.hpp:44-55). -/
def UserLOperator.make (Cs : List (ActionClass ι U S)) (e : Expr (AllGen ι U) S) (hs : HilbertSpace ι) :
    Except (UActError ι U) (UserLOperator S) :=
  match makeLoop Cs hs e.terms with
  | .error e => .error e
  | .ok l => .ok ⟨l⟩

section
variable [CommRing S] [AddCommMonoid T] [Module S T] [StateVec V T] [StateVec W T]

/-- The inner loop (loperator.hpp:136-142). -/
def UserLOperator.applyTerms (inIndex : Nat) (a : T) : List (List (Act S) × S) → W → Except SVError W
  | [], dst => .ok dst
  | (ma, c) :: l, dst =>
    match chainAct ma inIndex (1 : S) with
    | .ub => .error .ub
    | .zero => applyTerms inIndex a l dst
    | .nonzero index coeff =>
      match StateVec.updateAdd dst index ((c * coeff) • a) with
      | .error e => .error e
      | .ok dst => applyTerms inIndex a l dst

/-- The calls of the functor made by `foreach` (loperator.hpp:133-143). -/
def UserLOperator.applyAll (acts : List (List (Act S) × S)) : List (Nat × T) → W → Except SVError W
  | [], dst => .ok dst
  | (k, a) :: l, dst =>
    match applyTerms k a acts dst with
    | .error e => .error e
    | .ok dst => applyAll acts l dst

/-- `loperator::act_impl` (loperator.hpp:124-144); see `LOperator.actImpl`. -/
def UserLOperator.actImpl (op : UserLOperator S) (src : V) (dst : W) : Except SVError W :=
  match StateVec.foreach src with
  | .error e => .error e
  | .ok l => applyAll op.actions l dst

/-- `op(sv)` and `op * sv` (loperator.hpp:101-121). -/
def UserLOperator.apply [ZerosLike V] (op : UserLOperator S) (sv : V) : Except SVError V :=
  op.actImpl sv (ZerosLike.zerosLike sv)

/-- `op(src, dst)` (loperator.hpp:109-115) for distinct objects `src` and `dst`. -/
def UserLOperator.applyTo (op : UserLOperator S) (src : V) (dst : W) : Except SVError W :=
  op.actImpl src (StateVec.setZeros dst)

end

/-! ### Gamma matrices -/

/-- `get<0>(g.indices())` (generator.hpp:78) of a generator with one integer index; `generator_gamma` passes its index to the
base class (examples/gamma.hpp:48). -/
def AllGen.intIndex : AllGen Int GammaGen → Int
  | .pre g => g.index
  | .user u => u.index

/-- One iteration of the loop of `monomial_action<gamma>::act` (examples/gamma.loperator.cpp:114-137, test/new_algebra.loperator.cpp:75-99):
`some (index, factor)`, or `none` for a read outside the tables. `im` is the imaginary unit. An index other than 0, 1, 2, 3 matches no
`case`. -/
def gammaStep [CommRing S] (im : S) (i : Int) (index : Nat) : Option (Nat × S) :=
  if i = 0 then
    match index with
    | 0 => some (0, 1) | 1 => some (1, 1) | 2 => some (2, -1) | 3 => some (3, -1)
    | _ => none
  else if i = 1 then
    match index with
    | 0 => some (3, -1) | 1 => some (2, -1) | 2 => some (1, 1) | 3 => some (0, 1)
    | _ => none
  else if i = 2 then
    match index with
    | 0 => some (3, -im) | 1 => some (2, im) | 2 => some (1, im) | 3 => some (0, -im)
    | _ => none
  else if i = 3 then
    match index with
    | 0 => some (2, -1) | 1 => some (3, 1) | 2 => some (0, 1) | 3 => some (1, -1)
    | _ => none
  else some (index, 1)

/-- `monomial_action<gamma>::act` (examples/gamma.loperator.cpp:108-142) for the index sequence `is`. -/
def gammaAct [CommRing S] (im : S) : List Int → Act S
  | [], index, coeff => .nonzero index coeff
  | i :: is, index, coeff =>
    match gammaStep im i index with
    | none => .ub
    | some (index', x) => gammaAct im is index' (coeff * x)

/-- `monomial_action<gamma>` (examples/gamma.loperator.cpp:73-143): the constructor collects the indices of all generators in the range,
in reverse order, without looking at their algebra. -/
def gammaClass [CommRing S] (im : S) : ActionClass Int GammaGen S where
  id := 0
  make m _ := .ok (gammaAct im (m.map AllGen.intIndex).reverse)

/-- `elementary_space_gamma` (examples/gamma.loperator.cpp:34-62). -/
def gammaSpace : ESpace Int := ⟨0, 0, 0, 4, 2⟩

end LC
