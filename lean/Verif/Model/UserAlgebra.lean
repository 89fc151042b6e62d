import Mathlib.Data.Int.Order.Basic
import Verif.Model.Generator
/-
Model of user-defined algebras (doc/expression/generator.rst, generator.hpp): classes derived from `generator`, used
together with the predefined ones.
-/
namespace LC

/-- A class (or several classes) derived from `generator` by the user: the virtual functions of generator.hpp:54-151 that it
overrides or inherits. `U` is the type of its objects.

* `algebraId` – `algebra_id()` (generator.hpp:55);
* `equal`, `less`, `greater` – generator.hpp:143-151, called for generators of the same algebra only;
* `swapWith` – member `swap_with(g2, f)` (generator.hpp:95-96): returned constant and the written `f`;
* `simplifyProd` – member `simplify_prod(g2, f)` (generator.hpp:104-107): `some f` iff it returns true; the inherited version
  returns false;
* `reducePower` – `reduce_power(power, f)` (generator.hpp:116-119): `some f` iff it returns true. Simplification: the function
  writes `f` if and only if it returns true (as the documentation demands);
* `conj` – `conj(f)` (generator.hpp:122-124): the written `f`; the inherited version returns the generator itself.

Simplification: the linear functions consist of generators of the user's own classes. -/
class UserGen (U : Type _) where
  algebraId : U → Int
  equal : U → U → Bool
  less : U → U → Bool
  greater : U → U → Bool
  swapWith : U → U → VarNumber × LinFun U
  simplifyProd : U → U → Option (LinFun U) := fun _ _ => none
  reducePower : U → Nat → Option (LinFun U) := fun _ _ => none
  conj : U → LinFun U := fun g => ⟨.integer 0, [(g, .integer 1)]⟩

namespace UserGen
variable {U ι : Type _} [LinearOrder ι]

/-- The inherited `equal()` (generator.hpp:144-146); `indices` is `generator::indices()`. -/
def defaultEqual (indices : U → ι) (g h : U) : Bool := decide (indices g = indices h)
/-- The inherited `less()` (generator.hpp:148). -/
def defaultLess (indices : U → ι) (g h : U) : Bool := decide (indices g < indices h)
/-- The inherited `greater()` (generator.hpp:149-151). -/
def defaultGreater (indices : U → ι) (g h : U) : Bool := decide (indices g > indices h)

end UserGen

/-- Replace the basis objects of a linear function (utility.hpp:253-318). -/
def LinFun.map {G H : Type _} (φ : G → H) (f : LinFun G) : LinFun H := ⟨f.const, f.terms.map fun p => (φ p.1, p.2)⟩

/-- An object of a class derived from `generator`: a predefined one (`Gen`) or a user-defined one. -/
inductive AllGen (ι U : Type _) where
  | pre (g : Gen ι)
  | user (u : U)
  deriving DecidableEq

namespace AllGen
variable {ι U : Type _} [LinearOrder ι] [UserGen U]

/-- Virtual `algebra_id()` (generator.hpp:55). -/
def algebraId : AllGen ι U → Int
  | pre g => g.algebraId
  | user u => UserGen.algebraId u

/-- Virtual `equal()`; a predefined and a user-defined generator are never compared by it, because their algebra IDs differ
(`min_user_defined_algebra_id`, algebra_ids.hpp:28-29). Likewise for the functions below. -/
def equal : AllGen ι U → AllGen ι U → Bool
  | pre g, pre h => Gen.equal g h
  | user u, user v => UserGen.equal u v
  | _, _ => false

/-- Virtual `less()` (generator.hpp:148). -/
def less : AllGen ι U → AllGen ι U → Bool
  | pre g, pre h => Gen.less g h
  | user u, user v => UserGen.less u v
  | _, _ => false

/-- Virtual `greater()` (generator.hpp:149-151). -/
def greater : AllGen ι U → AllGen ι U → Bool
  | pre g, pre h => Gen.greater g h
  | user u, user v => UserGen.greater u v
  | _, _ => false

/-- `operator==` (generator.hpp:58-60). -/
def eqOp (g h : AllGen ι U) : Bool := g.algebraId == h.algebraId && equal g h

/-- `operator<` (generator.hpp:64-69). -/
def ltOp (g h : AllGen ι U) : Bool :=
  if g.algebraId != h.algebraId then decide (g.algebraId < h.algebraId) else less g h

/-- `operator>` (generator.hpp:70-75). -/
def gtOp (g h : AllGen ι U) : Bool :=
  if g.algebraId != h.algebraId then decide (g.algebraId > h.algebraId) else greater g h

/-- Member `swap_with` (generator.hpp:95-96). -/
def memberSwapWith : AllGen ι U → AllGen ι U → VarNumber × LinFun (AllGen ι U)
  | pre g, pre h => ((Gen.swapWith g h).1, (Gen.swapWith g h).2.map pre)
  | user u, user v => ((UserGen.swapWith u v).1, (UserGen.swapWith u v).2.map user)
  | _, _ => (.integer 1, ⟨.integer 0, []⟩)

/-- Free `swap_with` (generator.hpp:156-168). -/
def swapWith (g h : AllGen ι U) : VarNumber × LinFun (AllGen ι U) :=
  if g.algebraId = h.algebraId then memberSwapWith g h else (.integer 1, ⟨.integer 0, []⟩)

/-- Member `simplify_prod` (generator.hpp:104-107). -/
def memberSimplifyProd : AllGen ι U → AllGen ι U → Option (LinFun (AllGen ι U))
  | pre g, pre h => (Gen.simplifyProd g h).map (LinFun.map pre)
  | user u, user v => (UserGen.simplifyProd u v).map (LinFun.map user)
  | _, _ => none

/-- Free `simplify_prod` (generator.hpp:172-183). -/
def simplifyProd (g h : AllGen ι U) : Option (LinFun (AllGen ι U)) :=
  if g.algebraId = h.algebraId then memberSimplifyProd g h else none

/-- Virtual `reduce_power` (generator.hpp:116-119); no predefined generator writes `f` (`Gen.reducePower`). -/
def reducePower : AllGen ι U → Nat → LinFun (AllGen ι U) → Bool × LinFun (AllGen ι U)
  | pre g, p, f => ((Gen.reducePower g p LinFun.zero).1, f)
  | user u, p, f =>
    match UserGen.reducePower u p with
    | some f' => (true, f'.map user)
    | none => (false, f)

/-- Virtual `conj` (generator.hpp:122-124). -/
def conj : AllGen ι U → LinFun (AllGen ι U)
  | pre g => (Gen.conj g).map pre
  | user u => (UserGen.conj u).map user

instance : GenOps (AllGen ι U) where
  eq := eqOp
  lt := ltOp
  gt := gtOp
  swapWith := swapWith
  simplifyProd := simplifyProd
  reducePower := reducePower
  conj := conj

end AllGen

/-! ### The two user-defined algebras of the examples -/

/-- `generator_gamma` (examples/gamma.hpp:38-120, test/gamma.hpp): the object is its index, an `int`. -/
structure GammaGen where
  index : Int
  deriving DecidableEq

/-- The overridden functions of `generator_gamma`: `algebra_id()` is `min_user_defined_algebra_id = 0`
(examples/gamma.hpp:33, 45, algebra_ids.hpp:29), comparisons are inherited, `swap_with` (examples/gamma.hpp:63-78),
`simplify_prod` (examples/gamma.hpp:85-94), `conj` (examples/gamma.hpp:98-113). -/
instance : UserGen GammaGen where
  algebraId _ := 0
  equal := UserGen.defaultEqual GammaGen.index
  less := UserGen.defaultLess GammaGen.index
  greater := UserGen.defaultGreater GammaGen.index
  swapWith g h :=
    let eta : Int := if g.index = h.index then (if g.index = 0 then 1 else -1) else 0
    (.integer (-1), ⟨.integer (2 * eta), []⟩)
  simplifyProd g h :=
    if g.index = h.index then some ⟨.integer (if g.index = 0 then 1 else -1), []⟩ else none
  conj g := ⟨.integer 0, [(g, .integer (if g.index = 0 then 1 else -1))]⟩

/-- `generator_virasoro` (examples/virasoro_algebra.cpp:38-123): the object is its index. -/
structure VirasoroGen where
  index : Int
  deriving DecidableEq

/-- The overridden functions of `generator_virasoro`: `algebra_id()` (examples/virasoro_algebra.cpp:49-52), `swap_with`
(:72-90, central charge 2.0 (:44)), `simplify_prod` (:100-110), `conj` (:113-116). `m`, `n` are mathematical integers. -/
instance : UserGen VirasoroGen where
  algebraId _ := 0
  equal := UserGen.defaultEqual VirasoroGen.index
  less := UserGen.defaultLess VirasoroGen.index
  greater := UserGen.defaultGreater VirasoroGen.index
  swapWith g h :=
    (.integer 1,
      ⟨.real (if g.index = - h.index then 2 * (g.index * g.index * g.index - g.index) else 0),
        [(⟨g.index + h.index⟩, .integer (g.index - h.index))]⟩)
  simplifyProd g h := if g.index = h.index then some ⟨.integer 0, []⟩ else none
  conj g := ⟨.integer 0, [(⟨- g.index⟩, .integer 1)]⟩

end LC
