import Mathlib.Algebra.Order.Floor.Defs
import Mathlib.Algebra.Order.Round
import Mathlib.Data.Rat.Floor
import Verif.Model.HilbertSpace
/-
Model of the comparison operators of `loperator/elementary_space.hpp` that are not used by `hilbert_space`, of the variadic
template `es_constructor` (loperator/es_constructor.hpp) and of the conversion of spins given as `double`.
-/
namespace LC

namespace ESpace
variable {ι : Type _} [LinearOrder ι]

/-- Virtual `greater()` (elementary_space.hpp:103-105, elementary_space_spin.hpp:92-98). -/
def greater (a b : ESpace ι) : Bool := if a.mult ≠ b.mult then decide (a.mult > b.mult) else decide (a.indices > b.indices)

/-- `operator>` (elementary_space.hpp:70-76). -/
def gtOp (a b : ESpace ι) : Bool :=
  if a.algebraId ≠ b.algebraId then decide (a.algebraId > b.algebraId) else greater a b

/-- `operator!=` (elementary_space.hpp:59-62). -/
def neOp (a b : ESpace ι) : Bool := !eqOp a b

end ESpace

/-! ### Spins given as floating-point numbers -/

/-- `static_cast<int>(2 * spin + 1)` (generator_spin.hpp:55, elementary_space_spin.hpp:41). `rnd` rounds the sum to a `double`
(the doubling is exact); the conversion truncates towards zero; values that do not fit an `int` are undefined behaviour. The
assertion is not modelled. -/
def spinMultiplicity (rnd : ℚ → ℚ) (s : ℚ) : Option Int :=
  let x := rnd (2 * s + 1)
  let n := if 0 ≤ x then ⌊x⌋ else ⌈x⌉
  if -2 ^ 31 ≤ n ∧ n < 2 ^ 31 then some n else none

/-- `generator_spin::spin()` (generator_spin.hpp:131): `(multiplicity_ - 1) / 2.0`. -/
def spinOf (rnd : ℚ → ℚ) (m : Int) : ℚ := rnd ((m - 1 : ℤ) / 2)

/-- `es_constructor<spin>::operator()` (es_constructor.hpp:170-175): the multiplicity of the space made for a generator. -/
def spinSpaceMultiplicity (rnd : ℚ → ℚ) (m : Int) : Option Int := spinMultiplicity rnd (spinOf rnd m)

/-! ### `es_constructor<IDs...>` -/

/-- The class `es_constructor<ID>` of one algebra, as a user may define it: what its default constructor gives (`none` if there is
none), and what its constructor taking one argument gives (`none` if it cannot be constructed from it). `Arg` stands for
arguments of all types; `E` for the (type-erased) elementary spaces. -/
structure AlgCtor (Arg G E : Type _) where
  id : Int
  default : Option (G → E)
  ofArg : Arg → Option (G → E)

/-- An object of `es_constructor<IDs...>`: the subobjects `es_constructor<ID>`. -/
abbrev EsChain (G E : Type _) := List (Int × (G → E))

namespace AlgCtor
variable {Arg G E : Type _}

/-- The default constructors (es_constructor.hpp:65, 102). `none`: does not compile. -/
def buildDefault : List (AlgCtor Arg G E) → Option (EsChain G E)
  | [] => some []
  | c :: cs =>
    match c.default, buildDefault cs with
    | some f, some r => some ((c.id, f) :: r)
    | _, _ => none

/-- `es_constructor<IDs...>(args...)` (es_constructor.hpp:65-83, 103-105, 130-133): an argument goes to the first remaining subobject
that can be constructed from it, the subobjects before it are default constructed. The last subobject is constructed from the only
remaining argument. `none`: does not compile. -/
def build : List (AlgCtor Arg G E) → List Arg → Option (EsChain G E)
  | [], _ => none
  | cs, [] => buildDefault cs
  | [c], [a] => (c.ofArg a).map fun f => [(c.id, f)]
  | [_], _ :: _ :: _ => none
  | c :: c' :: cs, a :: as =>
    match c.ofArg a with
    | some f => (build (c' :: cs) as).map ((c.id, f) :: ·)
    | none =>
      match c.default, build (c' :: cs) (a :: as) with
      | some f, some r => some ((c.id, f) :: r)
      | _, _ => none

end AlgCtor

/-- `operator()` of `es_constructor<IDs...>` (es_constructor.hpp:85-93, 107-114). `none` is the exception
`es_construction_failure`. -/
def EsChain.call {G E : Type _} (id : G → Int) : EsChain G E → G → Option E
  | [], _ => none
  | (i, f) :: l, g => if id g = i then some (f g) else EsChain.call id l g

/-- `algebra_ids_ordered<IDs...>` (algebra_ids.hpp:37-53), checked by a `static_assert`. -/
def idsOrdered : List Int → Bool
  | [] => true
  | [_] => true
  | a :: b :: l => decide (a < b) && idsOrdered (b :: l)

/-- Initialising an `es_constructor<IDs...>` with two or more IDs from a non-const object of the same type: the template constructor
`es_constructor(Args&&...)` (es_constructor.hpp:130-133) is a better match than the copy constructor, and passes the object to
es_constructor.hpp:72-74, where the first base class is constructible from it (by slicing) and the others get no arguments. -/
def EsChain.copyNonConst {Arg G E : Type _} (cs : List (AlgCtor Arg G E)) (x : EsChain G E) : Option (EsChain G E) :=
  match cs, x with
  | _ :: cs, f :: _ => (AlgCtor.buildDefault cs).map (f :: ·)
  | _, _ => none

/-- `es_constructor<fermion>`, `es_constructor<boson>`, `es_constructor<spin>` (es_constructor.hpp:139-176). The only argument that is
accepted is the dimension of bosonic spaces; the multiplicities of spins pass through `double` unchanged (C99). -/
def fermionCtor {ι : Type _} : AlgCtor Nat (Gen ι) (ESpace ι) where
  id := -3
  default := some fun | .fermion _ i => .fermion i | .boson _ i => .fermion i | .spin _ _ i => .fermion i
  ofArg _ := none
@[inherit_doc fermionCtor]
def bosonCtor {ι : Type _} : AlgCtor Nat (Gen ι) (ESpace ι) where
  id := -2
  default := none
  ofArg d := some fun | .fermion _ i => .boson d i | .boson _ i => .boson d i | .spin _ _ i => .boson d i
@[inherit_doc fermionCtor]
def spinCtor {ι : Type _} : AlgCtor Nat (Gen ι) (ESpace ι) where
  id := -1
  default := some fun | .fermion _ i => .spin 2 i | .boson _ i => .spin 2 i | .spin m _ i => .spin m i
  ofArg _ := none

end LC
