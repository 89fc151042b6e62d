import Mathlib.Data.Nat.Log
import Mathlib.Algebra.BigOperators.Group.List.Basic
import Verif.Model.BitOps
import Verif.Model.Expression
/-
Model of `loperator/elementary_space*.hpp`, `loperator/es_constructor.hpp`, `loperator/hilbert_space.hpp`.
-/
namespace LC

/-! ### Elementary spaces -/

/-- An object of a class derived from `elementary_space<IndexTypes...>`, as its virtual functions show it
(elementary_space.hpp:78-92): algebra ID, dimension, number of bits, indices. `mult` is the additional ordering key
`multiplicity_` of `elementary_space_spin` (elementary_space_spin.hpp:71); it is 0 for all other spaces. -/
structure ESpace (ι : Type _) where
  algebraId : Int
  mult : Nat
  indices : ι
  dim : Nat
  nBits : Nat
  deriving DecidableEq, Repr

namespace ESpace
variable {ι : Type _} [LinearOrder ι]

/-- `elementary_space_fermion` (elementary_space_fermion.hpp:28-61). -/
def fermion (i : ι) : ESpace ι := ⟨-3, 0, i, 2, 1⟩

/-- `elementary_space_boson` (elementary_space_boson.hpp:28-74). `ceil(log2(dim))` is the exact `Nat.clog 2 dim`. -/
def boson (dim : Nat) (i : ι) : ESpace ι := ⟨-2, 0, i, dim, Nat.clog 2 dim⟩

/-- `elementary_space_spin` (elementary_space_spin.hpp:38-75); the argument is the multiplicity `2S+1`. -/
def spin (mult : Nat) (i : ι) : ESpace ι := ⟨-1, mult, i, mult, Nat.clog 2 mult⟩

/-- Virtual `equal()` (elementary_space.hpp:96-98, elementary_space_spin.hpp:79-82). -/
def equal (a b : ESpace ι) : Bool := a.mult == b.mult && decide (a.indices = b.indices)

/-- Virtual `less()` (elementary_space.hpp:100-102, elementary_space_spin.hpp:85-91). -/
def less (a b : ESpace ι) : Bool := if a.mult ≠ b.mult then decide (a.mult < b.mult) else decide (a.indices < b.indices)

/-- `operator==` (elementary_space.hpp:55-58). -/
def eqOp (a b : ESpace ι) : Bool := a.algebraId == b.algebraId && equal a b

/-- `operator<` (elementary_space.hpp:63-69). -/
def ltOp (a b : ESpace ι) : Bool :=
  if a.algebraId ≠ b.algebraId then decide (a.algebraId < b.algebraId) else less a b

end ESpace

/-- `es_constructor<fermion>`, `es_constructor<boson>`, `es_constructor<spin>` combined to `es_constructor<fermion, spin>`
(`default_es_constructor`, `bosonDim = none`) or `es_constructor<fermion, boson, spin>` (`boson_es_constructor`)
(es_constructor.hpp:57-115, 139-183). `none` is the exception `es_construction_failure`. -/
def esConstruct {ι : Type _} (bosonDim : Option Nat) : Gen ι → Option (ESpace ι)
  | .fermion _ i => some (ESpace.fermion i)
  | .boson _ i => bosonDim.map fun d => ESpace.boson d i
  | .spin m _ i => some (ESpace.spin m i)

/-! ### `sparse_foreach_basis_state` -/

/-- Data members of `sparse_foreach_basis_state` (hilbert_space.hpp:46-56) except the scratch vector `indices_`, which
`operator()` resets at the beginning; it appears explicitly in `loop`. -/
structure SparseForeach where
  sizes : List Nat
  nStates : Nat
  jumps : List Nat
  deriving DecidableEq, Repr

namespace SparseForeach

/-- Loop of `init_jumps` (hilbert_space.hpp:58-70); there is no jump for the last range. -/
def initJumps : Nat → List Nat → List Nat
  | _, [] => []
  | _, [_] => []
  | stride, size :: rest =>
    let p := nextPow2Portable size
    mul64 stride (sub64 p size) :: initJumps (mul64 stride p) rest

/-- Conversion of a `uint64_t` to `int` and back (implementation defined in C++11: two's complement truncation to 32 bits,
then sign extension). -/
def viaInt (x : Nat) : Nat := if x % 2 ^ 32 < 2 ^ 31 then x % 2 ^ 32 else W64 - 2 ^ 32 + x % 2 ^ 32

/-- Constructor (hilbert_space.hpp:73-82). The accumulator of `std::accumulate(…, 1, multiplies<sv_index_type>())` has
type `int`. -/
def make (sizes : List Nat) : SparseForeach where
  sizes := sizes
  nStates := if sizes.isEmpty then 0 else sizes.foldl (fun acc s => viaInt (mul64 acc s)) 1
  jumps := initJumps 1 sizes

/-- The carry loop (hilbert_space.hpp:101-107). -/
def carry : List Nat → List Nat → List Nat → Nat → List Nat × Nat
  | i :: j :: is, s :: ss, jump :: jumps, state =>
    if i = s then
      let r := carry ((j + 1) :: is) ss jumps (add64 state jump)
      (0 :: r.1, r.2)
    else (i :: j :: is, state)
  | is, _, _, state => (is, state)

/-- `++indices_[0]` (hilbert_space.hpp:98). -/
def incHead : List Nat → List Nat
  | [] => []
  | i :: is => (i + 1) :: is

/-- Main loop of `operator()` (hilbert_space.hpp:95-108) for the remaining number of iterations, the vector `indices_` and
the variable `state`. `eff state` is what the call of the functor does to the shared vector `indices_` (nothing, unless the
functor itself iterates over the same object). The result lists the states passed to the functor and the final
`indices_`. -/
def loop (a : SparseForeach) (eff : Nat → List Nat → List Nat) : Nat → List Nat → Nat → List Nat × List Nat
  | 0, ind, _ => ([], ind)
  | n + 1, ind, state =>
    let c := carry (incHead (eff state ind)) a.sizes a.jumps (add64 state 1)
    let r := loop a eff n c.1 c.2
    (state :: r.1, r.2)

/-- `operator()` (hilbert_space.hpp:93-109). -/
def run (a : SparseForeach) (eff : Nat → List Nat → List Nat) : List Nat × List Nat :=
  loop a eff a.nStates (List.replicate a.sizes.length 0) 0

end SparseForeach

/-! ### `hilbert_space` -/

/-- `bit_range_t` (hilbert_space.hpp:114-115). -/
structure BitRange where
  first : Int
  second : Int
  deriving DecidableEq, Repr

/-- Exceptions thrown by `hilbert_space` (hilbert_space.hpp:160-183). -/
inductive HSError where
  | exists_
  | notFound
  | tooBig (nBits : Int)
  | noAlgebra
  | esConstruction
  deriving DecidableEq, Repr

/-- Data members of `hilbert_space` (hilbert_space.hpp:443-457). The two `std::map`s are lists in iteration order. -/
structure HilbertSpace (ι : Type _) where
  spaces : List (ESpace ι × BitRange)
  algRanges : List (Int × BitRange)
  bitRangeEnd : Int
  dim : Nat
  foreachAlg : Option SparseForeach
  deriving DecidableEq, Repr

namespace HilbertSpace
variable {ι : Type _} [LinearOrder ι]

/-- Default constructor (hilbert_space.hpp:186, 451, 454). -/
def empty : HilbertSpace ι := ⟨[], [], -1, 1, none⟩

/-- `std::map::emplace` on `elementary_spaces_` with `less` (hilbert_space.hpp:134-138); `none` if an equivalent key is
present. -/
def emplaceSpace (es : ESpace ι) : List (ESpace ι × BitRange) → Option (List (ESpace ι × BitRange))
  | [] => some [(es, ⟨0, 0⟩)]
  | (k, r) :: t =>
    if k.ltOp es then (emplaceSpace es t).map ((k, r) :: ·)
    else if es.ltOp k then some ((es, ⟨0, 0⟩) :: (k, r) :: t)
    else none

/-- `std::map::find` on `elementary_spaces_`. -/
def findSpace (es : ESpace ι) : List (ESpace ι × BitRange) → Option (ESpace ι × BitRange)
  | [] => none
  | (k, r) :: t => if k.ltOp es then findSpace es t else if es.ltOp k then none else some (k, r)

/-- Update of `algebra_bit_ranges_` for one elementary space (hilbert_space.hpp:398-407): emplace or widen. -/
def updateAlg (a : Int) (r : BitRange) : List (Int × BitRange) → List (Int × BitRange)
  | [] => [(a, r)]
  | (k, q) :: t =>
    if k < a then (k, q) :: updateAlg a r t
    else if a < k then (a, r) :: (k, q) :: t
    else (k, ⟨if r.first < q.first then r.first else q.first, if r.second > q.second then r.second else q.second⟩) :: t

/-- Loop of `recompute_bit_ranges` (hilbert_space.hpp:393-410). `int` is unbounded. -/
def recomputeLoop : List (ESpace ι × BitRange) → List (Int × BitRange) → Int →
    List (ESpace ι × BitRange) × List (Int × BitRange) × Int
  | [], alg, e => ([], alg, e)
  | (es, _) :: l, alg, e =>
    let range : BitRange := ⟨e + 1, e + es.nBits⟩
    let q := recomputeLoop l (updateAlg es.algebraId range alg) (e + es.nBits)
    ((es, range) :: q.1, q.2)

/-- `recompute_bit_ranges` (hilbert_space.hpp:390-413): the new state and the exception; `max_n_bits = 63`
(hilbert_space.hpp:130-131). -/
def recompute (hs : HilbertSpace ι) : HilbertSpace ι × Option HSError :=
  let q := recomputeLoop hs.spaces [] (-1)
  ({ hs with spaces := q.1, algRanges := q.2.1, bitRangeEnd := q.2.2 },
    if q.2.2 ≥ 63 then some (.tooBig (q.2.2 + 1)) else none)

/-- Loop of `init_foreach_alg` (hilbert_space.hpp:423-434) with accumulators `merged_dim` and `sizes`. -/
def mergeSizes : List (ESpace ι) → Nat → List Nat → List Nat
  | [], merged, sizes => if merged ≠ 1 then sizes ++ [merged] else sizes
  | es :: l, merged, sizes =>
    let merged := mul64 merged es.dim
    if es.dim ≠ pow2 es.nBits then mergeSizes l 1 (sizes ++ [merged]) else mergeSizes l merged sizes

/-- `init_foreach_alg` (hilbert_space.hpp:416-440). -/
def initForeach (hs : HilbertSpace ι) : HilbertSpace ι :=
  let sizes := mergeSizes (hs.spaces.map (·.1)) 1 []
  { hs with foreachAlg := if sizes.length ≤ 1 then none else some (SparseForeach.make sizes) }

/-- `add` (hilbert_space.hpp:286-292): the new state of the object and the exception thrown, if any. -/
def add (hs : HilbertSpace ι) (es : ESpace ι) : HilbertSpace ι × Option HSError :=
  match emplaceSpace es hs.spaces with
  | none => (hs, some .exists_)
  | some sp =>
    match recompute { hs with spaces := sp } with
    | (hs', some e) => (hs', some e)
    | (hs', none) => (initForeach { hs' with dim := mul64 hs'.dim es.dim }, none)

/-- Constructor from individual elementary spaces (hilbert_space.hpp:141-145, 189-194). -/
def ofArgsFrom : HilbertSpace ι → List (ESpace ι) → Except HSError (HilbertSpace ι)
  | hs, [] => .ok hs
  | hs, es :: l =>
    match add hs es with
    | (_, some e) => .error e
    | (hs', none) => ofArgsFrom hs' l

/-- Constructor from individual elementary spaces (hilbert_space.hpp:189-194). -/
def ofArgs (l : List (ESpace ι)) : Except HSError (HilbertSpace ι) := ofArgsFrom empty l

/-- Loop of the constructor from a vector of pointers (hilbert_space.hpp:199-203). -/
def ofPtrsLoop : HilbertSpace ι → List (ESpace ι) → Except HSError (HilbertSpace ι)
  | hs, [] => .ok hs
  | hs, es :: l =>
    match emplaceSpace es hs.spaces with
    | none => .error .exists_
    | some sp => ofPtrsLoop { hs with spaces := sp, dim := mul64 hs.dim es.dim } l

/-- Constructor from a vector of pointers (hilbert_space.hpp:197-206). -/
def ofPtrs (l : List (ESpace ι)) : Except HSError (HilbertSpace ι) :=
  match ofPtrsLoop empty l with
  | .error e => .error e
  | .ok hs =>
    match recompute hs with
    | (_, some e) => .error e
    | (hs', none) => .ok (initForeach hs')

/-- The double loop over monomials and generators of an expression (hilbert_space.hpp:215-220); an equivalent space
already present is kept. -/
def collect (constr : Gen ι → Option (ESpace ι)) : List (Gen ι) → List (ESpace ι × BitRange) →
    Except HSError (List (ESpace ι × BitRange))
  | [], sp => .ok sp
  | g :: gs, sp =>
    match constr g with
    | none => .error .esConstruction
    | some es => collect constr gs ((emplaceSpace es sp).getD sp)

/-- Constructor from an expression (hilbert_space.hpp:211-232) and `make_hilbert_space` (hilbert_space.hpp:460-467);
`monomials` are the keys of the expression in iteration order. -/
def ofMonomials (constr : Gen ι → Option (ESpace ι)) (monomials : List (List (Gen ι))) : Except HSError (HilbertSpace ι) :=
  match collect constr monomials.flatten [] with
  | .error e => .error e
  | .ok sp =>
    match recompute { (empty : HilbertSpace ι) with spaces := sp } with
    | (_, some e) => .error e
    | (hs', none) =>
      .ok (initForeach { hs' with dim := mul64 hs'.dim ((hs'.spaces.map (·.1.dim)).foldl mul64 1) })

/-- Copy constructor (hilbert_space.hpp:235-247): the members listed in the initialiser list and the elementary spaces are
copied, `algebra_bit_ranges_` is default-initialised. -/
def copy (hs : HilbertSpace ι) : HilbertSpace ι :=
  { spaces := hs.spaces, algRanges := [], bitRangeEnd := hs.bitRangeEnd, dim := hs.dim, foreachAlg := hs.foreachAlg }

/-- Copy assignment `target = hs` (hilbert_space.hpp:249-263): `algebra_bit_ranges_` of the target is left alone. -/
def copyAssign (target hs : HilbertSpace ι) : HilbertSpace ι :=
  { spaces := hs.spaces, algRanges := target.algRanges, bitRangeEnd := hs.bitRangeEnd, dim := hs.dim,
    foreachAlg := hs.foreachAlg }

/-- `operator==` (hilbert_space.hpp:269-279). -/
def eqOp (a b : HilbertSpace ι) : Bool :=
  a.spaces.length == b.spaces.length &&
    (List.zipWith (fun p q => p.1.eqOp q.1 && decide (p.2 = q.2)) a.spaces b.spaces).all id

/-- `has` (hilbert_space.hpp:295-297). -/
def has (hs : HilbertSpace ι) (es : ESpace ι) : Bool := (findSpace es hs.spaces).isSome

/-- `index` (hilbert_space.hpp:300-306): position of the found node. -/
def index (hs : HilbertSpace ι) (es : ESpace ι) : Except HSError Nat :=
  match findSpace es hs.spaces with
  | none => .error .notFound
  | some k => .ok (hs.spaces.idxOf k)

/-- `dim(es)` (hilbert_space.hpp:309-315). -/
def dimOf (hs : HilbertSpace ι) (es : ESpace ι) : Except HSError Nat :=
  match findSpace es hs.spaces with
  | none => .error .notFound
  | some k => .ok k.1.dim

/-- `bit_range(es)` (hilbert_space.hpp:318-324). -/
def bitRange (hs : HilbertSpace ι) (es : ESpace ι) : Except HSError BitRange :=
  match findSpace es hs.spaces with
  | none => .error .notFound
  | some k => .ok k.2

/-- `foreach_elementary_space` (hilbert_space.hpp:327-331): the spaces in the order of visiting. -/
def elementarySpaces (hs : HilbertSpace ι) : List (ESpace ι) := hs.spaces.map (·.1)

/-- `has_algebra` (hilbert_space.hpp:334-336). -/
def hasAlgebra (hs : HilbertSpace ι) (a : Int) : Bool := (hs.algRanges.lookup a).isSome

/-- `algebra_bit_range` (hilbert_space.hpp:339-346). -/
def algebraBitRange (hs : HilbertSpace ι) (a : Int) : Except HSError BitRange :=
  match hs.algRanges.lookup a with
  | none => .error .noAlgebra
  | some r => .ok r

/-- `size()` (hilbert_space.hpp:349). -/
def size (hs : HilbertSpace ι) : Nat := hs.spaces.length

/-- `total_n_bits()` (hilbert_space.hpp:353). -/
def totalNBits (hs : HilbertSpace ι) : Int := hs.bitRangeEnd + 1

/-- `vec_size()` (hilbert_space.hpp:356); at most 63 bits, so the shift does not overflow. -/
def vecSize (hs : HilbertSpace ι) : Nat := pow2 hs.totalNBits.toNat

/-- `is_sparse()` (hilbert_space.hpp:366). -/
def isSparse (hs : HilbertSpace ι) : Bool := hs.vecSize > hs.dim

/-- `foreach(hs, f)` (hilbert_space.hpp:369-378) with a functor that does not iterate over `hs` itself: the arguments of
the successive calls. -/
def foreach (hs : HilbertSpace ι) : List Nat :=
  match hs.foreachAlg with
  | some a => (a.run fun _ ind => ind).1
  | none => List.range hs.dim

/-- `foreach(hs, f)` where `f`, when called on a state with `nested state`, runs a complete `foreach(hs, …)` of its own:
the arguments of the successive calls of the outer functor. -/
def foreachNested (hs : HilbertSpace ι) (nested : Nat → Bool) : List Nat :=
  match hs.foreachAlg with
  | some a => (a.run fun s ind => if nested s then (a.run fun _ ind => ind).2 else ind).1
  | none => List.range hs.dim

/-- `basis_state_index` (hilbert_space.hpp:380-386) without the assertion. -/
def basisStateIndex (hs : HilbertSpace ι) (es : ESpace ι) (n : Nat) : Except HSError Nat :=
  match hs.bitRange es with
  | .error e => .error e
  | .ok r => .ok ((n <<< r.first.toNat) % W64)

end HilbertSpace
end LC
