import Mathlib.Order.Defs.LinearOrder
import Verif.Model.Utility
/-
Model of `expression/generator.hpp`, `generator_fermion.hpp`, `generator_boson.hpp`, `generator_spin.hpp`.
-/
namespace LC

/-- The virtual interface of `class generator` as seen by `monomial` and `expression`
(generator.hpp:57-124 and the free functions generator.hpp:154-183).  User-defined algebras are other
instances of this record. -/
class GenOps (G : Type _) where
  /-- `operator==` (generator.hpp:58-60) -/
  eq : G → G → Bool
  /-- `operator<` (generator.hpp:64-69) -/
  lt : G → G → Bool
  /-- `operator>` (generator.hpp:70-75) -/
  gt : G → G → Bool
  /-- free function `swap_with(g1, g2, f)` (generator.hpp:156-168): the returned constant and the written `f`. -/
  swapWith : G → G → VarNumber × LinFun G
  /-- free function `simplify_prod(g1, g2, f)` (generator.hpp:172-183): `some f` iff it returns true. -/
  simplifyProd : G → G → Option (LinFun G)
  /-- `g.reduce_power(power, f)` (generator.hpp:116-119): returned flag and the new value of `f`, which is passed
  by reference (generator_spin.hpp:123-127 returns true *without* writing `f`). -/
  reducePower : G → Nat → LinFun G → Bool × LinFun G
  /-- `g.conj(f)` (generator.hpp:122-124) -/
  conj : G → LinFun G

/-- `enum spin_component` (generator_spin.hpp:36). -/
inductive SpinComp where
  | plus | minus | z
  deriving DecidableEq, Repr

/-- Numerical value of the enumerator (generator_spin.hpp:36). -/
def SpinComp.toNat : SpinComp → Nat
  | plus => 0 | minus => 1 | z => 2

/-- Generators of the predefined algebras.  `ι` stands for `std::tuple<IndexTypes...>`;
`dagger_` (generator_fermion.hpp:94, generator_boson.hpp:83), `multiplicity_` and `c_`
(generator_spin.hpp:169-172). -/
inductive Gen (ι : Type _) where
  | fermion (dagger : Bool) (i : ι)
  | boson (dagger : Bool) (i : ι)
  | spin (mult : Nat) (c : SpinComp) (i : ι)
  deriving DecidableEq, Repr

namespace Gen
variable {ι : Type _} [LinearOrder ι]

/-- `algebra_id()`: `fermion = -3`, `boson = -2`, `spin = -1` (algebra_ids.hpp:24-26). -/
def algebraId : Gen ι → Int
  | fermion .. => -3
  | boson .. => -2
  | spin .. => -1

/-- `generator::indices()` (generator.hpp:78). -/
def index : Gen ι → ι
  | fermion _ i => i
  | boson _ i => i
  | spin _ _ i => i

/-- Virtual `equal()` on generators of the same algebra
(generator_fermion.hpp:98-101, generator_boson.hpp:87-90,
generator_spin.hpp:176-179).  `dynamic_cast` failures (different algebras) do not occur. -/
def equal : Gen ι → Gen ι → Bool
  | fermion d i, fermion e j => d == e && decide (i = j)
  | boson d i, boson e j => d == e && decide (i = j)
  | spin m c i, spin n e j => m == n && c == e && decide (i = j)
  | _, _ => false

/-- Virtual `less()` (generator_fermion.hpp:104-111, generator_boson.hpp:93-100, generator_spin.hpp:182-192).
`dagger_ > f_g.dagger_` on `bool`s is `dagger_ && !f_g.dagger_`. -/
def less : Gen ι → Gen ι → Bool
  | fermion d i, fermion e j =>
      if d != e then d && !e else if d then decide (i < j) else decide (i > j)
  | boson d i, boson e j =>
      if d != e then d && !e else if d then decide (i < j) else decide (i > j)
  | spin m c i, spin n e j =>
      if m != n then decide (m < n)
      else if !decide (i = j) then decide (i < j)
      else decide (c.toNat < e.toNat)
  | _, _ => false

/-- Virtual `greater()` (generator_fermion.hpp:112-119, generator_boson.hpp:101-108, generator_spin.hpp:193-203). -/
def greater : Gen ι → Gen ι → Bool
  | fermion d i, fermion e j =>
      if d != e then !d && e else if d then decide (i > j) else decide (i < j)
  | boson d i, boson e j =>
      if d != e then !d && e else if d then decide (i > j) else decide (i < j)
  | spin m c i, spin n e j =>
      if m != n then decide (m > n)
      else if !decide (i = j) then decide (i > j)
      else decide (c.toNat > e.toNat)
  | _, _ => false

/-- `operator==` (generator.hpp:58-60). -/
def eqOp (g h : Gen ι) : Bool := g.algebraId == h.algebraId && equal g h

/-- `operator<` (generator.hpp:64-69). -/
def ltOp (g h : Gen ι) : Bool :=
  if g.algebraId != h.algebraId then decide (g.algebraId < h.algebraId) else less g h

/-- `operator>` (generator.hpp:70-75). -/
def gtOp (g h : Gen ι) : Bool :=
  if g.algebraId != h.algebraId then decide (g.algebraId > h.algebraId) else greater g h

/-- `swap_with_spin_one_half` (generator_spin.hpp:209-225) for components `c` (of `*this`) and `e` (of `g2`), both at
index `i`. -/
def swapSpinHalf (c e : SpinComp) (i : ι) : VarNumber × LinFun (Gen ι) :=
  if c = .z then
    if e = .plus then (.integer 0, ⟨.integer 0, [(spin 2 e i, .rational 1 2)]⟩)
    else (.integer 0, ⟨.integer 0, [(spin 2 e i, .rational (-1) 2)]⟩)
  else (.integer 0, ⟨.rational 1 2, [(spin 2 .z i, .integer (-1))]⟩)

/-- `swap_with_higher_spin` (generator_spin.hpp:230-247). -/
def swapHigherSpin (m : Nat) (c e : SpinComp) (i : ι) : VarNumber × LinFun (Gen ι) :=
  if c = .z then
    if e = .plus then (.integer 1, ⟨.integer 0, [(spin m e i, .integer 1)]⟩)
    else (.integer 1, ⟨.integer 0, [(spin m e i, .integer (-1))]⟩)
  else (.integer 1, ⟨.integer 0, [(spin m .z i, .integer (-2))]⟩)

/-- Free `swap_with` (generator.hpp:156-168) dispatching to the virtual `swap_with`
(generator_fermion.hpp:57-63, generator_boson.hpp:57-63, generator_spin.hpp:70-85).
Generators of different algebras commute. -/
def swapWith : Gen ι → Gen ι → VarNumber × LinFun (Gen ι)
  | fermion d i, fermion e j =>
      (.integer (-1), ⟨.integer (if i = j ∧ d ≠ e then 1 else 0), []⟩)
  | boson d i, boson e j =>
      (.integer 1, ⟨.integer (if i = j ∧ d ≠ e then 1 else 0), []⟩)
  | spin m c i, spin n e j =>
      if i = j ∧ m = n then
        if m = 2 then swapSpinHalf c e j else swapHigherSpin m c e j
      else (.integer 1, ⟨.integer 0, []⟩)
  | _, _ => (.integer 1, ⟨.integer 0, []⟩)

/-- Free `simplify_prod` (generator.hpp:172-183) dispatching to the virtual `simplify_prod`
(generator_fermion.hpp:65-72; the base class version generator.hpp:104-107 for bosons; generator_spin.hpp:94-121).
Note that the spin version tests only the multiplicity of `*this` (generator_spin.hpp:99). The `shared_from_this()`
term is `*this`; the new `S_z` takes spin and indices from `g2`. -/
def simplifyProd : Gen ι → Gen ι → Option (LinFun (Gen ι))
  | fermion d i, fermion e j =>
      if eqOp (fermion d i) (fermion e j) then some ⟨.integer 0, []⟩ else none
  | spin m c i, spin n e j =>
      if ¬ (i = j) ∨ m ≠ 2 then none
      else if c = e then
        some ⟨if c = .z then .rational 1 4 else .integer 0, []⟩
      else if e = .z then
        if c = .plus then some ⟨.integer 0, [(spin m c i, .rational (-1) 2)]⟩
        else some ⟨.integer 0, [(spin m c i, .rational 1 2)]⟩
      else some ⟨.rational 1 2, [(spin n .z j, .integer 1)]⟩
  | _, _ => none

/-- Virtual `reduce_power` (generator.hpp:116-119 for fermions and bosons, generator_spin.hpp:123-127).
`f` is never written. -/
def reducePower : Gen ι → Nat → LinFun (Gen ι) → Bool × LinFun (Gen ι)
  | spin m c _, power, f => (decide (c ≠ .z) && decide (power ≥ m), f)
  | _, _, f => (false, f)

/-- Virtual `conj` (generator_fermion.hpp:78-82, generator_boson.hpp:69-71,
generator_spin.hpp:135-144). -/
def conj : Gen ι → LinFun (Gen ι)
  | fermion d i => ⟨.integer 0, [(fermion (!d) i, .integer 1)]⟩
  | boson d i => ⟨.integer 0, [(boson (!d) i, .integer 1)]⟩
  | spin m c i =>
      ⟨.integer 0, [(spin m (match c with | .z => .z | .plus => .minus | .minus => .plus) i, .integer 1)]⟩

instance : GenOps (Gen ι) where
  eq := eqOp
  lt := ltOp
  gt := gtOp
  swapWith := swapWith
  simplifyProd := simplifyProd
  reducePower := reducePower
  conj := conj

end Gen
end LC
