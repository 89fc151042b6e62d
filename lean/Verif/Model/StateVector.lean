import Mathlib.Algebra.Group.Defs
import Mathlib.Data.List.Perm.Basic
import Mathlib.Order.Defs.LinearOrder
/-
Model of `loperator/state_vector.hpp` and `loperator/sparse_state_vector.hpp`, and of `std::unordered_map` as far as it is
used there.

`is_zero` of an amplitude is the exact comparison with 0 (see DESIGN.md).
-/
namespace LC

/-- Failures of accesses to a state vector: `ub` is an access beyond the end of a standard container (undefined behaviour),
`outOfRange` is the exception `std::out_of_range` thrown by `at()`. -/
inductive SVError where
  | ub
  | outOfRange
  deriving DecidableEq, Repr

/-- The overload set a type has to provide to be used as a state vector (state_vector.hpp:33-80): `foreach` is given by the
sequence of arguments with which it calls the functor. -/
class StateVec (V : Type _) (T : outParam (Type _)) where
  getElement : V → Nat → Except SVError T
  updateAdd : V → Nat → T → Except SVError V
  setZeros : V → V
  foreach : V → Except SVError (List (Nat × T))

/-- State vectors that provide `zeros_like` (views do not). -/
class ZerosLike (V : Type _) where
  zerosLike : V → V

/-! ### `std::vector` -/

/-- `std::vector<T>` as a state vector. -/
structure DenseSV (T : Type _) where
  data : List T

namespace DenseSV
variable {T : Type _} [AddCommMonoid T] [DecidableEq T]

/-- `get_element` (state_vector.hpp:45-48). -/
def getElement (sv : DenseSV T) (n : Nat) : Except SVError T :=
  match sv.data[n]? with
  | some a => .ok a
  | none => .error .ub

/-- `update_add_element` (state_vector.hpp:51-55). -/
def updateAdd (sv : DenseSV T) (n : Nat) (value : T) : Except SVError (DenseSV T) :=
  match sv.data[n]? with
  | some a => .ok ⟨sv.data.set n (a + value)⟩
  | none => .error .ub

/-- `set_zeros` (state_vector.hpp:58-60). -/
def setZeros (sv : DenseSV T) : DenseSV T := ⟨sv.data.map fun _ => 0⟩

/-- `zeros_like` (state_vector.hpp:64-67). -/
def zerosLike (sv : DenseSV T) : DenseSV T := ⟨List.replicate sv.data.length 0⟩

/-- Loop of `foreach` (state_vector.hpp:71-80) from position `n` on. -/
def foreachFrom : Nat → List T → List (Nat × T)
  | _, [] => []
  | n, a :: l => if a = 0 then foreachFrom (n + 1) l else (n, a) :: foreachFrom (n + 1) l

instance : StateVec (DenseSV T) T where
  getElement := getElement
  updateAdd := updateAdd
  setZeros := setZeros
  foreach sv := .ok (foreachFrom 0 sv.data)

instance : ZerosLike (DenseSV T) := ⟨zerosLike⟩

end DenseSV

/-! ### `std::unordered_map` -/

/-- An implementation of `std::unordered_map<K, V>`. `H` is everything it keeps besides the elements (bucket array, …). The
iteration order is left open: an insertion and a copy may reorder the elements in any way; erasing elements keeps the order of
the others (guaranteed since C++14). -/
class HashImpl (H : Type _) (K V : Type _) where
  fresh : H
  insert : H → List (K × V) → K × V → H × List (K × V)
  erase : H → List (K × V) → K → H
  copy : H → List (K × V) → H × List (K × V)
  insert_perm : ∀ h l p, (insert h l p).2.Perm (p :: l)
  copy_perm : ∀ h l, (copy h l).2.Perm l

/-- `std::unordered_map<K, V>`: the elements in iteration order. -/
structure UMap (H K V : Type _) where
  h : H
  items : List (K × V)

namespace UMap
variable {H K V : Type _} [HashImpl H K V] [DecidableEq K]

/-- The default constructor. -/
def empty : UMap H K V := ⟨HashImpl.fresh K V, []⟩

/-- `find(k)`: the value, if any. -/
def find? (m : UMap H K V) (k : K) : Option V := (m.items.find? fun p => p.1 = k).map (·.2)

/-- `emplace(k, v)` / `insert`: no effect if the key is present. -/
def emplace (m : UMap H K V) (k : K) (v : V) : UMap H K V :=
  match m.find? k with
  | some _ => m
  | none => let r := HashImpl.insert m.h m.items (k, v); ⟨r.1, r.2⟩

/-- Assignment through the iterator returned by `find(k)`. -/
def assign (m : UMap H K V) (k : K) (v : V) : UMap H K V :=
  ⟨m.h, m.items.map fun p => if p.1 = k then (p.1, v) else p⟩

/-- `m[k] = v`. -/
def set (m : UMap H K V) (k : K) (v : V) : UMap H K V :=
  match m.find? k with
  | some _ => m.assign k v
  | none => m.emplace k v

/-- `erase(it)` with the iterator `it` returned by `find(k)`. -/
def erase (m : UMap H K V) (k : K) : UMap H K V :=
  ⟨HashImpl.erase m.h m.items k, m.items.filter fun p => !decide (p.1 = k)⟩

/-- `for(auto it = m.begin(); it != m.end();) { if(pred(it->second)) it = m.erase(it); else ++it; }`. -/
def eraseIf (m : UMap H K V) (pred : V → Bool) : UMap H K V :=
  ⟨(m.items.filter fun p => pred p.2).foldl (fun h p => HashImpl.erase h m.items p.1) m.h,
    m.items.filter fun p => !pred p.2⟩

/-- The copy constructor. -/
def copy (m : UMap H K V) : UMap H K V := let r := HashImpl.copy m.h m.items; ⟨r.1, r.2⟩

end UMap

/-! ### `sparse_state_vector` -/

/-- `sparse_state_vector<T>` (sparse_state_vector.hpp:28-31). -/
structure SparseSV (H T : Type _) where
  size : Nat
  data : UMap H Nat T

namespace SparseSV
variable {H T : Type _} [HashImpl H Nat T] [AddCommMonoid T] [DecidableEq T]

/-- Constructor (sparse_state_vector.hpp:35). -/
def make (size : Nat) : SparseSV H T := ⟨size, UMap.empty⟩

/-- `n_nonzeros()` (sparse_state_vector.hpp:41). -/
def nNonzeros (sv : SparseSV H T) : Nat := sv.data.items.length

/-- `sv[n] = value` with `operator[]` (sparse_state_vector.hpp:44). -/
def set (sv : SparseSV H T) (n : Nat) (value : T) : SparseSV H T := { sv with data := sv.data.set n value }

/-- `get_element` (sparse_state_vector.hpp:47-55); the assertion is not modelled. -/
def getElement (sv : SparseSV H T) (n : Nat) : T :=
  match sv.data.find? n with
  | none => 0
  | some a => a

/-- `update_add_element` (sparse_state_vector.hpp:58-69). -/
def updateAdd (sv : SparseSV H T) (n : Nat) (value : T) : SparseSV H T :=
  match sv.data.find? n with
  | none => if value ≠ 0 then { sv with data := sv.data.set n value } else sv
  | some a =>
    let data := sv.data.assign n (a + value)
    if a + value = 0 then { sv with data := data.erase n } else { sv with data := data }

/-- `set_zeros` (sparse_state_vector.hpp:72). -/
def setZeros (sv : SparseSV H T) : SparseSV H T := { sv with data := ⟨sv.data.h, []⟩ }

/-- `zeros_like` (sparse_state_vector.hpp:75-77). -/
def zerosLike (sv : SparseSV H T) : SparseSV H T := make sv.size

/-- `foreach` (sparse_state_vector.hpp:80-84). -/
def foreach (sv : SparseSV H T) : List (Nat × T) := sv.data.items

/-- `prune(p)` (sparse_state_vector.hpp:97-104). -/
def pruneIf (sv : SparseSV H T) (p : T → Bool) : SparseSV H T := { sv with data := sv.data.eraseIf p }

/-- `prune()` (sparse_state_vector.hpp:87-94). -/
def prune (sv : SparseSV H T) : SparseSV H T := sv.pruneIf fun a => decide (a = 0)

/-- The copy constructor. -/
def copy (sv : SparseSV H T) : SparseSV H T := { sv with data := sv.data.copy }

instance : StateVec (SparseSV H T) T where
  getElement sv n := .ok (sv.getElement n)
  updateAdd sv n a := .ok (sv.updateAdd n a)
  setZeros := setZeros
  foreach sv := .ok sv.foreach

instance : ZerosLike (SparseSV H T) := ⟨zerosLike⟩

end SparseSV
end LC
