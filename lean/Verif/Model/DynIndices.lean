import Mathlib.Order.Defs.LinearOrder
/-
Model of `expression/dyn_indices.hpp`, and of the standard library comparisons of `std::tuple` used for static indices.
-/
namespace LC

/-- `std::variant<int, std::string>` (dyn_indices.hpp:128, the index types of `dyn_indices`). `α` stands for `int`,
`β` for `std::string`; only their `<` and `==` are used. -/
inductive DynIndex (α β : Type _) where
  | int (i : α)
  | str (s : β)
  deriving DecidableEq, Repr

namespace DynIndex
variable {α β : Type _} [LinearOrder α] [LinearOrder β]

/-- `operator==` of `std::variant`: same alternative, equal values. -/
def eqOp : DynIndex α β → DynIndex α β → Bool
  | int i, int j => decide (i = j)
  | str s, str t => decide (s = t)
  | _, _ => false

/-- `operator<` of `std::variant`: by alternative number, then by value. -/
def ltOp : DynIndex α β → DynIndex α β → Bool
  | int i, int j => decide (i < j)
  | int _, str _ => true
  | str _, int _ => false
  | str s, str t => decide (s < t)

end DynIndex

/-- `dyn_indices_generic<int, std::string>` (dyn_indices.hpp:37-43-…): a vector of variants. -/
structure DynIndices (α β : Type _) where
  indices : List (DynIndex α β)

namespace DynIndices
variable {α β : Type _} [LinearOrder α] [LinearOrder β]

/-- `operator==` of `std::vector`: same size, equal elements. -/
def vecEq (u v : List (DynIndex α β)) : Bool :=
  u.length == v.length && (List.zipWith DynIndex.eqOp u v).all id

/-- `operator<` of `std::vector`: `std::lexicographical_compare`. -/
def vecLt : List (DynIndex α β) → List (DynIndex α β) → Bool
  | [], [] => false
  | [], _ :: _ => true
  | _ :: _, [] => false
  | a :: as, b :: bs => if a.ltOp b then true else if b.ltOp a then false else vecLt as bs

/-- `operator==` (dyn_indices.hpp:79-82). -/
def eqOp (u v : DynIndices α β) : Bool := vecEq u.indices v.indices

/-- `operator<` (dyn_indices.hpp:89-95). -/
def ltOp (u v : DynIndices α β) : Bool :=
  if u.indices.length ≠ v.indices.length then decide (u.indices.length < v.indices.length)
  else vecLt u.indices v.indices

/-- `operator>` (dyn_indices.hpp:96-102). `operator>` of `std::vector` is `operator<` with swapped arguments. -/
def gtOp (u v : DynIndices α β) : Bool :=
  if u.indices.length ≠ v.indices.length then decide (u.indices.length > v.indices.length)
  else vecLt v.indices u.indices

end DynIndices

/-- `operator<` of `std::tuple<α, Rest...>` (static index sequences, index_generator `std::tuple<IndexTypes...>`),
`Rest...` again with its `<`: `get<0>(t) < get<0>(u)`, otherwise not `>` and the rests compare. -/
def tupleLt {α β : Type _} (lta : α → α → Bool) (ltb : β → β → Bool) (t u : α × β) : Bool :=
  lta t.1 u.1 || (!(lta u.1 t.1) && ltb t.2 u.2)

end LC
