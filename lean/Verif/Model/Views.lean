import Verif.Model.HilbertSpace
import Verif.Model.LOperator
/-
Model of `loperator/compressed_state_view.hpp` and `loperator/mapped_basis_view.hpp`.

A view holds (a reference to) the adapted state vector; operations that change it return the view with the changed vector.
Compile-time rejections (`zeros_like` of views, updates of constant views) are not modelled.
-/
namespace LC
variable {ι S T V : Type _}

/-- The loop shared by the `foreach` functions of all views (compressed_state_view.hpp:171-190, mapped_basis_view.hpp:109-125,
n_fermion_sector_view.hpp:557-592, 944-984): for every pair of a basis state index and a position, read the amplitude stored at the position and
call the functor unless it is zero. If an access fails, the model reports that and drops the calls made before. -/
def viewForeach [AddCommMonoid T] [DecidableEq T] [StateVec V T] (sv : V) : List (Nat × Nat) → Except SVError (List (Nat × T))
  | [] => .ok []
  | (st, pos) :: l =>
    match StateVec.getElement sv pos with
    | .error e => .error e
    | .ok a =>
      match viewForeach sv l with
      | .error e => .error e
      | .ok r => if a = 0 then .ok r else .ok ((st, a) :: r)

/-! ### `compressed_state_view` -/

/-- Data members (compressed_state_view.hpp:38-48). -/
structure CompView (V : Type _) where
  sv : V
  masks : List Nat
  strides : List Nat
  foreachAlg : SparseForeach

namespace CompView

/-- The loop of `init` over the elementary spaces (compressed_state_view.hpp:78-101) with the variables `dim`, `mask`, `sizes`
and `masks`. -/
def initLoop [LinearOrder ι] (hs : HilbertSpace ι) : List (ESpace ι) → Nat → Nat → List Nat → List Nat →
    Except HSError (List Nat × List Nat)
  | [], dim, mask, sizes, masks => .ok (if dim ≠ 1 then (sizes ++ [dim], masks ++ [mask]) else (sizes, masks))
  | es :: l, dim, mask, sizes, masks =>
    match hs.bitRange es with
    | .error e => .error e
    | .ok r =>
      let dim := mul64 dim es.dim
      let mask := add64 mask ((sub64 (pow2 es.nBits) 1 <<< r.first.toNat) % W64)
      if es.dim ≠ pow2 es.nBits then initLoop hs l 1 0 (sizes ++ [dim]) (masks ++ [mask])
      else initLoop hs l dim mask sizes masks

/-- The strides from `stride` on (compressed_state_view.hpp:103-110). -/
def stridesFrom : Nat → List Nat → List Nat
  | _, [] => []
  | stride, size :: sizes => stride :: stridesFrom (mul64 stride size) sizes

/-- The constructor and `init` (compressed_state_view.hpp:53-57, 67-113), `make_comp_state_view`, `make_const_comp_state_view`
(compressed_state_view.hpp:192-206). -/
def make [LinearOrder ι] (sv : V) (hs : HilbertSpace ι) : Except HSError (CompView V) :=
  match initLoop hs hs.elementarySpaces 1 0 [] [] with
  | .error e => .error e
  | .ok (sizes, masks) => .ok ⟨sv, masks, stridesFrom 1 sizes, SparseForeach.make sizes⟩

/-- The loop of `map_index` (compressed_state_view.hpp:60-62) with the variable `res`. -/
def mapLoop (index : Nat) : List Nat → List Nat → Nat → Except SVError Nat
  | [], _, res => .ok res
  | _ :: _, [], _ => .error .ub
  | stride :: strides, mask :: masks, res => mapLoop index strides masks (add64 res (mul64 (extractBits index mask) stride))

/-- `map_index` (compressed_state_view.hpp:58-64). -/
def mapIndex (v : CompView V) (index : Nat) : Except SVError Nat := mapLoop index v.strides v.masks 0

/-- `get_element`, `update_add_element`, `set_zeros` and `foreach` of a view (compressed_state_view.hpp:123-129, 131-139, 158-162,
171-190). -/
instance [AddCommMonoid T] [DecidableEq T] [StateVec V T] : StateVec (CompView V) T where
  getElement v n :=
    match v.mapIndex n with
    | .error e => .error e
    | .ok k => StateVec.getElement v.sv k
  updateAdd v n a :=
    match v.mapIndex n with
    | .error e => .error e
    | .ok k =>
      match StateVec.updateAdd v.sv k a with
      | .error e => .error e
      | .ok sv => .ok { v with sv := sv }
  setZeros v := { v with sv := StateVec.setZeros v.sv }
  foreach v := viewForeach v.sv (v.foreachAlg.run fun _ ind => ind).1.zipIdx

end CompView

/-! ### `mapped_basis_view` -/

/-- Data members of `mapped_basis_view` (mapped_basis_view.hpp:41-53); `H` is the implementation of `std::unordered_map`. -/
structure MappedView (H V : Type _) where
  sv : V
  map : UMap H Nat Nat

namespace MappedView
variable {H : Type _} [HashImpl H Nat Nat]

/-- `view.map.at(n)`. -/
def mapIndex (v : MappedView H V) (n : Nat) : Except SVError Nat :=
  match v.map.find? n with
  | none => .error .outOfRange
  | some k => .ok k

/-- `get_element`, `update_add_element`, `set_zeros` and `foreach` of a view (mapped_basis_view.hpp:62-68, 70-77, 96-100,
112-125). -/
instance [AddCommMonoid T] [DecidableEq T] [StateVec V T] : StateVec (MappedView H V) T where
  getElement v n :=
    match v.mapIndex n with
    | .error e => .error e
    | .ok k => StateVec.getElement v.sv k
  updateAdd v n a :=
    match v.mapIndex n with
    | .error e => .error e
    | .ok k =>
      match StateVec.updateAdd v.sv k a with
      | .error e => .error e
      | .ok sv => .ok { v with sv := sv }
  setZeros v := { v with sv := StateVec.setZeros v.sv }
  foreach v := viewForeach v.sv v.map.items

end MappedView

/-- `basis_mapper` (mapped_basis_view.hpp:130-132). -/
structure BasisMapper (H : Type _) where
  map : UMap H Nat Nat

namespace BasisMapper
variable {H : Type _} [HashImpl H Nat Nat]

/-- Insert states one after another with the current size as the value: `map_.emplace(n, map_.size())` (mapped_basis_view.hpp:144-149,
188-190) and the assignments through `std::inserter` (mapped_basis_view.hpp:170-174), where the pair is computed before the
insertion. -/
def emplaceAll (m : UMap H Nat Nat) (l : List Nat) : UMap H Nat Nat := l.foldl (fun m n => m.emplace n m.items.length) m

/-- The constructor from a list of basis states (mapped_basis_view.hpp:167-175). -/
def ofList (l : List Nat) : BasisMapper H := ⟨emplaceAll UMap.empty l⟩

/-- `size()` (mapped_basis_view.hpp:215). -/
def size (b : BasisMapper H) : Nat := b.map.items.length

/-- `inverse_map()` (mapped_basis_view.hpp:222-234). -/
def inverseMap (b : BasisMapper H) : UMap H Nat Nat := b.map.items.foldl (fun m p => m.emplace p.2 p.1) UMap.empty

/-- `make_view`, `make_const_view` (mapped_basis_view.hpp:236-250). -/
def makeView (b : BasisMapper H) (sv : V) : MappedView H V := ⟨sv, b.map⟩

section
variable {H' : Type _} [HashImpl H' Nat S] [CommRing S] [Algebra ℝ S] [DecidableEq S]

/-- The sparse vector `|vac>` (mapped_basis_view.hpp:185-186, 209-210). -/
def vacuum (H' S : Type _) [HashImpl H' Nat S] [CommRing S] [DecidableEq S] (size : Nat) : SparseSV H' S :=
  (SparseSV.make size).set 0 1

/-- The constructor from an operator (mapped_basis_view.hpp:177-191); `vecSize` is `get_vec_size(hs)`. -/
noncomputable def ofOperator (H' : Type _) [HashImpl H' Nat S] (op : LOperator S) (vecSize : Nat) : Except SVError (BasisMapper H) :=
  match op.apply (vacuum H' S vecSize) with
  | .error e => .error e
  | .ok st => .ok ⟨emplaceAll UMap.empty (st.foreach.map Prod.fst)⟩

mutual
/-- `compositions_constructor_impl` (mapped_basis_view.hpp:134-164) for the operators `ops` from position `m` on; `n` is `N - sum_n`
(never negative). -/
noncomputable def compositions (map : UMap H Nat Nat) (st : SparseSV H' S) : List (LOperator S) → Nat → Except SVError (UMap H Nat Nat)
  | ops, n =>
    let map := if n = 0 then emplaceAll map (st.foreach.map Prod.fst) else map
    match ops with
    | [] => .ok map
    | op :: ops =>
      match compositions map st ops n with
      | .error e => .error e
      | .ok map => compositionsLoop map op ops st.copy st.zerosLike n
  termination_by ops n => (ops.length, 0, n)

/-- The loop (mapped_basis_view.hpp:158-163); `remaining` is `N - sum_n`. -/
noncomputable def compositionsLoop (map : UMap H Nat Nat) (op : LOperator S) (ops : List (LOperator S)) (fromSt toSt : SparseSV H' S) :
    Nat → Except SVError (UMap H Nat Nat)
  | 0 => .ok map
  | n + 1 =>
    match op.applyTo fromSt toSt with
    | .error e => .error e
    | .ok toSt =>
      if toSt.nNonzeros = 0 then .ok map else
      match compositions map toSt ops n with
      | .error e => .error e
      | .ok map => compositionsLoop map op ops toSt.copy toSt n
  termination_by n => (ops.length, 1, n)
end

/-- The constructor from a list of operators (mapped_basis_view.hpp:198-212). -/
noncomputable def ofOperators (H' : Type _) [HashImpl H' Nat S] (ops : List (LOperator S)) (vecSize N : Nat) :
    Except SVError (BasisMapper H) :=
  if N = 0 ∨ ops.length = 0 then .ok ⟨UMap.empty.emplace 0 0⟩ else
  match compositions UMap.empty (vacuum H' S vecSize) ops N with
  | .error e => .error e
  | .ok m => .ok ⟨m⟩

end
end BasisMapper
end LC
