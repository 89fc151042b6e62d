import Verif.Model.FloatAction
import Verif.Model.Views
import Verif.Model.SectorView
/-
Model of `mapped_basis_view.hpp`, `compressed_state_view.hpp` and the views of `n_fermion_sector_view.hpp` of vectors whose
amplitudes are given only by their operations (floating-point numbers). The translation of basis states to positions does not
look at amplitudes; it is the one modelled in `Model/Views`, `Model/SectorView`.
-/
namespace LC
variable {ι H R V T X : Type _}

/-- The loop shared by the `foreach` functions of all views (compressed_state_view.hpp:171-190, mapped_basis_view.hpp:109-125,
n_fermion_sector_view.hpp:557-592, 944-984). -/
def Flo.viewForeach [AmpOps T] [StateVec V T] (sv : V) : List (Nat × Nat) → Except SVError (List (Nat × T))
  | [] => .ok []
  | (st, pos) :: l =>
    match StateVec.getElement sv pos with
    | .error e => .error e
    | .ok a =>
      match Flo.viewForeach sv l with
      | .error e => .error e
      | .ok r => if AmpOps.isZero a then .ok r else .ok ((st, a) :: r)

/-- What a view is made of: the adapted vector, the position of a basis state, the pairs of a basis state and a position in the
order of iteration. -/
class Positions (X : Type _) (V : outParam (Type _)) where
  base : X → V
  put : X → V → X
  idx : X → Nat → Except SVError Nat
  order : X → Except SVError (List (Nat × Nat))

/-- compressed_state_view.hpp:58-64, 171-190. -/
instance : Positions (CompView V) V where
  base v := v.sv
  put v sv := { v with sv := sv }
  idx v n := v.mapIndex n
  order v := .ok (v.foreachAlg.run fun _ ind => ind).1.zipIdx

/-- mapped_basis_view.hpp:62-77, 109-125. -/
instance [HashImpl H Nat Nat] : Positions (MappedView H V) V where
  base v := v.sv
  put v sv := { v with sv := sv }
  idx v n := v.mapIndex n
  order v := .ok v.map.items

/-- n_fermion_sector_view.hpp:501-506, 557-592. -/
instance [RankingAlg R] : Positions (SectorView V R) V where
  base v := v.sv
  put v sv := { v with sv := sv }
  idx v n := v.mapIndex n
  order v := match v.visit with | none => .error .ub | some l => .ok l.zipIdx

/-- n_fermion_sector_view.hpp:866-877, 944-984. -/
instance [RankingAlg R] : Positions (MultiView V R) V where
  base v := v.sv
  put v sv := { v with sv := sv }
  idx v n := v.mapIndex n
  order v := match v.visit with | none => .error .ub | some l => .ok l.zipIdx

/-- A view of a vector of floating-point numbers. -/
structure FloView (X : Type _) where
  view : X

/-- `get_element`, `update_add_element`, `set_zeros` and `foreach` of a view (compressed_state_view.hpp:123-139, 158-162, 171-190,
mapped_basis_view.hpp:62-77, 96-100, 112-125, n_fermion_sector_view.hpp:518-592, 905-984). -/
instance [Positions X V] [AmpOps T] [StateVec V T] : StateVec (FloView X) T where
  getElement x n :=
    match Positions.idx x.view n with
    | .error e => .error e
    | .ok k => StateVec.getElement (Positions.base x.view) k
  updateAdd x n a :=
    match Positions.idx x.view n with
    | .error e => .error e
    | .ok k =>
      match StateVec.updateAdd (Positions.base x.view) k a with
      | .error e => .error e
      | .ok sv => .ok ⟨Positions.put x.view sv⟩
  setZeros x := ⟨Positions.put x.view (StateVec.setZeros (Positions.base x.view))⟩
  foreach x :=
    match Positions.order x.view with
    | .error e => .error e
    | .ok l => Flo.viewForeach (Positions.base x.view) l

end LC
