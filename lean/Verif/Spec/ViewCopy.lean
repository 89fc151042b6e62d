import Verif.Model.ViewCopy
/-! Where the views of a program come from. A program is a list of operations, the last one first. -/
namespace LC
namespace ViewOp
variable {V R : Type _}

/-- The number of views a program has created; they have the addresses `0, 1, …`. -/
def count : List (ViewOp V R) → Nat
  | [] => 0
  | .construct _ :: past => count past + 1
  | .copy _ :: past => count past + 1
  | .move _ :: past => count past + 1
  | .destroy _ :: past => count past
  | .iterate _ _ :: past => count past

/-- The address of the view made by the constructor from which the view `a` has been obtained by copying and moving (`a` itself, if it
has been made by the constructor). -/
def origin : List (ViewOp V R) → Nat → Option Nat
  | [], _ => none
  | .construct _ :: past, a => if a = count past then some a else origin past a
  | .copy b :: past, a => if a = count past then origin past b else origin past a
  | .move b :: past, a => if a = count past then origin past b else origin past a
  | .destroy _ :: past, a => origin past a
  | .iterate _ _ :: past, a => origin past a

/-- The view made by the constructor at address `a`. -/
def constructedAt : List (ViewOp V R) → Nat → Option (MultiView V R)
  | [], _ => none
  | .construct v :: past, a => if a = count past then some v else constructedAt past a
  | .copy _ :: past, a => constructedAt past a
  | .move _ :: past, a => constructedAt past a
  | .destroy _ :: past, a => constructedAt past a
  | .iterate _ _ :: past, a => constructedAt past a

/-- The view `a` has been moved from, or has been copied or moved from such a view. -/
def Moved : List (ViewOp V R) → Nat → Prop
  | [], _ => False
  | .construct _ :: past, a => a ≠ count past ∧ Moved past a
  | .copy b :: past, a => if a = count past then Moved past b else Moved past a
  | .move b :: past, a => if a = count past then Moved past b else a = b ∨ Moved past a
  | .destroy _ :: past, a => Moved past a
  | .iterate _ _ :: past, a => Moved past a

end ViewOp
end LC
