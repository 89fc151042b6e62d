import Verif.Model.HilbertSpace
/-
Model of the special member functions of `hilbert_space` (hilbert_space.hpp:184-264) on a program's variables: variables live
in a memory, so that an assignment may read and write the same object.
-/
namespace LC
variable {ι : Type _} [LinearOrder ι]

/-- The variables of type `hilbert_space` of a program; `none`: no object is alive under this name. -/
abbrev SpaceMem (ι : Type _) := Nat → Option (HilbertSpace ι)

namespace SpaceMem

/-- Store into one variable. -/
def put (m : SpaceMem ι) (v : Nat) (x : Option (HilbertSpace ι)) : SpaceMem ι := Function.update m v x

/-- Modify a data member of a live object. -/
def modify (m : SpaceMem ι) (v : Nat) (f : HilbertSpace ι → HilbertSpace ι) : SpaceMem ι := m.put v ((m v).map f)

/-- `bit_range_end_ = hs.bit_range_end_;` (hilbert_space.hpp:250). -/
def assignEnd (m : SpaceMem ι) (v w : Nat) : SpaceMem ι :=
  match m w with
  | none => m
  | some src => m.modify v fun x => { x with bitRangeEnd := src.bitRangeEnd }

/-- `elementary_spaces_.clear();` (hilbert_space.hpp:251). -/
def clearSpaces (m : SpaceMem ι) (v : Nat) : SpaceMem ι := m.modify v fun x => { x with spaces := [] }

/-- The loop over `hs.elementary_spaces_` (hilbert_space.hpp:252-256); the hinted insertions at the end append. The map being
read is the one in memory at this point. If both maps are the same object the loop runs over the map just cleared, which is
empty. -/
def copySpaces (m : SpaceMem ι) (v w : Nat) : SpaceMem ι :=
  match m w with
  | none => m
  | some src => m.modify v fun x => { x with spaces := x.spaces ++ src.spaces }

/-- `dim_ = hs.dim_;` (hilbert_space.hpp:257). -/
def assignDim (m : SpaceMem ι) (v w : Nat) : SpaceMem ι :=
  match m w with
  | none => m
  | some src => m.modify v fun x => { x with dim := src.dim }

/-- `foreach_alg_ = …` (hilbert_space.hpp:258-261). -/
def assignForeach (m : SpaceMem ι) (v w : Nat) : SpaceMem ι :=
  match m w with
  | none => m
  | some src => m.modify v fun x => { x with foreachAlg := src.foreachAlg }

/-- `v = w;`, the copy assignment operator (hilbert_space.hpp:249-263), statement by statement. There is no test for
self-assignment. -/
def copyAssignOp (m : SpaceMem ι) (v w : Nat) : SpaceMem ι :=
  let m1 := m.assignEnd v w
  let m2 := m1.clearSpaces v
  let m3 := m2.copySpaces v w
  let m4 := m3.assignDim v w
  m4.assignForeach v w

/-- What the implicitly defined move operations (hilbert_space.hpp:248, 264) leave behind: `std::map` and `std::unique_ptr`
are moved from (the maps are empty, as in all major standard libraries; the standard only promises a valid state), the numbers
`bit_range_end_` and `dim_` are copied and stay. -/
def movedFrom (hs : HilbertSpace ι) : HilbertSpace ι :=
  { spaces := [], algRanges := [], bitRangeEnd := hs.bitRangeEnd, dim := hs.dim, foreachAlg := none }

/-- `hilbert_space v(std::move(w));` (hilbert_space.hpp:248) and `v = std::move(w);` for different objects
(hilbert_space.hpp:264): member-wise. The effect of a self-move is left open by the standard library; here it is no change
and nothing is claimed about it. -/
def moveTo (m : SpaceMem ι) (v w : Nat) : SpaceMem ι :=
  match m w with
  | none => m
  | some src => if v = w then m else (m.put w (some (movedFrom src))).put v (some src)

end SpaceMem

/-- One step of a program that works with variables of type `hilbert_space`. Uses of dead variables do nothing (a C++ program
cannot do that). -/
inductive SpaceOp (ι : Type _) where
  /-- `hilbert_space v;` (hilbert_space.hpp:186) -/
  | default (v : Nat)
  /-- `hilbert_space v(es1, es2, …);` (hilbert_space.hpp:189-194); the variable is not created if the constructor throws -/
  | construct (v : Nat) (l : List (ESpace ι))
  /-- `hilbert_space v(std::vector of pointers);` (hilbert_space.hpp:197-206) -/
  | constructPtrs (v : Nat) (l : List (ESpace ι))
  /-- `try { v.add(es); } catch(…) {}` (hilbert_space.hpp:286-292) -/
  | add (v : Nat) (es : ESpace ι)
  /-- `hilbert_space v(w);` (hilbert_space.hpp:235-247) -/
  | copy (v w : Nat)
  /-- `v = w;` (hilbert_space.hpp:249-263) -/
  | assign (v w : Nat)
  /-- `hilbert_space v(std::move(w));` (hilbert_space.hpp:248) -/
  | move (v w : Nat)
  /-- `v = std::move(w);` (hilbert_space.hpp:264) -/
  | moveAssign (v w : Nat)
  /-- end of the life of `v` (hilbert_space.hpp:266) -/
  | destroy (v : Nat)

/-- Result of a constructor call: the object, or no object if it has thrown. -/
def okOrDead {ε : Type _} : Except ε (HilbertSpace ι) → Option (HilbertSpace ι)
  | .ok hs => some hs
  | .error _ => none

namespace SpaceOp

/-- Execution of one step (hilbert_space.hpp:184-292, see the constructors of `SpaceOp`). -/
def run (m : SpaceMem ι) : SpaceOp ι → SpaceMem ι
  | default v => m.put v (some HilbertSpace.empty)
  | construct v l => m.put v (okOrDead (HilbertSpace.ofArgs l))
  | constructPtrs v l => m.put v (okOrDead (HilbertSpace.ofPtrs l))
  | add v es => m.modify v fun hs => (hs.add es).1
  | copy v w => match m w with
    | none => m
    | some src => m.put v (some src.copy)
  | assign v w => if (m v).isSome && (m w).isSome then m.copyAssignOp v w else m
  | move v w => m.moveTo v w
  | moveAssign v w => if (m v).isSome then m.moveTo v w else m
  | destroy v => m.put v none

/-- Execution of a program from the state without live variables. -/
def runAll (ops : List (SpaceOp ι)) : SpaceMem ι := ops.foldl run fun _ => none

/-- The exception that reaches the caller of `v.add(es)` (hilbert_space.hpp:286-292). -/
def addOutcome (m : SpaceMem ι) (v : Nat) (es : ESpace ι) : Option HSError := (m v).bind fun hs => (hs.add es).2

end SpaceOp
end LC
