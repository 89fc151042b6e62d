import Verif.Model.SectorView
/-!
Copies of `n_fermion_multisector_view` (n_fermion_sector_view.hpp:820-893). The class has the implicitly defined copy and move
constructors (and no assignment, because of its reference members). Its member `unranking` holds a *reference* to a vector of sector
parameters (n_fermion_sector_view.hpp:717), bound by the constructor to the member `sector_params` of the same view
(n_fermion_sector_view.hpp:858). In the model of a single view (Model/SectorView.lean) that reference is a value; here it is an address.
-/
namespace LC
variable {V R : Type _}

/-- A view in memory (n_fermion_sector_view.hpp:820-844). `view` holds the members, except that `view.unranking.params` is not used:
`ref` is the address of the view whose `sector_params` the reference `unranking.sector_params` is bound to. -/
structure ViewObj (V R : Type _) where
  view : MultiView V R
  ref : Nat

/-- The memory: the views created so far; `none` for those whose lifetime has ended. Simplification: addresses are not used again. -/
abbrev ViewMem (V R : Type _) := List (Option (ViewObj V R))

/-- What a program does with views: it creates one by the constructor (n_fermion_sector_view.hpp:849-864; `v` is the value made by
`MultiView.make`), by the implicit copy constructor or the implicit move constructor, ends the lifetime of one, or runs `foreach` on
it. -/
inductive ViewOp (V R : Type _) where
  | construct (v : MultiView V R)
  | copy (a : Nat)
  | move (a : Nat)
  | destroy (a : Nat)
  /-- `foreach(view, f)`, left by an exception thrown by `f` after `n` calls of `unranking.next()` (or not at all if `n` is large). -/
  | iterate (a n : Nat)

/-- A view after it has been moved from: its `std::vector`s are empty (n_fermion_sector_view.hpp:826-844, 720, 733). Simplification:
`state_vector` is kept; it is not used below. -/
def ViewObj.movedFrom (o : ViewObj V R) : ViewObj V R :=
  { o with view := { o.view with
      params := [], ranking := [], strides := [], unranking := { o.view.unranking with gens := [], part := [] } } }

/-- The generator as `foreach` sees it: `sector_params` is read through the reference (n_fermion_sector_view.hpp:717, 769); `none` if
the vector does not exist any more (undefined behaviour; if there are no sectors the code does not access it). -/
def ViewObj.gen (mem : ViewMem V R) (o : ViewObj V R) : Option MultiGen :=
  match mem[o.ref]? with
  | some (some src) => some { o.view.unranking with params := src.view.params }
  | _ => none

/-- At most `n` calls of `next()` in the loop of `foreach` (n_fermion_sector_view.hpp:959-960). -/
def MultiGen.advance : Nat → MultiGen → Option MultiGen
  | 0, g => some g
  | n + 1, g =>
    if g.done then some g else
    match g.next with
    | none => none
    | some (_, g) => advance n g

/-- `foreach` of the view `o` up to an exception (n_fermion_sector_view.hpp:944-984): the view afterwards. -/
def ViewObj.iterate (mem : ViewMem V R) (n : Nat) (o : ViewObj V R) : Option (ViewObj V R) :=
  if o.view.params.length = 0 ∧ o.view.mNon = 0 then some o else
  match o.gen mem with
  | none => none
  | some g =>
    match g.init.advance n with
    | none => none
    | some g => some { o with view := { o.view with unranking := g } }

/-- The memory after an operation; `none` for undefined behaviour. The implicit constructors (n_fermion_sector_view.hpp:820-893) copy or
move all members and bind the reference of the new object to the same vector. -/
def ViewOp.step (mem : ViewMem V R) : ViewOp V R → Option (ViewMem V R)
  | .construct v => some (mem ++ [some ⟨v, mem.length⟩])
  | .copy a =>
    match mem[a]? with
    | some (some o) => some (mem ++ [some o])
    | _ => none
  | .move a =>
    match mem[a]? with
    | some (some o) => some (mem.set a (some o.movedFrom) ++ [some o])
    | _ => none
  | .destroy a => some (mem.set a none)
  | .iterate a n =>
    match mem[a]? with
    | some (some o) => (o.iterate mem n).map fun o => mem.set a (some o)
    | _ => none

/-- The memory after a program (last operation first), in the sense of `ViewOp.step` (n_fermion_sector_view.hpp:820-893). -/
def runViews : List (ViewOp V R) → Option (ViewMem V R)
  | [] => some []
  | op :: past =>
    match runViews past with
    | none => none
    | some mem => op.step mem

/-- The basis states visited by `foreach` of the view at address `a` (n_fermion_sector_view.hpp:953-962); `none` for undefined behaviour. -/
def visitAt (mem : ViewMem V R) (a : Nat) : Option (List Nat) :=
  match mem[a]? with
  | some (some o) =>
    if o.view.params.length = 0 ∧ o.view.mNon = 0 then some [] else
    match o.gen mem with
    | none => none
    | some g => multiStates g o.view.mNon o.view.nonMask
  | _ => none

/-- `map_index` of the view at address `a` (n_fermion_sector_view.hpp:866-877). -/
def mapIndexAt [RankingAlg R] (mem : ViewMem V R) (a index : Nat) : Except SVError Nat :=
  match mem[a]? with
  | some (some o) => o.view.mapIndex index
  | _ => .error .ub

end LC
