import Verif.Model.Expression
import Verif.Model.Generator
import Verif.Model.DynIndices
/-
Stream output: `to_string` of generators, `operator<<` of monomials and expressions. A text is a list of characters.
-/
namespace LC

/-- What is sent to the stream. -/
abbrev Text := List Char

/-- `std::to_string(int)` of a non-negative number: decimal digits. -/
def natText (n : Nat) : Text := Nat.toDigits 10 n

/-- `std::to_string(int)`. -/
def intText : Int → Text
  | .ofNat n => natText n
  | .negSucc n => '-' :: natText (n + 1)

/-- `tuple_to_string` (utility.hpp:134-158): the elements, separated by commas. -/
def tupleText {α : Type _} (el : α → Text) : List α → Text
  | [] => []
  | [x] => el x
  | x :: y :: l => el x ++ [','] ++ tupleText el (y :: l)

/-- `to_string_impl` of an alternative of `dyn_indices` (utility.hpp:125-132, dyn_indices.hpp:113): strings are copied verbatim. -/
def DynIndex.text : DynIndex Int String → Text
  | .int i => intText i
  | .str s => s.toList

/-- `to_string(dyn_indices)` (dyn_indices.hpp:109-118); the same loop as in `tuple_to_string`. -/
def DynIndices.text (ind : List (DynIndex Int String)) : Text := tupleText DynIndex.text ind

/-- `spin_component` as printed (generator_spin.hpp:157-161). -/
def SpinComp.text : SpinComp → Text
  | .plus => ['+']
  | .minus => ['-']
  | .z => ['z']

/-- The spin as printed (generator_spin.hpp:150-155). -/
def multText (n : Nat) : Text :=
  if n ≠ 2 then
    if n % 2 = 0 then intText ((n : Int) - 1) ++ ['/', '2'] else intText (((n : Int) - 1) / 2)
  else []

/-- `to_string()` of the predefined generators (generator_fermion.hpp:85-90, generator_boson.hpp:74-79, generator_spin.hpp:147-165);
`ix` is `tuple_to_string(indices())`. -/
def Gen.text {ι : Type _} (ix : ι → Text) : Gen ι → Text
  | .fermion dagger i => ['C'] ++ (if dagger then ['+'] else []) ++ ['('] ++ ix i ++ [')']
  | .boson dagger i => ['A'] ++ (if dagger then ['+'] else []) ++ ['('] ++ ix i ++ [')']
  | .spin n c i => ['S'] ++ multText n ++ c.text ++ ['('] ++ ix i ++ [')']

section
variable {G S : Type _} [GenOps G]

/-- `next_it == m.end() || *next_it != *it` (monomial.hpp:191): the run of equal generators ends here. -/
def endsRun (g : G) : List G → Bool
  | [] => true
  | h :: _ => !(GenOps.eq h g)

/-- The loop of `operator<<(ostream, monomial)` (monomial.hpp:186-199) with the variable `power`; `gt` is `to_string()`. The iterator
`next_it`, which may be incremented past the end, is not modelled. -/
def monLoop (gt : G → Text) : List G → Nat → Text
  | [], _ => []
  | g :: l, power =>
    if endsRun g l then
      (if power > 1 then ['['] else []) ++ gt g ++ (if power > 1 then [']', '^'] ++ natText power else []) ++ monLoop gt l 1
    else monLoop gt l (power + 1)

/-- `operator<<(ostream, monomial)` (monomial.hpp:186-199). -/
def monText (gt : G → Text) (m : List G) : Text := monLoop gt m 1

/-- The loop of `operator<<(ostream, expression)` (expression.hpp:427-432) with the variable `print_plus`; `cs` prints coefficients. -/
def termsText (gt : G → Text) (cs : S → Text) : Bool → List (List G × S) → Text
  | _, [] => []
  | plus, (m, c) :: l =>
    (if plus then [' ', '+', ' '] else []) ++ cs c ++ (if m.isEmpty then [] else ['*']) ++ monText gt m ++ termsText gt cs true l

/-- `operator<<(ostream, expression)` (expression.hpp:424-436). -/
def Expr.text [Zero S] (gt : G → Text) (cs : S → Text) (e : Expr G S) : Text :=
  if e.terms.isEmpty then cs 0 else termsText gt cs false e.terms

end
end LC
