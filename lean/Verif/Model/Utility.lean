/-
Model of `include/libcommute/utility.hpp` (the parts used by the expression layer).
-/
namespace LC

/-- `var_number` (utility.hpp:180-247): tagged union of an `int`, a pair of `int`s (a fraction) and a
`double`.  Simplification: `int` is unbounded `Int`; a finite `double` is a rational number, infinities and NaN are left
out (no predefined algebra produces the `real` alternative). -/
inductive VarNumber where
  | integer (i : Int)
  | rational (num den : Int)
  | real (x : Rat)
  deriving DecidableEq, Repr

namespace VarNumber

/-- `var_number::is_zero()` (utility.hpp:208-215). -/
def isZero : VarNumber → Bool
  | integer i => i == 0
  | rational n _ => n == 0
  | real x => x == 0

/-- `operator==(var_number, var_number)` (utility.hpp:195-203): different number types are never equal. -/
def eq : VarNumber → VarNumber → Bool
  | integer i, integer j => i == j
  | rational a b, rational c d => a == c && b == d
  | real x, real y => x == y
  | _, _ => false

end VarNumber

/-- `linear_function<T>` (utility.hpp:253-318): constant term and list of (basis object, coefficient). -/
structure LinFun (G : Type _) where
  const : VarNumber
  terms : List (G × VarNumber)
  deriving DecidableEq, Repr

namespace LinFun
variable {G : Type _}

/-- Default constructor (utility.hpp:261, 304-306): constant term 0, no terms. -/
def zero : LinFun G := ⟨.integer 0, []⟩

/-- `linear_function::vanishing()` (utility.hpp:301). -/
def vanishing (f : LinFun G) : Bool := f.const.isZero && f.terms.isEmpty

end LinFun
end LC
