import Verif.Model.Eigen
/-
Eigen objects in memory.
-/
namespace LC

/-- The object lies inside a memory of `n` elements, and its elements are different. -/
structure EigenView.Inside (v : EigenView) (n : Nat) : Prop where
  inside : ∀ i < v.size, v.addr i < n
  distinct : ∀ i < v.size, ∀ j < v.size, v.addr i = v.addr j → i = j

/-- The objects have no common elements. -/
def EigenView.Apart (v w : EigenView) : Prop := ∀ i < v.size, ∀ j < w.size, v.addr i ≠ w.addr j

/-- The element `n` of an object in the memory `mem`; zero outside. -/
def EigenView.amp {T : Type _} [Zero T] (v : EigenView) (mem : List T) (n : Nat) : T :=
  if n < v.size then mem.getD (v.addr n) 0 else 0

/-- `mem'` differs from `mem` at most in the elements of `v`. -/
def EigenView.OnlyHere {T : Type _} (v : EigenView) (mem mem' : List T) : Prop :=
  mem'.length = mem.length ∧ ∀ p, (∀ i < v.size, p ≠ v.addr i) → mem'[p]? = mem[p]?

end LC
