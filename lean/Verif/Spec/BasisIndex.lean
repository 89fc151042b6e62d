import Verif.Model.BasisIndex
/-
How user code composes the index of a product basis state: `hs.basis_state_index(es1, n1) + hs.basis_state_index(es2, n2) + …`.
-/
namespace LC
variable {ι : Type _} [LinearOrder ι]

/-- The sum of `hs.basis_state_index(es, n)` over the pairs `(es, n)`, in `sv_index_type` (arithmetic modulo 2⁶⁴). -/
def sumIndex (hs : HilbertSpace ι) : List (ESpace ι × Nat) → Except HSError Nat
  | [] => .ok 0
  | (es, n) :: l => do
    let x ← hs.basisStateIndex es n
    let y ← sumIndex hs l
    return (x + y) % 2 ^ 64

/-- No elementary space is named twice. -/
def NamedOnce (l : List (ESpace ι × Nat)) : Prop := l.Pairwise fun p q => p.1.eqOp q.1 = false

/-- Every named space belongs to `hs`, and the numbers are below the dimensions. -/
def NumbersFit (hs : HilbertSpace ι) (l : List (ESpace ι × Nat)) : Prop := ∀ p ∈ l, ∃ d, hs.dimOf p.1 = .ok d ∧ p.2 < d

/-- Every elementary space of `hs` is named. -/
def NamesAll (hs : HilbertSpace ι) (l : List (ESpace ι × Nat)) : Prop := ∀ es ∈ hs.elementarySpaces, ∃ p ∈ l, p.1.eqOp es = true

end LC
