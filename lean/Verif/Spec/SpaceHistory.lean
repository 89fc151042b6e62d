import Verif.Spec.HilbertSpace
import Verif.Model.SpaceHistory
/-
Specification of histories of Hilbert space variables: what a user expects each variable to be.
-/
namespace LC
variable {ι : Type _} [LinearOrder ι]

/-- What a user knows about a variable: no object, an object about which nothing is promised, or the product of the listed
elementary spaces. `algebras` tells whether the questions `has_algebra()`/`algebra_bit_range()` are covered as well. -/
inductive SpaceValue (ι : Type _) where
  | dead
  | unspecified
  | product (l : List (ESpace ι)) (algebras : Bool)
  deriving DecidableEq

/-- The elementary spaces are pairwise different and need at most 63 bits. -/
def Buildable (l : List (ESpace ι)) : Prop :=
  l.Pairwise (fun a b => a.eqOp b = false) ∧ (l.map ESpace.nBits).sum ≤ 63

instance (l : List (ESpace ι)) : Decidable (Buildable l) := inferInstanceAs (Decidable (_ ∧ _))

/-- A constructor called with these elementary spaces. -/
def SpaceValue.build (l : List (ESpace ι)) : SpaceValue ι := if Buildable l then .product l true else .dead

/-- A call of `add()`: a space that is present is refused and nothing changes, one that does not fit leaves the object in an
unspecified state (finding F16), any other one is added. -/
def SpaceValue.add (es : ESpace ι) : SpaceValue ι → SpaceValue ι
  | .product l alg =>
    if ∃ k ∈ l, k.eqOp es = true then .product l alg
    else if (es.nBits + (l.map ESpace.nBits).sum) ≤ 63 then .product (es :: l) true
    else .unspecified
  | x => x

/-- A copy; the algebras are not covered (finding F1). -/
def SpaceValue.copied : SpaceValue ι → SpaceValue ι
  | .product l _ => .product l false
  | x => x

/-- The table of what a user knows after one step. The target of a self-assignment and the source of a move are in an
unspecified state (findings F37, F38). -/
def SpaceOp.expect (t : Nat → SpaceValue ι) : SpaceOp ι → Nat → SpaceValue ι
  | .default v => Function.update t v (.product [] true)
  | .construct v l => Function.update t v (.build l)
  | .constructPtrs v l => Function.update t v (.build l)
  | .add v es => Function.update t v ((t v).add es)
  | .copy v w => if t w = .dead then t else if v = w then Function.update t v .unspecified else Function.update t v (t w).copied
  | .assign v w =>
    if t v = .dead ∨ t w = .dead then t
    else if v = w then Function.update t v .unspecified else Function.update t v (t w).copied
  | .move v w =>
    if t w = .dead then t
    else if v = w then Function.update t v .unspecified else Function.update (Function.update t w .unspecified) v (t w)
  | .moveAssign v w =>
    if t v = .dead ∨ t w = .dead then t
    else if v = w then Function.update t v .unspecified else Function.update (Function.update t w .unspecified) v (t w)
  | .destroy v => Function.update t v .dead

/-- The same for a program. -/
def SpaceOp.expectAll (ops : List (SpaceOp ι)) : Nat → SpaceValue ι := ops.foldl SpaceOp.expect fun _ => .dead

/-- All elementary spaces mentioned by a step meet their contract. -/
def SpaceOp.Wf : SpaceOp ι → Prop
  | .construct _ l => ∀ es ∈ l, es.Wf
  | .constructPtrs _ l => ∀ es ∈ l, es.Wf
  | .add _ es => es.Wf
  | _ => True

/-- Two Hilbert spaces answer all questions in the same way; the questions about algebras count only if `algebras`. -/
structure SameAnswers (a b : HilbertSpace ι) (algebras : Bool) : Prop where
  dim : a.dim = b.dim
  vecSize : a.vecSize = b.vecSize
  totalNBits : a.totalNBits = b.totalNBits
  isSparse : a.isSparse = b.isSparse
  foreach : a.foreach = b.foreach
  elementarySpaces : a.elementarySpaces = b.elementarySpaces
  size : a.size = b.size
  has : ∀ es, a.has es = b.has es
  index : ∀ es, a.index es = b.index es
  dimOf : ∀ es, a.dimOf es = b.dimOf es
  bitRange : ∀ es, a.bitRange es = b.bitRange es
  basisStateIndex : ∀ es n, a.basisStateIndex es n = b.basisStateIndex es n
  eqLeft : ∀ c, a.eqOp c = b.eqOp c
  eqRight : ∀ c : HilbertSpace ι, c.eqOp a = c.eqOp b
  hasAlgebra : algebras = true → ∀ i, a.hasAlgebra i = b.hasAlgebra i
  algebraBitRange : algebras = true → ∀ i, a.algebraBitRange i = b.algebraBitRange i

end LC
