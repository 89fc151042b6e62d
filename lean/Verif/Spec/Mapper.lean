import Verif.Spec.LOperator
import Verif.Model.StateVector
/-
What a basis mapper should contain.
-/
namespace LC
variable {ι S : Type _} [LinearOrder ι] [CommRing S] [Algebra ℝ S]

/-- A map numbers the states of a set: its keys are the elements of the set, its values are 0, …, size-1, each taken once. The
list `d` gives the states by number. -/
def Numbers {H : Type _} (m : UMap H Nat Nat) (d : List Nat) (s : Set Nat) : Prop :=
  d.Nodup ∧ (∀ n, n ∈ d ↔ n ∈ s) ∧ m.items.length = d.length ∧ ∀ n i, m.find? n = some i ↔ d[i]? = some n

/-- Amplitudes of the vacuum state `|0>`. -/
def vacAmp (k : Nat) : S := if k = 0 then 1 else 0

/-- Amplitudes of `e_M^{n_M} … e_2^{n_2} e_1^{n_1}|ψ>` for the list of pairs `(e_i, n_i)`. -/
noncomputable def powers (hs : HilbertSpace ι) : List (Expr (Gen ι) S × Nat) → (Nat → S) → Nat → S
  | [], ψ => ψ
  | (e, n) :: l, ψ => powers hs l ((opApply hs e)^[n] ψ)

/-- Basis states contributing to some `e_M^{n_M} … e_1^{n_1}|ψ>` with `n_1 + … + n_M = N`. -/
def composed (hs : HilbertSpace ι) (es : List (Expr (Gen ι) S)) (N : Nat) (ψ : Nat → S) : Set Nat :=
  {t | ∃ ns : List Nat, ns.length = es.length ∧ ns.sum = N ∧ powers hs (es.zip ns) ψ t ≠ 0}

/-- The documented set: basis states contributing to some `O_1^{n_1} O_2^{n_2} … O_M^{n_M}|0>` with `n_1 + … + n_M = N`. -/
def documented (hs : HilbertSpace ι) (es : List (Expr (Gen ι) S)) (N : Nat) : Set Nat :=
  {t | ∃ ns : List Nat, ns.length = es.length ∧ ns.sum = N ∧ powers hs (es.zip ns).reverse vacAmp t ≠ 0}

/-- Two operators commute up to a non-zero factor. -/
def CommuteUpTo (hs : HilbertSpace ι) (a b : Expr (Gen ι) S) : Prop :=
  ∃ x : S, x ≠ 0 ∧ ∀ ψ : Nat → S, opApply hs a (opApply hs b ψ) = fun k => x * opApply hs b (opApply hs a ψ) k

end LC
