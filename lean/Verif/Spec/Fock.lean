import Mathlib.Analysis.Real.Sqrt
import Mathlib.Data.Set.Card
import Mathlib.Data.ENat.Basic
import Verif.Spec.HilbertSpace
/-
The textbook action of single fermionic, bosonic and spin operators on occupation number states. Nothing here depends on
the model of the monomial actions.
-/
namespace LC
variable {ι : Type _} [LinearOrder ι]

/-- Degrees of freedom: fermionic and bosonic modes, and spins with their multiplicity `2S+1`. -/
inductive Mode (ι : Type _) where
  | fermion (i : ι)
  | boson (i : ι)
  | spin (mult : Nat) (i : ι)
  deriving DecidableEq

/-- An occupation number state: the number of particles in every mode; for a spin it is `m + S = 0, …, 2S`. -/
abbrev Config (ι : Type _) := Mode ι → Nat

/-- Jordan–Wigner: the number of occupied fermionic modes that precede mode `i`. -/
noncomputable def jw (n : Config ι) (i : ι) : Nat := Set.ncard {j | j < i ∧ n (.fermion j) ≠ 0}

/-- The spin quantum number `S` of multiplicity `2S+1 = mult`. -/
noncomputable def spinS (mult : Nat) : ℝ := ((mult : ℝ) - 1) / 2

/-- Action of a generator on the basis state `|n⟩`: `none` if the result is the zero vector, otherwise the resulting basis
state and its amplitude. `bd i` is the number of states kept for the bosonic mode `i` (`⊤` if it is not truncated):
`c†|0⟩ = ±|1⟩`, `c|1⟩ = ±|0⟩`, `a†|n⟩ = √(n+1)|n+1⟩`, `a|n⟩ = √n|n-1⟩`,
`S_±|m⟩ = √(S(S+1) - m(m±1))|m±1⟩`, `S_z|m⟩ = m|m⟩`. -/
noncomputable def genAct (bd : ι → ℕ∞) : Gen ι → Config ι → Option (Config ι × ℝ)
  | .fermion true i, n =>
    if n (.fermion i) = 0 then some (Function.update n (.fermion i) 1, (-1) ^ jw n i) else none
  | .fermion false i, n =>
    if n (.fermion i) = 1 then some (Function.update n (.fermion i) 0, (-1) ^ jw n i) else none
  | .boson true i, n =>
    if ((n (.boson i) + 1 : Nat) : ℕ∞) < bd i then
      some (Function.update n (.boson i) (n (.boson i) + 1), Real.sqrt (n (.boson i) + 1)) else none
  | .boson false i, n =>
    if n (.boson i) = 0 then none
    else some (Function.update n (.boson i) (n (.boson i) - 1), Real.sqrt (n (.boson i)))
  | .spin mult .plus i, n =>
    let m : ℝ := n (.spin mult i) - spinS mult
    if n (.spin mult i) + 1 < mult then
      some (Function.update n (.spin mult i) (n (.spin mult i) + 1), Real.sqrt (spinS mult * (spinS mult + 1) - m * (m + 1)))
    else none
  | .spin mult .minus i, n =>
    let m : ℝ := n (.spin mult i) - spinS mult
    if n (.spin mult i) = 0 then none
    else some (Function.update n (.spin mult i) (n (.spin mult i) - 1), Real.sqrt (spinS mult * (spinS mult + 1) - m * (m - 1)))
  | .spin mult .z i, n =>
    let m : ℝ := n (.spin mult i) - spinS mult
    if m = 0 then none else some (n, m)

/-- Action of a product of generators: the rightmost one acts first. -/
noncomputable def monAct (bd : ι → ℕ∞) : List (Gen ι) → Config ι → Option (Config ι × ℝ)
  | [], n => some (n, 1)
  | g :: m, n => (monAct bd m n).bind fun p => (genAct bd g p.1).map fun q => (q.1, q.2 * p.2)

/-! ### The occupation numbers encoded in a basis state index -/

/-- The elementary space of a mode (for bosons the dimension does not matter in look-ups). -/
def Mode.space : Mode ι → ESpace ι
  | .fermion i => ESpace.fermion i
  | .boson i => ESpace.boson 1 i
  | .spin m i => ESpace.spin m i

/-- The number of the state of the elementary space `es` that a basis state index stands for: the contents of its bit
field; 0 if `es` is not in `hs`. -/
def occ (hs : HilbertSpace ι) (s : Nat) (es : ESpace ι) : Nat :=
  match hs.bitRange es with
  | .ok r => s / 2 ^ r.first.toNat % 2 ^ (r.second - r.first + 1).toNat
  | .error _ => 0

/-- The occupation numbers a basis state index stands for. -/
def conf (hs : HilbertSpace ι) (s : Nat) : Config ι := fun k => occ hs s k.space

/-- Elementary spaces of user-defined algebras. -/
def ESpace.Foreign (es : ESpace ι) : Prop := es.algebraId ≠ -3 ∧ es.algebraId ≠ -2 ∧ es.algebraId ≠ -1

/-- The number of states of the bosonic modes in `hs`. -/
def bosonDims (hs : HilbertSpace ι) (i : ι) : ℕ∞ :=
  match hs.dimOf (ESpace.boson 1 i) with
  | .ok d => (d : ℕ∞)
  | .error _ => 0

/-- The elementary spaces of the three predefined algebras are objects of the predefined classes (other algebra IDs are
unrestricted); multiplicities of spins have the type `int`. -/
def PredefinedSpaces (hs : HilbertSpace ι) : Prop :=
  ∀ es ∈ hs.elementarySpaces, (es.algebraId = -3 → ∃ i, es = ESpace.fermion i) ∧
    (es.algebraId = -2 → ∃ d i, es = ESpace.boson d i) ∧ (es.algebraId = -1 → ∃ m i, m < 2 ^ 31 ∧ es = ESpace.spin m i)

/-- The mode a generator acts on. -/
def Gen.mode : Gen ι → Mode ι
  | .fermion _ i => .fermion i
  | .boson _ i => .boson i
  | .spin m _ i => .spin m i

/-- Fermionic monomials as they are stored in expressions: creation operators with increasing indices followed by
annihilation operators with decreasing indices. -/
def CanonicalFermions (m : List (Gen ι)) : Prop :=
  ∃ p q : List ι, m = p.map (Gen.fermion true) ++ q.map (Gen.fermion false) ∧ p.Pairwise (· < ·) ∧ q.Pairwise (· > ·)

/-- Monomials as they are stored in expressions, as far as the actions depend on it: canonical fermions, then bosons, then
spins. -/
def CanonicalMonomial (m : List (Gen ι)) : Prop :=
  ∃ f b s, m = f ++ b ++ s ∧ CanonicalFermions f ∧ (∀ g ∈ b, g.algebraId = -2) ∧ (∀ g ∈ s, g.algebraId = -1)

end LC
