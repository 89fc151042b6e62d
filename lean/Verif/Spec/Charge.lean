import Mathlib.Algebra.BigOperators.Group.List.Basic
import Mathlib.Algebra.BigOperators.Group.Finset.Basic
import Verif.Model.Expression
import Verif.Spec.Fock
/-
Charges: additive quantum numbers of generators, monomials and expressions.
-/
namespace LC
variable {ι S A : Type _} [LinearOrder ι] [AddCommGroup A]

/-- What every degree of freedom contributes to an additive quantum number with values in `A`: the charge of a fermion or a boson
in mode `i`, and the charge that goes with raising the spin projection of a spin by one. For example, the total number of particles
has `fermion = boson = 1`, `spin = 0`; the projection of the total spin has `spin = 1`; the fermion parity takes values in `ℤ/2`; a
single mode is counted by the indicator function of its index. -/
structure Charge (ι A : Type _) where
  fermion : ι → A
  boson : ι → A
  spin : Nat → ι → A

/-- By how much a generator changes the quantum number. -/
def Charge.gen (w : Charge ι A) : Gen ι → A
  | .fermion d i => if d then w.fermion i else -w.fermion i
  | .boson d i => if d then w.boson i else -w.boson i
  | .spin m .plus i => w.spin m i
  | .spin m .minus i => -w.spin m i
  | .spin _ .z _ => 0

/-- By how much a product of generators changes the quantum number. -/
def Charge.mon (w : Charge ι A) (m : List (Gen ι)) : A := (m.map w.gen).sum

/-- All terms of an expression change the quantum number by `d`. -/
def Charge.Homogeneous [CommRing S] (w : Charge ι A) (d : A) (e : Expr (Gen ι) S) : Prop := ∀ p ∈ e.terms, w.mon p.1 = d

/-- The charge of one particle in a mode, or of a unit of the spin projection. -/
def Charge.mode (w : Charge ι A) : Mode ι → A
  | .fermion i => w.fermion i
  | .boson i => w.boson i
  | .spin m i => w.spin m i

/-- The value of the quantum number in a basis state, as far as it comes from the modes in `ms`: the sum over the modes of occupation
number times charge. (For a spin the occupation number is `m + S`, so that the value differs from the sum of the projections by a constant.) -/
def Charge.state (w : Charge ι A) (ms : Finset (Mode ι)) (hs : HilbertSpace ι) (s : Nat) : A := ∑ k ∈ ms, conf hs s k • w.mode k

end LC
