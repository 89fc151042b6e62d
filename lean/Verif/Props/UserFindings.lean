import Verif.Props.UserAlgebra
/-
C72: the documented contract of `swap_with`, `simplify_prod` and `reduce_power` does not guarantee that stored expressions are
canonical. Four user-defined algebras that keep to the documentation, and what the library makes of them.
-/
set_option linter.unusedSectionVars false
namespace LC
open Expr

/-- Three generators `x 0 < x 1 < x 2`; the type of the examples below fixes the algebra. -/
structure Toy (name : String) where
  index : Nat
  deriving DecidableEq

/-- Commuting generators; `swap_with` writes the (superfluous) term `0 * g`. -/
instance : UserGen (Toy "zero term") where
  algebraId _ := 0
  equal := UserGen.defaultEqual Toy.index
  less := UserGen.defaultLess Toy.index
  greater := UserGen.defaultGreater Toy.index
  swapWith g _ := (.integer 1, ⟨.integer 0, [(g, .integer 0)]⟩)

/-- `x_0 = c†`, `x_1 = x_2 = c` for a fermion `c`; `x_2 x_1 = 0` is announced with the constant `0.0`. -/
instance : UserGen (Toy "real zero") where
  algebraId _ := 0
  equal := UserGen.defaultEqual Toy.index
  less := UserGen.defaultLess Toy.index
  greater := UserGen.defaultGreater Toy.index
  swapWith g h :=
    if g.index = 2 ∧ h.index = 1 then (.real 0, ⟨.integer 0, []⟩) else (.integer (-1), ⟨.integer 1, []⟩)

/-- Commuting generators with `x_0 x_2 = 1`, `x_1³ = 1`. -/
instance : UserGen (Toy "powers") where
  algebraId _ := 0
  equal := UserGen.defaultEqual Toy.index
  less := UserGen.defaultLess Toy.index
  greater := UserGen.defaultGreater Toy.index
  swapWith _ _ := (.integer 1, ⟨.integer 0, []⟩)
  simplifyProd g h := if g.index = 0 ∧ h.index = 2 then some ⟨.integer 1, []⟩ else none
  reducePower g p := if g.index = 1 ∧ p = 3 then some ⟨.integer 1, []⟩ else none

/-- Quaternions: `i = x_0`, `j = x_1`, `k = x_2`, `g g = -1`, `i j = k`, `j k = i`, `i k = -j`, different units anticommute. -/
instance : UserGen (Toy "quaternions") where
  algebraId _ := 0
  equal := UserGen.defaultEqual Toy.index
  less := UserGen.defaultLess Toy.index
  greater := UserGen.defaultGreater Toy.index
  swapWith _ _ := (.integer (-1), ⟨.integer 0, []⟩)
  simplifyProd g h :=
    if g.index = h.index then some ⟨.integer (-1), []⟩
    else if g.index = 0 ∧ h.index = 1 then some ⟨.integer 0, [(⟨2⟩, .integer 1)]⟩
    else if g.index = 1 ∧ h.index = 2 then some ⟨.integer 0, [(⟨0⟩, .integer 1)]⟩
    else if g.index = 0 ∧ h.index = 2 then some ⟨.integer 0, [(⟨1⟩, .integer (-1))]⟩
    else none

/-- A generator as an expression. -/
def toy (name : String) [UserGen (Toy name)] (i : Nat) : Expr (AllGen Nat (Toy name)) ℚ := .ofMonomial 1 [.user ⟨i⟩]

/-- **C72 (finding F24)** If `swap_with` writes a term `0 * g`, the product of two generators contains the monomial `g` with
coefficient zero; although the generators commute, their commutator is then not the zero expression. -/
theorem C72_F24_zero_coefficient_stored :
    ((toy "zero term" 1 * toy "zero term" 0).terms.any fun p => decide (p.2 = 0)) = true ∧
    (toy "zero term" 1 * toy "zero term" 0).eqOp (toy "zero term" 0 * toy "zero term" 1) = false := by
  decide +kernel

/-- **C72 (finding F28)** A constant `0.0` returned by `swap_with` is not recognised as zero: the product `x_2 x_1 x_0`, which is 0,
is stored as `0 * x_1 + 0 * x_2`. -/
theorem C72_F28_real_zero_constant :
    (toy "real zero" 2 * toy "real zero" 1).eqOp 0 = true ∧
    (Expr.ofMonomial (1 : ℚ) [.user (⟨2⟩ : Toy "real zero"), .user ⟨1⟩, .user ⟨0⟩] : Expr (AllGen Nat _) ℚ).terms =
      [([.user ⟨1⟩], 0), ([.user ⟨2⟩], 0)] := by
  decide +kernel

/-- **C72 (finding F25)** After a power was reduced to a constant, the neighbours brought together are not simplified:
`x_0 x_1³ x_2` becomes the monomial `x_0 x_2`, although `x_0 x_2 = 1` and `x_1³ = 1`. -/
theorem C72_F25_reduced_power_not_normalised :
    (Expr.ofMonomial (1 : ℚ) [.user (⟨0⟩ : Toy "powers"), .user ⟨1⟩, .user ⟨1⟩, .user ⟨1⟩, .user ⟨2⟩] : Expr (AllGen Nat _) ℚ).terms =
      [([.user ⟨0⟩, .user ⟨2⟩], 1)] ∧
    (toy "powers" 0 * toy "powers" 2).eqOp (Expr.const 1) = true ∧
    (toy "powers" 1 * toy "powers" 1 * toy "powers" 1).eqOp (Expr.const 1) = true := by
  decide +kernel

/-- **C72 (finding F27)** A pair that was exchanged is not simplified afterwards: `j i` becomes the monomial `-(i j)` although
`i j = k`, so `i j + j i` is not the zero expression. -/
theorem C72_F27_exchanged_pair_not_simplified :
    (toy "quaternions" 0 * toy "quaternions" 1).eqOp (toy "quaternions" 2) = true ∧
    (toy "quaternions" 1 * toy "quaternions" 0).terms = [([.user ⟨0⟩, .user ⟨1⟩], -1)] ∧
    (toy "quaternions" 0 * toy "quaternions" 1 + toy "quaternions" 1 * toy "quaternions" 0).eqOp 0 = false := by
  decide +kernel

end LC
