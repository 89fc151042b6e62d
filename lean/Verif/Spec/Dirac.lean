import Mathlib.Data.Matrix.Basic
import Mathlib.Data.Fin.VecNotation
import Mathlib.LinearAlgebra.Matrix.Notation
/-
Dirac's gamma matrices in the standard representation: `γ⁰ = diag(1, 1, -1, -1)`, `γᵏ = [[0, σₖ], [-σₖ, 0]]` with the Pauli matrices `σₖ`.
Nothing here refers to the model.
-/
namespace LC
variable {S : Type _} [CommRing S]

/-- Pauli matrices; `im` is the imaginary unit. -/
def pauli (im : S) : Int → Matrix (Fin 2) (Fin 2) S
  | 1 => !![0, 1; 1, 0]
  | 2 => !![0, -im; im, 0]
  | 3 => !![1, 0; 0, -1]
  | _ => 0

/-- A 4×4 matrix made of four blocks. -/
def blocks (a b c d : Matrix (Fin 2) (Fin 2) S) : Matrix (Fin 4) (Fin 4) S :=
  !![a 0 0, a 0 1, b 0 0, b 0 1;
     a 1 0, a 1 1, b 1 0, b 1 1;
     c 0 0, c 0 1, d 0 0, d 0 1;
     c 1 0, c 1 1, d 1 0, d 1 1]

/-- The gamma matrices. -/
def dirac (im : S) (μ : Int) : Matrix (Fin 4) (Fin 4) S :=
  if μ = 0 then blocks 1 0 0 (-1) else blocks 0 (pauli im μ) (-pauli im μ) 0

end LC
