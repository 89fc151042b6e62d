import Verif.Model.HilbertSpace
import Mathlib.Data.Real.Basic
import Mathlib.Algebra.Order.Floor.Ring
import Mathlib.Algebra.Order.Archimedean.Real.Basic
/-!
The floating-point computation of `n_bits_` in the constructors of `elementary_space_boson` and `elementary_space_spin`. The remaining
model of Hilbert spaces uses the exact value; here `std::log2` (with the conversion of its integer argument to `double`) is a parameter.
-/
namespace LC
namespace ESpace
variable {ι : Type _}

/-- `n_bits_(std::ceil(std::log2(dim)))` (elementary_space_boson.hpp:42, elementary_space_spin.hpp:42): `log2 n` is the double returned
by `std::log2` for the converted integer `n`; `std::ceil` is exact, and its result is converted to `int`. -/
noncomputable def floatBits (log2 : Nat → ℝ) (dim : Nat) : Nat := ⌈log2 dim⌉.toNat

/-- `elementary_space_boson(dim, indices...)` (elementary_space_boson.hpp:38-44). -/
noncomputable def bosonF (log2 : Nat → ℝ) (dim : Nat) (i : ι) : ESpace ι := ⟨-2, 0, i, dim, floatBits log2 dim⟩

/-- `elementary_space_spin(spin, indices...)` (elementary_space_spin.hpp:38-45) of multiplicity `2S+1`. -/
noncomputable def spinF (log2 : Nat → ℝ) (mult : Nat) (i : ι) : ESpace ι := ⟨-1, mult, i, mult, floatBits log2 mult⟩

end ESpace
end LC
