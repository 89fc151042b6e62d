import Verif.Model.Factories
import Verif.Model.LOperator
import Verif.Spec.ComplexFactories
import Mathlib.Analysis.SpecialFunctions.Trigonometric.Arctan
/-
The program examples/jaynes_cummings.cpp, with exact real numbers in place of `double`, for all values of the constants it
fixes (`hbar`, `w_c`, `w_a`, `Omega`, the dimension 1024 of the bosonic space and the number of doublets).
-/
namespace LC
namespace JaynesCummings
open Expr Factory
open scoped Classical

/-- Operators without indices: the tuple of indices is empty. -/
abbrev E := Expr (Gen Unit) ℝ

/-- The constants (examples/jaynes_cummings.cpp:36-42). -/
structure Params where
  /-- `hbar` -/
  hbar : ℝ
  /-- `w_c` -/
  wc : ℝ
  /-- `w_a` -/
  wa : ℝ
  /-- `Omega` -/
  omega : ℝ

/-- `delta` (examples/jaynes_cummings.cpp:44). -/
noncomputable def Params.delta (p : Params) : ℝ := p.wa - p.wc

/-- `H` (examples/jaynes_cummings.cpp:50-51). -/
noncomputable def ham (p : Params) : E :=
  (p.hbar * p.wc) • (aDag () : E) * a () + (p.hbar * p.wa) • (spin 2 .z () : E) +
    (p.hbar * 0.5 * p.omega) • ((a () : E) * spin 2 .plus () + aDag () * spin 2 .minus ())

/-- `N` (examples/jaynes_cummings.cpp:54). -/
noncomputable def num : E := aDag () * a () + spin 2 .z ()

/-- `H * N - N * H`, what the program prints (examples/jaynes_cummings.cpp:55). -/
noncomputable def printed (p : Params) : E := ham p * num - num * ham p

/-- `es_spin`, `es_boson`, `hs` (examples/jaynes_cummings.cpp:59-62) with `dim` bosonic states. -/
def space (dim : Nat) : Except HSError (HilbertSpace Unit) := HilbertSpace.ofArgs [ESpace.spin 2 (), ESpace.boson dim ()]

/-- `E_gs` (examples/jaynes_cummings.cpp:65). -/
noncomputable def energyGs (p : Params) : ℝ := -p.hbar * p.wa / 2

/-- `energy(pm, n)` (examples/jaynes_cummings.cpp:68-71). -/
noncomputable def energy (p : Params) (pm : ℝ) (n : Nat) : ℝ :=
  p.hbar * p.wc * ((n : ℝ) - 0.5) + pm * 0.5 * p.hbar * Real.sqrt (p.delta * p.delta + n * p.omega * p.omega)

/-- `alpha(n)` (examples/jaynes_cummings.cpp:74). -/
noncomputable def alpha (p : Params) (n : Nat) : ℝ := Real.arctan (p.omega * Real.sqrt n / p.delta)

/-- The index of the basis state `|n, s⟩` (examples/jaynes_cummings.cpp:99-100, 119-123); the sum is one of `sv_index_type`s. -/
def index (hs : HilbertSpace Unit) (dim n s : Nat) : Except HSError Nat := do
  let x ← hs.basisStateIndex (ESpace.boson dim ()) n
  let y ← hs.basisStateIndex (ESpace.spin 2 ()) s
  return (x + y) % 2 ^ 64

/-- `std::fill(phi.begin(), phi.end(), 0); phi[i] = x;` (examples/jaynes_cummings.cpp:103-104). -/
noncomputable def vec1 (hs : HilbertSpace Unit) (i : Nat) (x : ℝ) : DenseSV ℝ := ⟨(List.replicate hs.vecSize 0).set i x⟩

/-- `std::fill(phi.begin(), phi.end(), 0); phi[i] = x; phi[j] = y;` (examples/jaynes_cummings.cpp:126-128, 136-138). -/
noncomputable def vec2 (hs : HilbertSpace Unit) (i j : Nat) (x y : ℝ) : DenseSV ℝ := ⟨((List.replicate hs.vecSize 0).set i x).set j y⟩

/-- `diff(psi, phi, E)` (examples/jaynes_cummings.cpp:81-89). -/
noncomputable def diff (psi phi : DenseSV ℝ) (e : ℝ) : ℝ :=
  Real.sqrt ((List.range psi.data.length).foldl (fun d i => d + (psi.data.getD i 0 - e * phi.data.getD i 0) ^ 2) 0)

end JaynesCummings
end LC
