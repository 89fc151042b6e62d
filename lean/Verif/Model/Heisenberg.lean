import Verif.Spec.ComplexFactories
import Verif.Model.Factories
/-
The program examples/heisenberg_chain.cpp. `expr_t` is `static_indices::expr_complex<int>` with exact complex
coefficients (the coefficients that occur are dyadic rationals, exact as `double`s as long as 53 bits suffice).
-/
namespace LC
namespace Heisenberg
open Expr

/-- `expr_t` (examples/heisenberg_chain.cpp:35). -/
abbrev E := Expr (Gen Int) ℂ

/-- `vector_expr_t`, `std::array<expr_t, 3>` (examples/heisenberg_chain.cpp:39). -/
structure Vec where
  /-- `v[0]` -/
  x : E
  /-- `v[1]` -/
  y : E
  /-- `v[2]` -/
  z : E

/-- Default-initialised vector: three empty expressions (examples/heisenberg_chain.cpp:83). -/
def Vec.zero : Vec := ⟨0, 0, 0⟩

/-- `operator+` (examples/heisenberg_chain.cpp:42-44). -/
noncomputable def Vec.add (a b : Vec) : Vec := ⟨a.x + b.x, a.y + b.y, a.z + b.z⟩

/-- `dot` (examples/heisenberg_chain.cpp:47-49). -/
noncomputable def dot (a b : Vec) : E := a.x * b.x + a.y * b.y + a.z * b.z

/-- `cross` (examples/heisenberg_chain.cpp:52-56). -/
noncomputable def cross (a b : Vec) : Vec :=
  ⟨a.y * b.z - a.z * b.y, a.z * b.x - a.x * b.z, a.x * b.y - a.y * b.x⟩

/-- `S`, the list of spin operators (examples/heisenberg_chain.cpp:69-73). -/
noncomputable def spins (N : Nat) : List Vec :=
  (List.range N).map fun i : Nat => ⟨ComplexFactory.Sx 2 (i : Int), ComplexFactory.Sy 2 (i : Int), Factory.spin 2 .z (i : Int)⟩

/-- `S[k]` (an index in range, as it always is here). -/
noncomputable def at' (N k : Nat) : Vec := (spins N).getD k Vec.zero

/-- `H` (examples/heisenberg_chain.cpp:76-80); `+=` of expressions of the same type. -/
noncomputable def ham (g : ℝ) (N : Nat) : E :=
  (List.range N).foldl (fun H i => H + (g : ℂ) • dot (at' N i) (at' N ((i + 1) % N))) 0

/-- `S_tot` (examples/heisenberg_chain.cpp:83-85). -/
noncomputable def stot (N : Nat) : Vec := (List.range N).foldl (fun s i => s.add (at' N i)) Vec.zero

/-- `Q3` (examples/heisenberg_chain.cpp:93-96). -/
noncomputable def q3 (N : Nat) : E :=
  (List.range N).foldl (fun Q i => Q + dot (cross (at' N i) (at' N ((i + 1) % N))) (at' N ((i + 2) % N))) 0

/-- `(H * A - A * H)`, what the program prints (examples/heisenberg_chain.cpp:88-90, 97). -/
noncomputable def printed (a b : E) : E := a * b - b * a

end Heisenberg
end LC
