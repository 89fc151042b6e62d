import Verif.Model.Factories
/-
The lattice models of examples/hubbard_holstein.cpp and examples/holstein.cpp, for lattices of every size and all parameters.
Coefficients are exact. `el x y s` stands for the indices `(x, y, "up")` (`s = true`) or `(x, y, "down")`, `ph x y` for `(x, y, "")`.
-/
namespace LC
namespace Lattice
open Expr Factory
variable {ι S : Type _} [LinearOrder ι] [CommRing S] [DecidableEq S] [ConstScalar S]

/-- `std::abs(i - j) == 1 || std::abs(i - j) == wrap` (hubbard_holstein.cpp:68-74 with `wrap = Nx - 1` or `Ny - 1`; holstein.cpp:49-51
with `wrap = N`). -/
def neighbors (wrap : Int) (i j : Nat) : Bool := (((i : Int) - j).natAbs : Int) == 1 || (((i : Int) - j).natAbs : Int) == wrap

/-- The hopping terms (hubbard_holstein.cpp:77-93, holstein.cpp:54-73). -/
def hopping (el : Nat → Nat → Bool → ι) (Nx Ny : Nat) (wrapx wrapy : Int) (t : S) (H : Expr (Gen ι) S) : Expr (Gen ι) S :=
  [true, false].foldl (fun H s =>
    (List.range Nx).foldl (fun H ix =>
      (List.range Ny).foldl (fun H iy =>
        (List.range Nx).foldl (fun H jx =>
          (List.range Ny).foldl (fun H jy =>
            if (neighbors wrapx ix jx && iy == jy) || (ix == jx && neighbors wrapy iy jy) then
              H + (-t) • cDag (el ix iy s) * c (el jx jy s)
            else H) H) H) H) H) H

/-- The Coulomb repulsion (hubbard_holstein.cpp:96-99). -/
def coulomb (el : Nat → Nat → Bool → ι) (Nx Ny : Nat) (U : S) (H : Expr (Gen ι) S) : Expr (Gen ι) S :=
  (List.range Nx).foldl (fun H ix => (List.range Ny).foldl (fun H iy => H + U • n (el ix iy true) * n (el ix iy false)) H) H

/-- The phonons of hubbard_holstein.cpp:102-106. -/
def phonons (ph : Nat → Nat → ι) (Nx Ny : Nat) (H : Expr (Gen ι) S) : Expr (Gen ι) S :=
  (List.range Nx).foldl (fun H ix => (List.range Ny).foldl (fun H iy => H + aDag (ph ix iy) * a (ph ix iy)) H) H

/-- The phonons of holstein.cpp:90-95. -/
def phononsW (ph : Nat → Nat → ι) (Nx Ny : Nat) (w0 : S) (H : Expr (Gen ι) S) : Expr (Gen ι) S :=
  (List.range Nx).foldl (fun H ix => (List.range Ny).foldl (fun H iy => H + w0 • aDag (ph ix iy) * a (ph ix iy)) H) H

/-- The electron-phonon coupling (hubbard_holstein.cpp:109-115, holstein.cpp:109-117). -/
def coupling (el : Nat → Nat → Bool → ι) (ph : Nat → Nat → ι) (Nx Ny : Nat) (g : S) (H : Expr (Gen ι) S) : Expr (Gen ι) S :=
  [true, false].foldl (fun H s => (List.range Nx).foldl (fun H ix => (List.range Ny).foldl (fun H iy =>
    H + g • n (el ix iy s) * (aDag (ph ix iy) + a (ph ix iy))) H) H) H

/-- `H` of examples/hubbard_holstein.cpp:54-115. -/
def hubbardHolstein (el : Nat → Nat → Bool → ι) (ph : Nat → Nat → ι) (Nx Ny : Nat) (t U g : S) : Expr (Gen ι) S :=
  coupling el ph Nx Ny g (phonons ph Nx Ny (coulomb el Nx Ny U (hopping el Nx Ny ((Nx : Int) - 1) ((Ny : Int) - 1) t 0)))

/-- `N` of examples/hubbard_holstein.cpp:123-129. -/
def number (el : Nat → Nat → Bool → ι) (Nx Ny : Nat) : Expr (Gen ι) S :=
  (List.range Nx).foldl (fun N ix => (List.range Ny).foldl (fun N iy => N + (n (el ix iy true) + n (el ix iy false))) N) 0

/-- `S_z` of examples/hubbard_holstein.cpp:123-129; `half` is `0.5`. -/
def spinZ (el : Nat → Nat → Bool → ι) (Nx Ny : Nat) (half : S) : Expr (Gen ι) S :=
  (List.range Nx).foldl (fun N ix => (List.range Ny).foldl (fun N iy => N + half • (n (el ix iy true) - n (el ix iy false) : Expr (Gen ι) S)) N) 0

/-- `H_H` of examples/holstein.cpp:41-120. -/
def holstein (el : Nat → Nat → Bool → ι) (ph : Nat → Nat → ι) (N : Nat) (t w0 g : S) : Expr (Gen ι) S :=
  hopping el N N N N t 0 + phononsW ph N N w0 0 + coupling el ph N N g 0

/-- `N_e` of examples/holstein.cpp:129-136. -/
def numberE (el : Nat → Nat → Bool → ι) (N : Nat) : Expr (Gen ι) S :=
  [true, false].foldl (fun E s => (List.range N).foldl (fun E ix => (List.range N).foldl (fun E iy => E + n (el ix iy s)) E) E) 0

end Lattice
end LC
