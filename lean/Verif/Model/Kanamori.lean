import Mathlib.Data.Complex.Basic
import Verif.Model.Factories
import Verif.Spec.Scalars
/-
The program examples/kanamori.cpp, for all values of the Coulomb integrals. All coefficients are exact complex numbers (in the
program `H_K` and `N` have real coefficients and are converted where they meet complex ones).
-/
namespace LC
namespace Kanamori
open Expr Factory
open scoped Classical
variable {ι : Type _} [LinearOrder ι]

/-- `H_K` (examples/kanamori.cpp:43-86) with `n_orbs = 3`; `idx m true` stands for the indices `(m, "up")`, `idx m false` for
`(m, "down")`. -/
noncomputable def ham (idx : Nat → Bool → ι) (U J : ℂ) : Expr (Gen ι) ℂ :=
  let E := Expr (Gen ι) ℂ
  let n : Nat → Bool → E := fun m s => Factory.n (idx m s)
  let cd : Nat → Bool → E := fun m s => Factory.cDag (idx m s)
  let c : Nat → Bool → E := fun m s => Factory.c (idx m s)
  let H : E := 0
  -- Intraorbital density-density interaction terms (48-51)
  let H := (List.range 3).foldl (fun H m => H + U • n m true * n m false) H
  -- Interorbital density-density interaction terms, different spins (53-59)
  let H := (List.range 3).foldl (fun H m1 => (List.range 3).foldl (fun H m2 =>
    if m1 = m2 then H else H + (U - 2 * J) • n m1 true * n m2 false) H) H
  -- Interorbital density-density interaction terms, same spin (61-68)
  let H := (List.range 3).foldl (fun H m1 => (List.range 3).foldl (fun H m2 =>
    if m1 ≥ m2 then H else H + (U - 3 * J) • n m1 true * n m2 true + (U - 3 * J) • n m1 false * n m2 false) H) H
  -- Spin-flip terms (70-77)
  let H := (List.range 3).foldl (fun H m1 => (List.range 3).foldl (fun H m2 =>
    if m1 = m2 then H else H + (-J) • cd m1 true * c m1 false * cd m2 false * c m2 true) H) H
  -- Pair-hopping terms (79-86)
  (List.range 3).foldl (fun H m1 => (List.range 3).foldl (fun H m2 =>
    if m1 = m2 then H else H + J • cd m1 true * cd m1 false * c m2 false * c m2 true) H) H

/-- `N` (examples/kanamori.cpp:98-101). -/
noncomputable def num (idx : Nat → Bool → ι) : Expr (Gen ι) ℂ :=
  (List.range 3).foldl (fun N m => N + (Factory.n (idx m true) + Factory.n (idx m false))) 0

/-- `Sx` (examples/kanamori.cpp:104-109). -/
noncomputable def sx (idx : Nat → Bool → ι) : Expr (Gen ι) ℂ :=
  (List.range 3).foldl (fun S m => S + (0.5 : ℂ) • (cDag (idx m true) * c (idx m false) + cDag (idx m false) * c (idx m true) : Expr (Gen ι) ℂ)) 0

/-- `Sy` (examples/kanamori.cpp:104-108, 110-111). -/
noncomputable def sy (idx : Nat → Bool → ι) : Expr (Gen ι) ℂ :=
  (List.range 3).foldl (fun S m => S + (0.5 * Complex.I) •
    (cDag (idx m false) * c (idx m true) - cDag (idx m true) * c (idx m false) : Expr (Gen ι) ℂ)) 0

/-- `Sz` (examples/kanamori.cpp:104-108, 112). -/
noncomputable def sz (idx : Nat → Bool → ι) : Expr (Gen ι) ℂ :=
  (List.range 3).foldl (fun S m => S + (0.5 : ℂ) • (Factory.n (idx m true) - Factory.n (idx m false) : Expr (Gen ι) ℂ)) 0

/-- `S2` (examples/kanamori.cpp:115). -/
noncomputable def s2 (idx : Nat → Bool → ι) : Expr (Gen ι) ℂ := sx idx * sx idx + sy idx * sy idx + sz idx * sz idx

/-- `eps(i, j, k)` (examples/kanamori.cpp:118-120): the division is one of integers. -/
def eps (i j k : Nat) : Int := (((j : Int) - i) * ((k : Int) - j) * ((k : Int) - i)).tdiv 2

/-- `Lx`, `Ly`, `Lz` for `i = 0, 1, 2` (examples/kanamori.cpp:123-136); `{"up", "down"}` is the order of the loop. -/
noncomputable def l (idx : Nat → Bool → ι) (i : Nat) : Expr (Gen ι) ℂ :=
  [true, false].foldl (fun L s => (List.range 3).foldl (fun L m1 => (List.range 3).foldl (fun L m2 =>
    L + (Complex.I * (eps i m1 m2 : ℂ)) • (cDag (idx m1 s) : Expr (Gen ι) ℂ) * c (idx m2 s)) L) L) 0

/-- `L2` (examples/kanamori.cpp:138). -/
noncomputable def l2 (idx : Nat → Bool → ι) : Expr (Gen ι) ℂ := l idx 0 * l idx 0 + l idx 1 * l idx 1 + l idx 2 * l idx 2

/-- `H_t2g` (examples/kanamori.cpp:141-142). -/
noncomputable def t2g (idx : Nat → Bool → ι) (U J : ℂ) : Expr (Gen ι) ℂ :=
  ((U - 3 * J) / 2) • num idx * (num idx).subScalar 1 - (2 * J) • s2 idx - (J / 2) • l2 idx + (5 / 2 * J) • num idx

/-- `H_K - H_t2g`, what the program prints (examples/kanamori.cpp:145). -/
noncomputable def printed (idx : Nat → Bool → ι) (U J : ℂ) : Expr (Gen ι) ℂ := ham idx U J - t2g idx U J

end Kanamori
end LC
