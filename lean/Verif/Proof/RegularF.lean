import Mathlib.Algebra.Module.Pi
import Mathlib.Algebra.Module.LinearMap.End
import Mathlib.LinearAlgebra.Pi
import Mathlib.Data.Finset.Card
import Mathlib.Data.Matrix.Basic
import Mathlib.Tactic.Ring
import Mathlib.Tactic.Abel
import Mathlib.Tactic.Module
/-
Exterior multiplication and contraction on functions of finite sets; multiplication and differentiation on functions
of exponent vectors; one-site matrices.
-/
set_option linter.unusedSectionVars false
set_option linter.unusedSimpArgs false
set_option linter.unusedTactic false
namespace LC.Reg
variable {X R S : Type _}

/-! ### fermions -/
section Fermi
variable [DecidableEq X] (lt : X → X → Bool)

/-- Number of elements before `g`. -/
def below (g : X) (s : Finset X) : Nat := (s.filter fun h => lt h g = true).card

/-- (-1)^below -/
def sgn (g : X) (s : Finset X) : ℤ := (-1) ^ below lt g s

variable {lt} (hirr : ∀ a, lt a a = false) (hasym : ∀ a b, lt a b = true → lt b a = false)
  (htri : ∀ a b, lt a b = false → lt b a = false → a = b)

theorem sgn_erase (g h : X) (s : Finset X) (hg : g ∈ s) :
    sgn lt h (s.erase g) = if lt g h = true then - sgn lt h s else sgn lt h s := by
  simp only [sgn, below]
  rw [Finset.filter_erase]
  split
  · rename_i hl
    have hm : g ∈ s.filter fun k => lt k h = true := by simp [hg, hl]
    have := Finset.card_erase_add_one hm
    rw [← this, pow_succ]; ring
  · rename_i hl
    rw [Finset.erase_eq_of_notMem (by simp [hl])]

theorem sgn_insert (g h : X) (s : Finset X) (hg : g ∉ s) :
    sgn lt h (insert g s) = if lt g h = true then - sgn lt h s else sgn lt h s := by
  have := sgn_erase (lt := lt) g h (insert g s) (by simp)
  rw [Finset.erase_insert hg] at this
  rw [this]; split <;> simp

theorem sgn_sq (g : X) (s : Finset X) : sgn lt g s * sgn lt g s = 1 := by
  simp only [sgn, ← mul_pow]; simp

include hirr in
theorem sgn_erase_self (g : X) (s : Finset X) (hg : g ∈ s) : sgn lt g (s.erase g) = sgn lt g s := by
  rw [sgn_erase g g s hg]; simp [hirr]

include hirr in
theorem sgn_insert_self (g : X) (s : Finset X) (hg : g ∉ s) : sgn lt g (insert g s) = sgn lt g s := by
  rw [sgn_insert g g s hg]; simp [hirr]

variable (lt) [CommRing S] [AddCommGroup R] [Module S R]

/-- Exterior multiplication: adds `g` to the set. -/
def W (g : X) : Module.End S (Finset X → R) where
  toFun ψ s := if g ∈ s then sgn lt g s • ψ (s.erase g) else 0
  map_add' ψ φ := by funext s; by_cases h : g ∈ s <;> simp [h]
  map_smul' c ψ := by
    funext s
    by_cases h : g ∈ s
    · simp only [h, if_true, if_false, Pi.smul_apply, RingHom.id_apply, smul_zero]
      try rw [smul_comm]
    · simp only [h, if_true, if_false, Pi.smul_apply, RingHom.id_apply, smul_zero]
      try rw [smul_comm]

/-- Contraction: removes `g` from the set. -/
def K (g : X) : Module.End S (Finset X → R) where
  toFun ψ s := if g ∈ s then 0 else sgn lt g s • ψ (insert g s)
  map_add' ψ φ := by funext s; by_cases h : g ∈ s <;> simp [h]
  map_smul' c ψ := by
    funext s
    by_cases h : g ∈ s
    · simp only [h, if_true, if_false, Pi.smul_apply, RingHom.id_apply, smul_zero]
      try rw [smul_comm]
    · simp only [h, if_true, if_false, Pi.smul_apply, RingHom.id_apply, smul_zero]
      try rw [smul_comm]

theorem W_apply (g : X) (ψ : Finset X → R) (s : Finset X) :
    W (S := S) lt g ψ s = if g ∈ s then sgn lt g s • ψ (s.erase g) else 0 := rfl
theorem K_apply (g : X) (ψ : Finset X → R) (s : Finset X) :
    K (S := S) lt g ψ s = if g ∈ s then 0 else sgn lt g s • ψ (insert g s) := rfl

variable {lt}
include hasym htri in
theorem lt_cases {g h : X} (hne : g ≠ h) :
    (lt g h = true ∧ lt h g = false) ∨ (lt g h = false ∧ lt h g = true) := by
  cases h1 : lt g h
  · cases h2 : lt h g
    · exact absurd (htri g h h1 h2) hne
    · simp
  · left; exact ⟨rfl, hasym _ _ h1⟩

include hirr hasym htri in
theorem WW (g h : X) : W (S := S) (R := R) lt g * W lt h + W lt h * W lt g = 0 := by
  ext ψ s
  simp only [LinearMap.add_apply, Module.End.mul_apply, Pi.add_apply, W_apply, LinearMap.zero_apply, Pi.zero_apply]
  by_cases hgh : g = h
  · subst hgh; simp
  by_cases hg : g ∈ s <;> by_cases hh : h ∈ s <;> simp [hg, hh, hgh, Ne.symm hgh]
  rw [sgn_erase g h s hg, sgn_erase h g s hh, Finset.erase_right_comm]
  rcases lt_cases hasym htri hgh with ⟨h1, h2⟩ | ⟨h1, h2⟩ <;> simp only [h1, h2] <;>
    simp [smul_smul, mul_comm]

include hirr hasym htri in
theorem KK (g h : X) : K (S := S) (R := R) lt g * K lt h + K lt h * K lt g = 0 := by
  ext ψ s
  simp only [LinearMap.add_apply, Module.End.mul_apply, Pi.add_apply, K_apply, LinearMap.zero_apply, Pi.zero_apply]
  by_cases hgh : g = h
  · subst hgh; simp
  by_cases hg : g ∈ s <;> by_cases hh : h ∈ s <;> simp [hg, hh, hgh, Ne.symm hgh]
  rw [sgn_insert g h s hg, sgn_insert h g s hh, Finset.insert_comm]
  rcases lt_cases hasym htri hgh with ⟨h1, h2⟩ | ⟨h1, h2⟩ <;> simp only [h1, h2] <;>
    simp [smul_smul, mul_comm]

include hirr hasym htri in
theorem WK (g h : X) : W (S := S) (R := R) lt g * K lt h + K lt h * W lt g = if g = h then 1 else 0 := by
  ext ψ s
  simp only [LinearMap.add_apply, Module.End.mul_apply, Pi.add_apply, K_apply, W_apply]
  by_cases hgh : g = h
  · subst hgh
    by_cases hg : g ∈ s
    · simp [hg, sgn_erase_self hirr, smul_smul, sgn_sq]
    · simp [hg, sgn_insert_self hirr, smul_smul, sgn_sq]
  rw [if_neg hgh]
  simp only [LinearMap.zero_apply, Pi.zero_apply]
  by_cases hg : g ∈ s <;> by_cases hh : h ∈ s <;> simp [hg, hh, hgh, Ne.symm hgh]
  rw [sgn_erase g h s hg, sgn_insert h g s hh]
  have : insert h (s.erase g) = (insert h s).erase g := by
    rw [Finset.erase_insert_of_ne (Ne.symm hgh)]
  rw [this]
  rcases lt_cases hasym htri hgh with ⟨h1, h2⟩ | ⟨h1, h2⟩ <;> simp only [h1, h2] <;>
    simp [smul_smul, mul_comm]

/-- Operators on the values commute with `W` and `K`. -/
theorem W_comp (g : X) (f : Module.End S R) :
    W (S := S) lt g * f.compLeft (Finset X) = f.compLeft (Finset X) * W lt g := by
  ext ψ s
  simp only [Module.End.mul_apply, W_apply, LinearMap.compLeft_apply, Function.comp]
  split <;> simp
theorem K_comp (g : X) (f : Module.End S R) :
    K (S := S) lt g * f.compLeft (Finset X) = f.compLeft (Finset X) * K lt g := by
  ext ψ s
  simp only [Module.End.mul_apply, K_apply, LinearMap.compLeft_apply, Function.comp]
  split <;> simp

end Fermi

/-! ### bosons -/
section Bose
variable [DecidableEq X] [CommRing S] [AddCommGroup R] [Module S R]

/-- Multiplication by the variable `g`. -/
def Xp (g : X) : Module.End S ((X → ℕ) → R) where
  toFun ψ n := if n g = 0 then 0 else ψ (Function.update n g (n g - 1))
  map_add' ψ φ := by funext s; by_cases h : s g = 0 <;> simp [h]
  map_smul' c ψ := by funext s; by_cases h : s g = 0 <;> simp [h]

/-- Derivative with respect to the variable `g`. -/
def D (g : X) : Module.End S ((X → ℕ) → R) where
  toFun ψ n := (n g + 1) • ψ (Function.update n g (n g + 1))
  map_add' ψ φ := by funext s; simp
  map_smul' c ψ := by
    funext s
    simp only [Pi.smul_apply, RingHom.id_apply]
    rw [smul_comm]

theorem X_apply (g : X) (ψ : (X → ℕ) → R) (n : X → ℕ) :
    Xp (S := S) g ψ n = if n g = 0 then 0 else ψ (Function.update n g (n g - 1)) := rfl
theorem D_apply (g : X) (ψ : (X → ℕ) → R) (n : X → ℕ) :
    D (S := S) g ψ n = (n g + 1) • ψ (Function.update n g (n g + 1)) := rfl

theorem XX (g h : X) : Xp (S := S) (R := R) g * Xp h = Xp h * Xp g := by
  ext ψ n
  simp only [Module.End.mul_apply, X_apply]
  by_cases hgh : g = h
  · subst hgh; rfl
  simp only [Function.update_of_ne hgh, Function.update_of_ne (Ne.symm hgh)]
  rw [Function.update_comm hgh]
  split <;> split <;> rfl

theorem DD (g h : X) : D (S := S) (R := R) g * D h = D h * D g := by
  ext ψ n
  simp only [Module.End.mul_apply, D_apply]
  by_cases hgh : g = h
  · subst hgh; rfl
  simp only [Function.update_of_ne hgh, Function.update_of_ne (Ne.symm hgh)]
  rw [Function.update_comm hgh, smul_smul, smul_smul, mul_comm]

theorem DX (g h : X) : D (S := S) (R := R) g * Xp h - Xp h * D g = if g = h then 1 else 0 := by
  ext ψ n
  simp only [Module.End.mul_apply, D_apply, X_apply, LinearMap.sub_apply, Pi.sub_apply]
  by_cases hgh : g = h
  · subst hgh
    by_cases h0 : n g = 0
    · simp [h0]
      rw [← h0, Function.update_eq_self]
    · have : n g - 1 + 1 = n g := by omega
      simp [h0, this]
      rw [add_smul, one_smul]; abel
  simp [hgh, Function.update_of_ne (Ne.symm hgh)]
  rw [Function.update_comm hgh]
  split <;> simp

theorem X_comp (g : X) (f : Module.End S R) :
    Xp (S := S) g * f.compLeft (X → ℕ) = f.compLeft (X → ℕ) * Xp g := by
  ext ψ s
  simp only [Module.End.mul_apply, X_apply, LinearMap.compLeft_apply, Function.comp]
  split <;> simp
theorem D_comp (g : X) (f : Module.End S R) :
    D (S := S) g * f.compLeft (X → ℕ) = f.compLeft (X → ℕ) * D g := by
  ext ψ s
  simp only [Module.End.mul_apply, D_apply, LinearMap.compLeft_apply, Function.comp]
  simp
end Bose

/-! ### one-site matrices -/
section Site
variable {Loc : Type _} [Fintype Loc] [DecidableEq Loc] [DecidableEq X] [CommRing S] 

/-- The matrix `T` acting on site `i`. -/
def site (i : X) (T : Matrix Loc Loc S) : Module.End S ((X → Loc) → S) where
  toFun ψ s := ∑ l, T (s i) l * ψ (Function.update s i l)
  map_add' ψ φ := by funext s; simp [mul_add, Finset.sum_add_distrib]
  map_smul' c ψ := by funext s; simp [Finset.mul_sum, mul_left_comm]

theorem site_apply (i : X) (T : Matrix Loc Loc S) (ψ : (X → Loc) → S) (s : X → Loc) :
    site i T ψ s = ∑ l, T (s i) l * ψ (Function.update s i l) := rfl

theorem site_mul (i : X) (T U : Matrix Loc Loc S) : site i T * site i U = site i (T * U) := by
  ext ψ s
  simp only [Module.End.mul_apply, site_apply, Matrix.mul_apply, Function.update_self, Function.update_idem,
    Finset.mul_sum, Finset.sum_mul]
  rw [Finset.sum_comm]
  simp only [mul_assoc]

theorem site_add (i : X) (T U : Matrix Loc Loc S) : site i T + site i U = site i (T + U) := by
  ext ψ s; simp [site_apply, add_mul, Finset.sum_add_distrib]

theorem site_smul (i : X) (c : S) (T : Matrix Loc Loc S) : site i (c • T) = c • site i T := by
  ext ψ s; simp [site_apply, Finset.mul_sum, mul_assoc]

theorem site_one (i : X) : site i (1 : Matrix Loc Loc S) = 1 := by
  ext ψ s
  simp [site_apply, Matrix.one_apply]

theorem site_comm {i j : X} (h : i ≠ j) (T U : Matrix Loc Loc S) : site i T * site j U = site j U * site i T := by
  ext ψ s
  simp only [Module.End.mul_apply, site_apply, Finset.mul_sum, Function.update_of_ne h, Function.update_of_ne h.symm]
  rw [Finset.sum_comm]
  refine Finset.sum_congr rfl fun l _ => Finset.sum_congr rfl fun l' _ => ?_
  rw [Function.update_comm h]; ring

/-- The matrix on site `i` as a linear map in the matrix. -/
def siteHom (i : X) : Matrix Loc Loc S →ₐ[S] Module.End S ((X → Loc) → S) :=
  AlgHom.ofLinearMap { toFun := site i, map_add' := fun T U => (site_add i T U).symm,
                       map_smul' := fun c T => site_smul i c T } (site_one i) fun T U => (site_mul i T U).symm

theorem siteHom_apply (i : X) (T : Matrix Loc Loc S) : siteHom i T = site i T := rfl
end Site

end LC.Reg
