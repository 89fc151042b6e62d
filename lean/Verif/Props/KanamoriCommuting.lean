import Verif.Props.KanamoriSymmetry
/-
C111 (continued): the number of particles, S^2, S_z, L^2 and L_z of examples/kanamori.cpp commute with each other, so that together with the
Hamiltonian (C111_symmetries) they can be diagonalised at the same time.
-/
set_option linter.unusedSectionVars false
set_option linter.unnecessarySeqFocus false
namespace LC
open Expr
open scoped Classical
namespace Kanamori
variable {G S : Type _}

/-- The commuting quantities. -/
def pset (k : Consts S) (g : Nat → Bool → Bool → G) : Fin 5 → ScalarProg G S
  | 0 => pnum k g | 1 => ps2 k g | 2 => psz k g | 3 => pl2 k g | 4 => pl k g 2

def pmut (k : Consts S) (g : Nat → Bool → Bool → G) (i j : Fin 5) : ScalarProg G S :=
  .sub (.mul (pset k g i) (pset k g j)) (.mul (pset k g j) (pset k g i))

set_option maxRecDepth 100000 in
theorem symbolic_mut : ∀ i j, i < j → (pmut sconsts sgen i j).run.terms.isEmpty = true := by decide +kernel

theorem all_set {ι : Type _} (k : Consts S) (h : Nat → Bool → ι) (i : Fin 5) : (pset k (fun m s d => Gen.fermion d (h m s)) i).All FBS := by
  fin_cases i <;> simp [pset, pnum, ps2, psx, psy, psz, pl2, pl, pn, pcd, pc, ScalarProg.All, FBS, List.range_succ]

variable {ι : Type _} [LinearOrder ι]
variable (idx : Nat → Bool → ι) (hinj : ∀ m s m' s', idx m s = idx m' s' → m = m' ∧ s = s')
include hinj

/-- **C111** `N`, `S^2`, `S_z`, `L^2` and `L_z` commute with each other. -/
theorem C111_commuting (A B : Expr (Gen ι) ℂ) (hA : A ∈ [num idx, s2 idx, sz idx, l2 idx, l idx 2]) (hB : B ∈ [num idx, s2 idx, sz idx, l2 idx, l idx 2]) :
    (A * B).eqOp (B * A) = true := by
  have key : ∀ i j : Fin 5, i < j → ((pset (consts 0 0) (fun m s d => Gen.fermion d (idx m s)) i).exact * (pset (consts 0 0) (fun m s d => Gen.fermion d (idx m s)) j).exact).eqOp
      ((pset (consts 0 0) (fun m s d => Gen.fermion d (idx m s)) j).exact * (pset (consts 0 0) (fun m s d => Gen.fermion d (idx m s)) i).exact) = true := by
    intro i j hij
    have ai := all_set (consts 0 0) idx i
    have aj := all_set (consts 0 0) idx j
    refine eq_of_diff (a := .mul (pset (consts 0 0) (fun m s d => Gen.fermion d (idx m s)) i) (pset (consts 0 0) (fun m s d => Gen.fermion d (idx m s)) j))
      (b := .mul (pset (consts 0 0) (fun m s d => Gen.fermion d (idx m s)) j) (pset (consts 0 0) (fun m s d => Gen.fermion d (idx m s)) i))
      ⟨ai, aj⟩ ⟨aj, ai⟩ (run_zero (pmut sconsts sgen i j) (symbolic_mut i j hij)
        ⟨⟨all_set _ _ i, all_set _ _ j⟩, all_set _ _ j, all_set _ _ i⟩ idx hinj 0 0 _ ?_)
    intro f hf
    have e : ((pmut sconsts sgen i j).eval (Sym.value 0 0)).mapGen (Gen.relabel f) =
        pmut (sconsts.map (Sym.value 0 0)) (fun m s d => .fermion d (f (2 * m + s.toNat))) i j := by fin_cases i <;> fin_cases j <;> rfl
    rw [e, consts_value]
    simp only [hf]
    rfl
  have full : ∀ i j : Fin 5, ((pset (consts 0 0) (fun m s d => Gen.fermion d (idx m s)) i).exact * (pset (consts 0 0) (fun m s d => Gen.fermion d (idx m s)) j).exact).eqOp
      ((pset (consts 0 0) (fun m s d => Gen.fermion d (idx m s)) j).exact * (pset (consts 0 0) (fun m s d => Gen.fermion d (idx m s)) i).exact) = true := by
    intro i j
    rcases lt_trichotomy i j with h | h | h
    · exact key i j h
    · rw [eqOp_iff, h]
    · rw [eqOp_iff]; exact ((eqOp_iff _ _).1 (key j i h)).symm
  have mem : ∀ {A}, A ∈ [num idx, s2 idx, sz idx, l2 idx, l idx 2] → ∃ i : Fin 5, A = (pset (consts 0 0) (fun m s d => Gen.fermion d (idx m s)) i).exact := by
    intro A hA
    simp only [List.mem_cons, List.not_mem_nil, or_false] at hA
    rcases hA with rfl | rfl | rfl | rfl | rfl
    exacts [⟨0, rfl⟩, ⟨1, rfl⟩, ⟨2, rfl⟩, ⟨3, rfl⟩, ⟨4, rfl⟩]
  obtain ⟨i, rfl⟩ := mem hA
  obtain ⟨j, rfl⟩ := mem hB
  exact full i j

end Kanamori
end LC
