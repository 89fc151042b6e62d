import Mathlib.LinearAlgebra.Matrix.Reindex
import Mathlib.Tactic.FinCases
import Verif.Spec.Dirac
import Verif.Proof.UserAction
import Verif.Proof.GammaRep
import Verif.Props.UserAlgebra
/-
The linear operators of examples/gamma.loperator.cpp.
-/
set_option linter.unusedSectionVars false
set_option linter.unusedSimpArgs false
set_option linter.unusedVariables false
namespace LC
open Matrix HilbertSpace

/-- `hilbert_space<int> hs{elementary_space_gamma()}` (examples/gamma.loperator.cpp:156). -/
def IsGammaHS (hs : HilbertSpace Int) : Prop := HilbertSpace.ofArgs [gammaSpace] = .ok hs

theorem gammaHS_exists : ∃ hs, IsGammaHS hs := by
  unfold IsGammaHS
  cases h : HilbertSpace.ofArgs [gammaSpace] with
  | ok hs => exact ⟨hs, rfl⟩
  | error e =>
    have : (HilbertSpace.ofArgs [gammaSpace]).toOption.isSome = true := by decide +kernel
    rw [h] at this; cases this

theorem gammaHS_valid {hs : HilbertSpace Int} (h : IsGammaHS hs) (k : Nat) : ValidState hs k ↔ k < 4 := by
  unfold IsGammaHS at h
  have h1 : (HilbertSpace.ofArgs [gammaSpace]).toOption.map (fun hs => hs.totalNBits.toNat) = some 2 := by decide +kernel
  have h2 : (HilbertSpace.ofArgs [gammaSpace]).toOption.map (fun hs => hs.spaces.map fun p => (p.2.first.toNat, p.1.nBits, p.1.dim)) =
    some [(0, 2, 4)] := by decide +kernel
  rw [h] at h1 h2
  simp only [Except.toOption, Option.map_some, Option.some.injEq] at h1 h2
  unfold ValidState
  rw [h1]
  have h3 : (∀ p ∈ hs.spaces, k / 2 ^ p.2.first.toNat % 2 ^ p.1.nBits < p.1.dim) ↔
      ∀ q ∈ (hs.spaces.map fun p => (p.2.first.toNat, p.1.nBits, p.1.dim)), k / 2 ^ q.1 % 2 ^ q.2.1 < q.2.2 := by
    simp only [List.forall_mem_map]
  rw [h3, h2]
  simp only [List.mem_singleton, forall_eq]
  omega

/-- Basis states are the four components of a spinor. -/
def gammaStates {hs : HilbertSpace Int} (h : IsGammaHS hs) : BasisState hs ≃ Fin 4 where
  toFun k := ⟨k.1, (gammaHS_valid h k.1).1 k.2⟩
  invFun k := ⟨k.1, (gammaHS_valid h k.1).2 k.2⟩
  left_inv k := rfl
  right_inv k := rfl

variable {S : Type _} [CommRing S]

/-- Matrices of the generators: Dirac's for the gamma matrices (the others do not act on this space). -/
noncomputable def gammaMatrix {hs : HilbertSpace Int} (h : IsGammaHS hs) (im : S) : AllGen Int GammaGen → Op S hs
  | .pre _ => 0
  | .user u => (dirac im u.index).submatrix (gammaStates h) (gammaStates h)

/-- `γ⁰`, …, `γ³`. -/
def IsGamma : AllGen Int GammaGen → Prop := Both (fun _ => False) fun u => 0 ≤ u.index ∧ u.index ≤ 3

theorem four {i : Int} (h : 0 ≤ i ∧ i ≤ 3) : i = 0 ∨ i = 1 ∨ i = 2 ∨ i = 3 := by omega

theorem gammaStep_dirac (im : S) {i : Int} (h : 0 ≤ i ∧ i ≤ 3) (k : Fin 4) :
    ∃ (t : Fin 4) (x : S), gammaStep im i k = some (t.1, x) ∧ ∀ s, dirac im i s k = if s = t then x else 0 := by
  rcases four h with rfl | rfl | rfl | rfl <;> fin_cases k
  · exact ⟨0, 1, rfl, fun s => by fin_cases s <;> simp [dirac, blocks]⟩
  · exact ⟨1, 1, rfl, fun s => by fin_cases s <;> simp [dirac, blocks]⟩
  · exact ⟨2, -1, rfl, fun s => by fin_cases s <;> simp [dirac, blocks]⟩
  · exact ⟨3, -1, rfl, fun s => by fin_cases s <;> simp [dirac, blocks]⟩
  · exact ⟨3, -1, rfl, fun s => by fin_cases s <;> simp [dirac, blocks, pauli]⟩
  · exact ⟨2, -1, rfl, fun s => by fin_cases s <;> simp [dirac, blocks, pauli]⟩
  · exact ⟨1, 1, rfl, fun s => by fin_cases s <;> simp [dirac, blocks, pauli]⟩
  · exact ⟨0, 1, rfl, fun s => by fin_cases s <;> simp [dirac, blocks, pauli]⟩
  · exact ⟨3, -im, rfl, fun s => by fin_cases s <;> simp [dirac, blocks, pauli]⟩
  · exact ⟨2, im, rfl, fun s => by fin_cases s <;> simp [dirac, blocks, pauli]⟩
  · exact ⟨1, im, rfl, fun s => by fin_cases s <;> simp [dirac, blocks, pauli]⟩
  · exact ⟨0, -im, rfl, fun s => by fin_cases s <;> simp [dirac, blocks, pauli]⟩
  · exact ⟨2, -1, rfl, fun s => by fin_cases s <;> simp [dirac, blocks, pauli]⟩
  · exact ⟨3, 1, rfl, fun s => by fin_cases s <;> simp [dirac, blocks, pauli]⟩
  · exact ⟨0, 1, rfl, fun s => by fin_cases s <;> simp [dirac, blocks, pauli]⟩
  · exact ⟨1, -1, rfl, fun s => by fin_cases s <;> simp [dirac, blocks, pauli]⟩

theorem gammaAct_append (im : S) (is js : List Int) :
    gammaAct im (is ++ js) = fun k c => (gammaAct im is k c).andThen (gammaAct im js) := by
  induction is with
  | nil => funext k c; rfl
  | cons i is ih =>
    funext k c
    rw [List.cons_append, gammaAct, gammaAct, ih]
    cases gammaStep im i k with
    | none => rfl
    | some p => rfl

theorem gammaAct_actsLike {hs : HilbertSpace Int} (h : IsGammaHS hs) (im : S) (m : List (AllGen Int GammaGen)) (hm : ∀ g ∈ m, IsGamma g) :
    ActsLike (evalMon (gammaMatrix h im) m) (gammaAct im (m.map AllGen.intIndex).reverse) := by
  induction m with
  | nil => exact actsLike_one
  | cons g m ih =>
    rw [List.map_cons, List.reverse_cons, gammaAct_append]
    have e : evalMon (gammaMatrix h im) (g :: m) = gammaMatrix h im g * evalMon (gammaMatrix h im) m := by simp [evalMon]
    rw [e]
    refine actsLike_andThen (ih fun k hk => hm k (by simp [hk])) ?_
    have hg := hm g (by simp)
    cases g with
    | pre g => exact hg.elim
    | user u =>
      intro k c
      obtain ⟨t, x, h1, h2⟩ := gammaStep_dirac im hg (gammaStates h k)
      refine Or.inr ⟨(gammaStates h).symm t, x, ?_, fun s => ?_⟩
      · have : gammaStep im (AllGen.intIndex (.user u)) k = some (t.1, x) := h1
        rw [gammaAct, this]; rfl
      · rw [gammaMatrix, Matrix.submatrix_apply, h2]
        by_cases hst : gammaStates h s = t
        · rw [if_pos hst, if_pos (by rw [← hst, Equiv.symm_apply_apply])]
        · rw [if_neg hst, if_neg (by rintro rfl; simp at hst)]

theorem gammaClass_contract {hs : HilbertSpace Int} (h : IsGammaHS hs) (im : S) :
    ActionContract (gammaClass im) hs IsGamma (gammaMatrix h im) where
  accepts _ _ _ := ⟨_, rfl⟩
  acts m a _ hm ha := by
    cases ha
    exact gammaAct_actsLike h im m fun g hg => (hm g hg).2

theorem dirac_sq {im : S} (him : im * im = -1) {i : Int} (h : 0 ≤ i ∧ i ≤ 3) :
    dirac im i * dirac im i = ((if i = 0 then 1 else -1 : Int) : S) • 1 := by
  rcases four h with rfl | rfl | rfl | rfl <;> ext a b <;> fin_cases a <;> fin_cases b <;>
    simp [dirac, blocks, pauli, Matrix.mul_apply, Fin.sum_univ_four, him]

theorem dirac_anti_lt (im : S) {i j : Int} (h : (i, j) ∈ ([(0, 1), (0, 2), (0, 3), (1, 2), (1, 3), (2, 3)] : List (Int × Int))) :
    dirac im i * dirac im j = - (dirac im j * dirac im i) := by
  simp only [List.mem_cons, Prod.mk.injEq, List.not_mem_nil, or_false] at h
  rcases h with ⟨rfl, rfl⟩ | ⟨rfl, rfl⟩ | ⟨rfl, rfl⟩ | ⟨rfl, rfl⟩ | ⟨rfl, rfl⟩ | ⟨rfl, rfl⟩ <;>
    (ext a b; fin_cases a <;> fin_cases b <;> simp [dirac, blocks, pauli, Matrix.mul_apply, Fin.sum_univ_four])

theorem dirac_anti (im : S) {i j : Int} (h : 0 ≤ i ∧ i ≤ 3) (h' : 0 ≤ j ∧ j ≤ 3) (hij : i ≠ j) :
    dirac im i * dirac im j = - (dirac im j * dirac im i) := by
  rcases lt_or_gt_of_ne hij with hl | hl
  · exact dirac_anti_lt im (by simp; omega)
  · rw [dirac_anti_lt (i := j) (j := i) im (by simp; omega), neg_neg]

variable [DecidableEq S] [ConstScalar S] [ScalarLaws S]

theorem gamma_closedGen : ClosedGen IsGamma := by
  refine ⟨?_, ?_, ?_, ?_⟩
  · intro g k hg hk hgt p hp
    cases g with
    | pre g => exact hg.elim
    | user u =>
      cases k with
      | pre k => exact hk.elim
      | user v => cases hp
  · intro g k f hg hk hgt hf p hp
    cases g with
    | pre g => exact hg.elim
    | user u =>
      cases k with
      | pre k => exact hk.elim
      | user v =>
        have e1 : GenOps.simplifyProd (AllGen.user u : AllGen Int GammaGen) (.user v) =
            if u.index = v.index then some ⟨.integer (if u.index = 0 then 1 else -1), []⟩ else none := by
          change Option.map (LinFun.map AllGen.user) (if u.index = v.index then some ⟨.integer (if u.index = 0 then 1 else -1), []⟩ else none) = _
          split_ifs <;> rfl
        rw [e1] at hf
        split at hf
        · cases hf; cases hp
        · cases hf
  · intro g p f hg hp hr
    cases g with
    | pre g => exact hg.elim
    | user u => rfl
  · intro g p hg hp hr
    cases g with
    | pre g => exact hg.elim
    | user u => cases hr

theorem gamma_conjOK : ConjOK IsGamma := by
  refine ⟨fun g => ?_, fun g hg p hp => ?_⟩
  · exact (AllGen.conjOKAll (ι := Int) gamma_noZeros fun _ _ => True).good g
  · cases g with
    | pre g => exact hg.elim
    | user u =>
      have : p.1 = .user u := by
        have hp' : p ∈ [((AllGen.user u : AllGen Int GammaGen), VarNumber.integer (if u.index = 0 then 1 else -1))] := hp
        rw [List.mem_singleton] at hp'
        rw [hp']
      rw [this]; exact hg

theorem gamma_represents {hs : HilbertSpace Int} (h : IsGammaHS hs) {im : S} (him : im * im = -1) :
    Represents S IsGamma (gammaMatrix h im) := by
  classical
  refine ⟨?_, ?_, ?_, ?_, ?_, ?_, ?_⟩
  · intro g k hg hk hgt
    cases g with
    | pre g => exact hg.elim
    | user u =>
      cases k with
      | pre k => exact hk.elim
      | user v =>
        have hgt' : u.index ≠ v.index := by
          rintro e
          have : GenOps.gt (AllGen.user u : AllGen Int GammaGen) (.user v) = decide (u.index > v.index) := rfl
          rw [this, decide_eq_true_eq] at hgt
          omega
        have e1 : (GenOps.swapWith (AllGen.user u : AllGen Int GammaGen) (.user v)).1 = .integer (-1) := rfl
        have e2 : (GenOps.swapWith (AllGen.user u : AllGen Int GammaGen) (.user v)).2 = ⟨.integer 0, []⟩ := by
          change (⟨.integer (2 * (if u.index = v.index then (if u.index = 0 then 1 else -1) else 0)), []⟩ : LinFun _) = _
          rw [if_neg hgt']; rfl
        rw [e1, e2]
        simp only [evalLin, Gamma.mk_int, gammaMatrix, Matrix.submatrix_mul_equiv, dirac_anti im hg hk hgt']
        ext a b
        simp
  · intro g k f hg hk hgt hf
    cases g with
    | pre g => exact hg.elim
    | user u =>
      cases k with
      | pre k => exact hk.elim
      | user v =>
        have e1 : GenOps.simplifyProd (AllGen.user u : AllGen Int GammaGen) (.user v) =
            if u.index = v.index then some ⟨.integer (if u.index = 0 then 1 else -1), []⟩ else none := by
          change Option.map (LinFun.map AllGen.user) (if u.index = v.index then some ⟨.integer (if u.index = 0 then 1 else -1), []⟩ else none) = _
          split_ifs <;> rfl
        rw [e1] at hf
        split at hf
        · rename_i e
          cases hf
          simp only [evalLin, Gamma.mk_int, gammaMatrix, Matrix.submatrix_mul_equiv, ← e, dirac_sq him hg]
          ext a b
          split_ifs <;> simp [Matrix.algebraMap_matrix_apply, Matrix.one_apply]
        · cases hf
  · exact gamma_closedGen.red_false
  · intro g p hg hp hr
    cases g with
    | pre g => exact hg.elim
    | user u => cases hr
  · exact gamma_closedGen.swap_mem
  · exact gamma_closedGen.simp_mem
  · exact gamma_closedGen.red_mem

end LC
