import Verif.Model.JaynesCummings
import Verif.Proof.FockVector
import Verif.Proof.Predefined
import Verif.Proof.FockRep
import Verif.Props.Products
import Verif.Proof.ComplexFactories
import Mathlib.Tactic.NoncommRing
import Mathlib.Tactic.LinearCombination
/-
Lemmas for C109.
-/
set_option linter.unusedSectionVars false
set_option linter.unusedSimpArgs false
namespace LC
open Expr
namespace JaynesCummings

/-- The occupation numbers of the state `|n, s⟩`. -/
def cfg (n s : Nat) : Config Unit
  | .fermion _ => 0
  | .boson _ => n
  | .spin m _ => if m = 2 then s else 0

theorem cfg_phys {n s : Nat} (h : s < 2) : Phys (cfg n s) where
  fermion i := by simp [cfg]
  finite := by simp [cfg]
  spin m i := by
    by_cases hm : m = 2
    · subst hm; right; simpa [cfg] using h
    · left; simp [cfg, hm]

noncomputable abbrev K (n s : Nat) : FockSpace Unit ℝ := ket ℝ (cfg n s)
noncomputable abbrev F (g : Gen Unit) : Module.End ℝ (FockSpace Unit ℝ) := fockGen ℝ g

theorem upd_b {_ : DecidableEq (Mode Unit)} (n s k : Nat) : Function.update (cfg n s) (.boson ()) k = cfg k s := by
  funext m; cases m <;> simp [Function.update, cfg]
theorem upd_s {_ : DecidableEq (Mode Unit)} (n s k : Nat) : Function.update (cfg n s) (.spin 2 ()) k = cfg n k := by
  funext m
  cases m with
  | spin m i => by_cases hm : m = 2 <;> simp [Function.update, cfg, hm]
  | _ => simp [Function.update, cfg]

theorem F_adag {n s : Nat} (h : s < 2) : F (.boson true ()) (K n s) = Real.sqrt (n + 1) • K (n + 1) s := by
  rw [F, K, fockGen_ket _ (cfg_phys h)]
  simp only [genAct]
  rw [if_pos (by simp), upd_b]
  simp [ketAmp, cfg]

theorem F_a {n s : Nat} (h : s < 2) : F (.boson false ()) (K (n + 1) s) = Real.sqrt (n + 1) • K n s := by
  rw [F, K, fockGen_ket _ (cfg_phys h)]
  simp only [genAct]
  rw [if_neg (by simp [cfg]), upd_b]
  simp [ketAmp, cfg]

theorem F_a0 {s : Nat} (h : s < 2) : F (.boson false ()) (K 0 s) = 0 := by
  rw [F, K, fockGen_ket _ (cfg_phys h)]
  simp only [genAct]
  rw [if_pos (by simp [cfg])]
  simp [ketAmp]

theorem F_z {n s : Nat} (h : s < 2) : F (.spin 2 .z ()) (K n s) = ((s : ℝ) - 1 / 2) • K n s := by
  rw [F, K, fock_z_ket (cfg_phys h)]
  simp [cfg, spinS]; norm_num

theorem F_p0 (n : Nat) : F (.spin 2 .plus ()) (K n 0) = K n 1 := by
  rw [F, K, fockGen_ket _ (cfg_phys (by norm_num))]
  simp only [genAct]
  rw [if_pos (by simp [cfg]), upd_s]
  simp [ketAmp, cfg, spinS]; norm_num

theorem F_p1 (n : Nat) : F (.spin 2 .plus ()) (K n 1) = 0 := by
  rw [F, K, fockGen_ket _ (cfg_phys (by norm_num))]
  simp only [genAct]
  rw [if_neg (by simp [cfg])]
  simp [ketAmp]

theorem F_m1 (n : Nat) : F (.spin 2 .minus ()) (K n 1) = K n 0 := by
  rw [F, K, fockGen_ket _ (cfg_phys (by norm_num))]
  simp only [genAct]
  rw [if_neg (by simp [cfg]), upd_s]
  simp [ketAmp, cfg, spinS]; norm_num

theorem F_m0 (n : Nat) : F (.spin 2 .minus ()) (K n 0) = 0 := by
  rw [F, K, fockGen_ket _ (cfg_phys (by norm_num))]
  simp only [genAct]
  rw [if_pos (by simp [cfg])]
  simp [ketAmp]

/-- The Hamiltonian on the Fock space. -/
noncomputable def HF (p : Params) : Module.End ℝ (FockSpace Unit ℝ) :=
  (p.hbar * p.wc) • (F (.boson true ()) * F (.boson false ())) + (p.hbar * p.wa) • F (.spin 2 .z ()) +
    (p.hbar * 0.5 * p.omega) • (F (.boson false ()) * F (.spin 2 .plus ()) + F (.boson true ()) * F (.spin 2 .minus ()))

theorem HF_gs (p : Params) : HF p (K 0 0) = energyGs p • K 0 0 := by
  simp only [HF, LinearMap.add_apply, LinearMap.smul_apply, Module.End.mul_apply, F_a0 (s := 0) (by norm_num), F_m0, F_p0,
    F_a0 (s := 1) (by norm_num), F_z (s := 0) (by norm_num), map_zero, smul_zero, add_zero, zero_add, smul_smul, energyGs]
  congr 1
  push_cast; ring

theorem HF_e (p : Params) (n : Nat) : HF p (K n 1) = (p.hbar * p.wc * n + p.hbar * p.wa / 2) • K n 1 +
    (p.hbar / 2 * p.omega * Real.sqrt (n + 1)) • K (n + 1) 0 := by
  have hn : F (.boson true ()) (F (.boson false ()) (K n 1)) = (n : ℝ) • K n 1 := by
    cases n with
    | zero => rw [F_a0 (by norm_num), map_zero]; simp
    | succ n =>
      rw [F_a (by norm_num), map_smul, F_adag (by norm_num), smul_smul, Real.mul_self_sqrt (by positivity)]
      push_cast; rfl
  simp only [HF, LinearMap.add_apply, LinearMap.smul_apply, Module.End.mul_apply, hn, F_p1, F_m1, F_adag (s := 0) (by norm_num),
    F_z (s := 1) (by norm_num), map_zero, smul_zero, add_zero, zero_add, smul_smul]
  module

theorem HF_g (p : Params) (n : Nat) : HF p (K (n + 1) 0) = (p.hbar * p.wc * (n + 1) - p.hbar * p.wa / 2) • K (n + 1) 0 +
    (p.hbar / 2 * p.omega * Real.sqrt (n + 1)) • K n 1 := by
  have hn : F (.boson true ()) (F (.boson false ()) (K (n + 1) 0)) = (n + 1 : ℝ) • K (n + 1) 0 := by
    rw [F_a (by norm_num), map_smul, F_adag (by norm_num), smul_smul, Real.mul_self_sqrt (by positivity)]
  simp only [HF, LinearMap.add_apply, LinearMap.smul_apply, Module.End.mul_apply, hn, F_p0, F_m0, F_a (s := 1) (by norm_num),
    F_z (s := 0) (by norm_num), map_zero, smul_zero, add_zero, zero_add, smul_smul]
  module

/-- The 2×2 eigenvalue problem. -/
theorem HF_doublet (p : Params) (n : Nat) (x y e r : ℝ) (h1 : p.delta * x + p.omega * Real.sqrt (n + 1) * y = r * x)
    (h2 : p.omega * Real.sqrt (n + 1) * x - p.delta * y = r * y) (he : e = p.hbar * p.wc * ((n : ℝ) + 1 - 0.5) + 0.5 * p.hbar * r) :
    HF p (x • K n 1 + y • K (n + 1) 0) = e • (x • K n 1 + y • K (n + 1) 0) := by
  rw [map_add, map_smul, map_smul, HF_e, HF_g]
  have e1 : x * (p.hbar * p.wc * n + p.hbar * p.wa / 2) + y * (p.hbar / 2 * p.omega * Real.sqrt (n + 1)) = e * x := by
    rw [he]; unfold Params.delta at h1
    linear_combination (p.hbar / 2) * h1
  have e2 : x * (p.hbar / 2 * p.omega * Real.sqrt (n + 1)) + y * (p.hbar * p.wc * (n + 1) - p.hbar * p.wa / 2) = e * y := by
    rw [he]; unfold Params.delta at h2
    linear_combination (p.hbar / 2) * h2
  rw [show e • (x • K n 1 + y • K (n + 1) 0) = (e * x) • K n 1 + (e * y) • K (n + 1) 0 by module, ← e1, ← e2]
  module

open Factory in
theorem r_ham {P : Gen Unit → Prop} (hb : ∀ d, P (.boson d ())) (hs : ∀ c, P (.spin 2 c ())) (p : Params) :
    Reachable P (ham p) ∧ Reachable P num := by
  have r1 : Reachable P (aDag () : E) := .ofMonomial _ _ (by simp [hb])
  have r2 : Reachable P (a () : E) := .ofMonomial _ _ (by simp [hb])
  have r3 : ∀ c, Reachable P (spin 2 c () : E) := fun c => .ofMonomial _ _ (by simp [hs])
  have sm : ∀ (x : ℝ) {e : E}, Reachable P e → Reachable P (x • e : E) := fun x e h => Reachable.smulPrefix x h
  exact ⟨(((sm _ r1).mul r2).add (sm _ (r3 _))).add (sm _ ((r2.mul (r3 _)).add (r1.mul (r3 _)))), (r1.mul r2).add (r3 _)⟩

section
variable {A : Type _} [Ring A] [Algebra ℝ A] {ρ : Gen Unit → A} (hρ : TextbookRel ℝ Reg.halfOnly ρ)
include hρ

open Factory in
theorem eval_ham (p : Params) :
    evalExpr ρ (ham p) = (p.hbar * p.wc) • (ρ (.boson true ()) * ρ (.boson false ())) + (p.hbar * p.wa) • ρ (.spin 2 .z ()) +
    (p.hbar * 0.5 * p.omega) • (ρ (.boson false ()) * ρ (.spin 2 .plus ()) + ρ (.boson true ()) * ρ (.spin 2 .minus ())) ∧
    evalExpr ρ num = ρ (.boson true ()) * ρ (.boson false ()) + ρ (.spin 2 .z ()) := by
  have hr : Represents ℝ Reg.PH ρ := represents_of_textbook Reg.halfAlone hρ
  have r1 : Reachable FBS (aDag () : E) := .ofMonomial _ _ (by simp [FBS])
  have r2 : Reachable FBS (a () : E) := .ofMonomial _ _ (by simp [FBS])
  have r3 : ∀ c, Reachable FBS (spin 2 c () : E) := fun c => .ofMonomial _ _ (by simp [FBS])
  have m : ∀ {x y : E}, Reachable FBS x → Reachable FBS y → evalExpr ρ (x * y) = evalExpr ρ x * evalExpr ρ y :=
    fun hx hy => eval_mul hr (FBS.inP hx) (FBS.inP hy)
  have sm : ∀ (x : ℝ) (e : E), evalExpr ρ (x • e) = x • evalExpr ρ e := fun x e => eval_smul x e
  have g1 : evalExpr ρ (aDag () : E) = ρ (.boson true ()) := (eval_ofMonomial hr 1 _ (by simp [Reg.PH, Allowed, Reg.halfOnly])).trans (by simp [evalMon])
  have g2 : evalExpr ρ (a () : E) = ρ (.boson false ()) := (eval_ofMonomial hr 1 _ (by simp [Reg.PH, Allowed, Reg.halfOnly])).trans (by simp [evalMon])
  have g3 : ∀ c, evalExpr ρ (spin 2 c () : E) = ρ (.spin 2 c ()) := fun c =>
    (eval_ofMonomial hr 1 _ (by simp [Reg.PH, Allowed, Reg.halfOnly])).trans (by simp [evalMon])
  constructor
  · rw [ham, eval_add, eval_add, m (show Reachable FBS ((p.hbar * p.wc) • (aDag () : E)) from Reachable.smulPrefix _ r1) r2, sm, sm, sm, eval_add,
      m r2 (r3 _), m r1 (r3 _), g1, g2, g3, g3, g3, smul_mul_assoc]
  · rw [num, eval_add, m r1 r2, g1, g2, g3]

/-- `H` and `N` commute. -/
theorem ham_num (p : Params) : evalExpr ρ (ham p) * evalExpr ρ num = evalExpr ρ num * evalExpr ρ (ham p) := by
  rw [(eval_ham hρ p).1, (eval_ham hρ p).2]
  have yx := hρ.ccr () ()
  have zp := hρ.spin_zp 2 () rfl
  have zm := hρ.spin_zm 2 () rfl
  have c := fun d e => hρ.comm_bs d () 2 e () rfl
  rw [if_pos rfl, sub_eq_iff_eq_add] at yx
  rw [sub_eq_iff_eq_add] at zp zm
  have cx := c true; have cy := c false
  clear c
  generalize ρ (.boson true ()) = X at *
  generalize ρ (.boson false ()) = Y at *
  have xp := cx .plus; have xm := cx .minus; have xz := cx .z
  have yp := cy .plus; have ym := cy .minus; have yz := cy .z
  clear cx cy
  generalize ρ (.spin 2 .plus ()) = P at *
  generalize ρ (.spin 2 .minus ()) = M at *
  generalize ρ (.spin 2 .z ()) = Z at *
  have c1 : Commute (X * Y) (X * Y + Z) := (Commute.refl _).add_right (Commute.mul_left (show Commute X Z from xz) (show Commute Y Z from yz))
  have c2 : Commute Z (X * Y + Z) := (Commute.mul_right (show Commute Z X from xz.symm) (show Commute Z Y from yz.symm)).add_right (Commute.refl _)
  have c3 : Commute (Y * P + X * M) (X * Y + Z) := by
    have t1 : Y * P * (X * Y + Z) = (X * Y + Z) * (Y * P) := by
      calc Y * P * (X * Y + Z) = Y * (P * X) * Y + Y * (P * Z) := by noncomm_ring
        _ = (Y * X) * (P * Y) + Y * (P * Z) := by rw [← xp]; noncomm_ring
        _ = (1 + X * Y) * (Y * P) + Y * (P * Z) := by rw [yx, ← yp]
        _ = X * Y * (Y * P) + Y * (P + P * Z) := by noncomm_ring
        _ = X * Y * (Y * P) + (Y * Z) * P := by rw [← zp]; noncomm_ring
        _ = (X * Y + Z) * (Y * P) := by rw [yz]; noncomm_ring
    have t2 : X * M * (X * Y + Z) = (X * Y + Z) * (X * M) := by
      calc X * M * (X * Y + Z) = X * (M * X) * Y + X * (M * Z) := by noncomm_ring
        _ = X * X * (M * Y) + X * (M * Z) := by rw [← xm]; noncomm_ring
        _ = X * (1 + X * Y) * M + X * (-M + M * Z) := by rw [← ym]; noncomm_ring
        _ = X * (Y * X) * M + (X * Z) * M := by rw [← zm, ← yx]; noncomm_ring
        _ = (X * Y + Z) * (X * M) := by rw [xz]; noncomm_ring
    show _ = _
    rw [add_mul, t1, t2, ← mul_add]
  exact (((c1.smul_left _).add_left (c2.smul_left _)).add_left (c3.smul_left _)).eq
end
end JaynesCummings
end LC
