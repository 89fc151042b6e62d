import Verif.Proof.ComplexFactories
import Verif.Props.AllSpins
import Verif.Props.Relations
import Verif.Props.Products
import Verif.Props.Expression
/-
C88: `S_x`, `S_y` and `make_complex`.
-/
set_option linter.unusedSectionVars false
set_option linter.unusedSimpArgs false
set_option linter.unusedVariables false
namespace LC
open Expr Factory ComplexFactory
namespace ComplexFactory
variable {ι : Type} [LinearOrder ι]

/-! #### coefficients of linear combinations and products -/

section lin
variable {a b c : Expr (Gen ι) ℂ} {x : ℂ}

theorem wf_sm (ha : a.WF) : (x • a).WF := wf_smulPrefix _ ha

theorem k_add (ha : a.WF) (hb : b.WF) (k) : (a + b).coeff k = a.coeff k + b.coeff k := coeff_add ha hb k
theorem k_sub (ha : a.WF) (hb : b.WF) (k) : (a - b).coeff k = a.coeff k - b.coeff k := coeff_sub ha hb k
theorem k_smul (k) : (x • a).coeff k = x * a.coeff k := coeff_smulPrefix x a k
theorem k_neg (k) : (-a).coeff k = -a.coeff k := coeff_neg a k
theorem m_add (ha : a.WF) (hb : b.WF) (hc : c.WF) : (a + b) * c = a * c + b * c :=
  (eqOp_iff _ _).1 (Laws.bilinear 0 ha hb hc).1
theorem m_add' (ha : a.WF) (hb : b.WF) (hc : c.WF) : a * (b + c) = a * b + a * c :=
  (eqOp_iff _ _).1 (Laws.bilinear 0 ha hb hc).2.1
theorem m_smul (ha : a.WF) (hb : b.WF) : (x • a) * b = x • (a * b) :=
  (eqOp_iff _ _).1 (Laws.bilinear x ha hb hb).2.2.1
theorem m_smul' (ha : a.WF) (hb : b.WF) : a * (x • b) = x • (a * b) :=
  (eqOp_iff _ _).1 (Laws.bilinear x ha hb hb).2.2.2.1
theorem m_neg (ha : a.WF) (hb : b.WF) : (-a) * b = -(a * b) :=
  (eqOp_iff _ _).1 (Laws.bilinear 0 ha hb hb).2.2.2.2.1
theorem m_neg' (ha : a.WF) (hb : b.WF) : a * (-b) = -(a * b) :=
  (eqOp_iff _ _).1 (Laws.bilinear 0 ha hb hb).2.2.2.2.2.1
theorem s_neg (ha : a.WF) (hb : b.WF) : a - b = a + -b :=
  (eqOp_iff _ _).1 (Laws.zero_neg_sub ha hb).2.2.2.2.1
theorem m_sub (ha : a.WF) (hb : b.WF) (hc : c.WF) : (a - b) * c = a * c - b * c := by
  rw [s_neg ha hb, m_add ha (wf_neg hb) hc, m_neg hb hc, ← s_neg (wf_mul ha hc) (wf_mul hb hc)]
theorem m_sub' (ha : a.WF) (hb : b.WF) (hc : c.WF) : a * (b - c) = a * b - a * c := by
  rw [s_neg hb hc, m_add' ha hb (wf_neg hc), m_neg' ha hc, ← s_neg (wf_mul ha hb) (wf_mul ha hc)]
end lin

/-- Well-formedness of linear combinations of products of spin operators. -/
macro "wf" : tactic => `(tactic| repeat' first
  | exact wf_spin _ _ _ | exact wf_const _ | exact wf_zero | assumption
  | apply wf_add | apply wf_sub | apply wf_neg | apply wf_sm | apply wf_mul)

/-- Expands products of linear combinations and takes coefficients. -/
macro "expand" : tactic => `(tactic| simp (disch := wf) only [m_add, m_add', m_sub, m_sub', m_smul, m_smul', k_add, k_sub, k_smul,
  k_neg])

variable (m : Nat) (i : ι)

theorem comm_pm : (spin m .plus i * spin m .minus i - spin m .minus i * spin m .plus i : Expr (Gen ι) ℂ) =
    (2 : ℂ) • spin m .z i := (eqOp_iff _ _).1 (C15_spin_commutators m i).1
theorem comm_zp : (spin m .z i * spin m .plus i - spin m .plus i * spin m .z i : Expr (Gen ι) ℂ) =
    spin m .plus i := (eqOp_iff _ _).1 (C15_spin_commutators m i).2.1
theorem comm_zm : (spin m .z i * spin m .minus i - spin m .minus i * spin m .z i : Expr (Gen ι) ℂ) =
    -spin m .minus i := (eqOp_iff _ _).1 (C15_spin_commutators m i).2.2

theorem I2 : Complex.I * Complex.I = -1 := Complex.I_mul_I

/-- **C88** `[S_x, S_y] = i S_z` and its cyclic permutations, for every multiplicity and index. -/
theorem _root_.LC.C88_spin_commutators :
    (Sx m i * Sy m i - Sy m i * Sx m i : Expr (Gen ι) ℂ).eqOp (Complex.I • spin m .z i) = true ∧
    (Sy m i * spin m .z i - spin m .z i * Sy m i : Expr (Gen ι) ℂ).eqOp (Complex.I • Sx m i) = true ∧
    (spin m .z i * Sx m i - Sx m i * spin m .z i : Expr (Gen ι) ℂ).eqOp (Complex.I • Sy m i) = true := by
  rw [sX_eq, sY_eq]
  simp only [eqOp_iff]
  have h1 : ∀ k, _ := fun k => congrArg (fun e => Expr.coeff e k) (comm_pm m i)
  have h2 : ∀ k, _ := fun k => congrArg (fun e => Expr.coeff e k) (comm_zp m i)
  have h3 : ∀ k, _ := fun k => congrArg (fun e => Expr.coeff e k) (comm_zm m i)
  simp (disch := wf) only [k_sub, k_smul, k_neg] at h1 h2 h3
  refine ⟨ext_coeff (by wf) (by wf) fun k => ?_, ext_coeff (by wf) (by wf) fun k => ?_, ext_coeff (by wf) (by wf) fun k => ?_⟩
  · expand
    linear_combination (Complex.I / 2) * h1 k
  · expand
    linear_combination (Complex.I / 2) * h2 k - (Complex.I / 2) * h3 k
  · expand
    linear_combination (1 / 2) * h2 k + (1 / 2) * h3 k + (((spin m .plus i : Expr (Gen ι) ℂ).coeff k - (spin m .minus i : Expr (Gen ι) ℂ).coeff k) / 2) * I2

/-- **C88** `S_x + i S_y = S_+`, `S_x - i S_y = S_-`. -/
theorem _root_.LC.C88_ladder :
    (Sx m i + Complex.I • Sy m i : Expr (Gen ι) ℂ).eqOp (spin m .plus i) = true ∧
    (Sx m i - Complex.I • Sy m i : Expr (Gen ι) ℂ).eqOp (spin m .minus i) = true := by
  rw [sX_eq, sY_eq]
  simp only [eqOp_iff]
  refine ⟨ext_coeff (by wf) (by wf) fun k => ?_, ext_coeff (by wf) (by wf) fun k => ?_⟩
  · expand
    linear_combination (-((spin m .plus i : Expr (Gen ι) ℂ).coeff k - (spin m .minus i : Expr (Gen ι) ℂ).coeff k) / 2) * I2
  · expand
    linear_combination (((spin m .plus i : Expr (Gen ι) ℂ).coeff k - (spin m .minus i : Expr (Gen ι) ℂ).coeff k) / 2) * I2

/-- Spins of one multiplicity at every index. -/
def only (m : Nat) : Nat → ι → Prop := fun n _ => n = m

theorem onlyAlone : HalfAlone (only m : Nat → ι → Prop) := fun i n h h' => h'.trans h.symm

theorem reach (c : SpinComp) : Reachable (Allowed (only m)) (spin m c i : Expr (Gen ι) ℂ) :=
  .ofMonomial _ _ (by simp [Allowed, only])

theorem conj_spin (c : SpinComp) : (spin m c i : Expr (Gen ι) ℂ).conj =
    spin m (match c with | .z => .z | .plus => .minus | .minus => .plus) i := by
  have h1 : ∀ c, (spin m c i : Expr (Gen ι) ℂ).terms = [([.spin m c i], 1)] := fun c => ofMonomial_single_terms _
  have h3 : (spin m c i : Expr (Gen ι) ℂ).conj = 0 + const 1 * ofLinFun (GenOps.conj (Gen.spin m c i)) := by
    rw [Expr.conj, h1]
    simp only [List.foldl_cons, List.foldl_nil, List.reverse_singleton, star_one, if_neg (one_ne_zero : (1 : ℂ) ≠ 0)]
    rfl
  have h5 := ofLinFun_conj (S := ℂ) (Gen.spin m c i)
  rw [h3, h5]
  apply Expr.ext
  rw [h1]
  simp [mul_def, add_def, Expr.const, mulLog, emits_single, Terms.storeAll, Terms.store, Terms.find?, Terms.emplace, Gen.dag]
  cases c <;> rfl

/-- **C88** `S_x`, `S_y` (and `S_z`) are Hermitian. -/
theorem _root_.LC.C88_hermitian : (Sx m i : Expr (Gen ι) ℂ).conj.eqOp (Sx m i) = true ∧
    (Sy m i : Expr (Gen ι) ℂ).conj.eqOp (Sy m i) = true ∧
    (spin m .z i : Expr (Gen ι) ℂ).conj.eqOp (spin m .z i) = true := by
  rw [sX_eq, sY_eq]
  simp only [eqOp_iff]
  have hp := reach m i .plus
  have hm := reach m i .minus
  refine ⟨?_, ?_, conj_spin m i .z⟩
  · rw [(eqOp_iff _ _).1 (C17_conj_all_spins (onlyAlone m) _ (hp.add hm) hp).2.2.1,
      (eqOp_iff _ _).1 (C17_conj_all_spins (onlyAlone m) 0 hp hm).2.1, conj_spin, conj_spin]
    refine ext_coeff (by wf) (by wf) fun k => ?_
    expand
    have : star (1 / 2 : ℂ) = 1 / 2 := by simp
    rw [this]; ring
  · have e : (spin m .plus i - spin m .minus i : Expr (Gen ι) ℂ) = spin m .plus i + (-1 : ℂ) • spin m .minus i := by
      refine ext_coeff (by wf) (by wf) fun k => ?_
      expand; ring
    have hm' : Reachable (Allowed (only m)) ((-1 : ℂ) • spin m .minus i : Expr (Gen ι) ℂ) := .smulPrefix _ hm
    rw [e, (eqOp_iff _ _).1 (C17_conj_all_spins (onlyAlone m) _ (hp.add hm') hp).2.2.1,
      (eqOp_iff _ _).1 (C17_conj_all_spins (onlyAlone m) 0 hp hm').2.1,
      (eqOp_iff _ _).1 (C17_conj_all_spins (onlyAlone m) (-1) hm hm).2.2.1, conj_spin, conj_spin]
    refine ext_coeff (by wf) (by wf) fun k => ?_
    expand
    have : star (-(1 / 2) * Complex.I : ℂ) = 1 / 2 * Complex.I := by simp
    rw [this]; simp; ring

/-- **C88** For spin 1/2 the operators anticommute with each other and their squares are 1/4:
`S_a S_b + S_b S_a = δ_ab / 2`; and `S_x S_y = (i/2) S_z` (cyclic). -/
theorem _root_.LC.C88_spin_half :
    (Sx 2 i * Sx 2 i : Expr (Gen ι) ℂ).eqOp (const (1 / 4)) = true ∧
    (Sy 2 i * Sy 2 i : Expr (Gen ι) ℂ).eqOp (const (1 / 4)) = true ∧
    (Sx 2 i * Sy 2 i : Expr (Gen ι) ℂ).eqOp ((Complex.I / 2) • spin 2 .z i) = true ∧
    (Sy 2 i * spin 2 .z i : Expr (Gen ι) ℂ).eqOp ((Complex.I / 2) • Sx 2 i) = true ∧
    (spin 2 .z i * Sx 2 i : Expr (Gen ι) ℂ).eqOp ((Complex.I / 2) • Sy 2 i) = true ∧
    (Sy 2 i * Sx 2 i : Expr (Gen ι) ℂ).eqOp ((-(Complex.I / 2)) • spin 2 .z i) = true ∧
    (spin 2 .z i * Sy 2 i : Expr (Gen ι) ℂ).eqOp ((-(Complex.I / 2)) • Sx 2 i) = true ∧
    (Sx 2 i * spin 2 .z i : Expr (Gen ι) ℂ).eqOp ((-(Complex.I / 2)) • Sy 2 i) = true := by
  rw [sX_eq, sY_eq]
  obtain ⟨hzz, hpm, hmp, hzp, hpz, hzm, hmz, hpp, hmm⟩ :=
    C15_spin_half_products (S := ℂ) i (1 / 2) (1 / 4) (by norm_num) (by norm_num)
  simp only [eqOp_iff] at *
  have z0 : ∀ k, (0 : Expr (Gen ι) ℂ).coeff k = 0 := fun k => coeff_zero k
  have c0 : ∀ x k, (const x : Expr (Gen ι) ℂ).coeff k = x * (const 1 : Expr (Gen ι) ℂ).coeff k := fun x k => by
    rw [coeff_const, coeff_const]; split <;> simp
  refine ⟨?_, ?_, ?_, ?_, ?_, ?_, ?_, ?_⟩ <;> refine ext_coeff (by wf) (by wf) fun k => ?_ <;> expand <;>
    simp (disch := wf) only [hzz, hpm, hmp, hzp, hpz, hzm, hmz, hpp, hmm, k_add, k_smul, k_sub, z0] <;>
    (try simp only [c0 (1 / 2), c0 (1 / 4)]) <;> ring_nf <;> simp only [Complex.I_sq] <;> ring

theorem single_assoc (c d e : SpinComp) (h : ∀ s, s ≠ SpinComp.z → ¬ (c = s ∧ d = s ∧ e = s)) :
    (spin m c i * spin m d i * spin m e i : Expr (Gen ι) ℂ) = spin m c i * (spin m d i * spin m e i) := by
  refine (eqOp_iff _ _).1 (C11_mul_assoc_low_powers (onlyAlone m) (reach m i c) (reach m i d) (reach m i e) ?_)
  have h1 : ∀ s : SpinComp, (spin m s i : Expr (Gen ι) ℂ).terms = [([.spin m s i], 1)] :=
    fun s => ofMonomial_single_terms _
  simp only [h1, List.mem_singleton]
  rintro p rfl q rfl r rfl n s j hn hs
  have hh := h s hs
  simp only [ladderPower, List.count_cons, List.count_nil, Gen.spin.injEq, beq_iff_eq]
  have : (3 : ℕ) ≤ max n 3 := by omega
  by_cases h1 : c = s <;> by_cases h2 : d = s <;> by_cases h3 : e = s <;> simp [h1, h2, h3] <;> first | (split_ifs <;> omega) | (exfalso; exact hh ⟨h1, h2, h3⟩)

/-- Not three times the same ladder operator. -/
macro "sd" : tactic => `(tactic| (rintro s hs ⟨h1, h2, h3⟩; subst h1; first | exact hs rfl | cases h2 | cases h3))

theorem pz : (spin m .plus i * spin m .z i : Expr (Gen ι) ℂ) = spin m .z i * spin m .plus i - spin m .plus i := by
  have h := comm_zp m i
  refine ext_coeff (by wf) (by wf) fun k => ?_
  have := congrArg (fun e => Expr.coeff e k) h
  simp (disch := wf) only [k_sub] at this ⊢
  linear_combination -this
theorem mz : (spin m .minus i * spin m .z i : Expr (Gen ι) ℂ) = spin m .z i * spin m .minus i + spin m .minus i := by
  have h := comm_zm m i
  refine ext_coeff (by wf) (by wf) fun k => ?_
  have := congrArg (fun e => Expr.coeff e k) h
  simp (disch := wf) only [k_sub, k_add, k_neg] at this ⊢
  linear_combination -this
theorem pm : (spin m .plus i * spin m .minus i : Expr (Gen ι) ℂ) = spin m .minus i * spin m .plus i + (2 : ℂ) • spin m .z i := by
  have h := comm_pm m i
  refine ext_coeff (by wf) (by wf) fun k => ?_
  have := congrArg (fun e => Expr.coeff e k) h
  simp (disch := wf) only [k_sub, k_add, k_smul] at this ⊢
  linear_combination this

/-- `S_x² + S_y² + S_z²` -/
noncomputable def Ssq (m : Nat) (i : ι) : Expr (Gen ι) ℂ := Sx m i * Sx m i + Sy m i * Sy m i + spin m .z i * spin m .z i

theorem ssq_eq : (Ssq m i : Expr (Gen ι) ℂ) = spin m .minus i * spin m .plus i + spin m .z i * spin m .z i + spin m .z i := by
  rw [Ssq, sX_eq, sY_eq]
  refine ext_coeff (by wf) (by wf) fun k => ?_
  expand
  rw [pm]
  expand
  ring_nf; simp only [Complex.I_sq]; ring

theorem ssq_z : (Ssq m i * spin m .z i : Expr (Gen ι) ℂ) = spin m .z i * Ssq m i := by
  rw [ssq_eq]
  have h1 : (spin m .minus i * spin m .plus i * spin m .z i : Expr (Gen ι) ℂ) = spin m .z i * (spin m .minus i * spin m .plus i) := by
    rw [single_assoc m i _ _ _ (by sd), pz, m_sub' (by wf) (by wf) (by wf), ← single_assoc m i _ _ _ (by sd), mz,
      m_add (by wf) (by wf) (by wf), single_assoc m i _ _ _ (by sd)]
    refine ext_coeff (by wf) (by wf) fun k => ?_
    simp (disch := wf) only [k_add, k_sub]; ring
  refine ext_coeff (by wf) (by wf) fun k => ?_
  simp (disch := wf) only [m_add, m_add', k_add, h1, single_assoc m i .z .z .z (by sd)]

theorem ssq_p : (Ssq m i * spin m .plus i : Expr (Gen ι) ℂ) = spin m .plus i * Ssq m i := by
  rw [ssq_eq]
  have h1 : (spin m .plus i * (spin m .minus i * spin m .plus i) : Expr (Gen ι) ℂ) =
      spin m .minus i * spin m .plus i * spin m .plus i + (2 : ℂ) • (spin m .z i * spin m .plus i) := by
    rw [← single_assoc m i _ _ _ (by sd), pm, m_add (by wf) (by wf) (by wf), m_smul (by wf) (by wf)]
  have h2 : (spin m .plus i * (spin m .z i * spin m .z i) : Expr (Gen ι) ℂ) =
      spin m .z i * spin m .z i * spin m .plus i - spin m .z i * spin m .plus i - (spin m .z i * spin m .plus i - spin m .plus i) := by
    rw [← single_assoc m i _ _ _ (by sd), pz, m_sub (by wf) (by wf) (by wf), single_assoc m i _ _ _ (by sd), pz,
      m_sub' (by wf) (by wf) (by wf), single_assoc m i _ _ _ (by sd)]
  refine ext_coeff (by wf) (by wf) fun k => ?_
  simp (disch := wf) only [m_add, m_add', h1, h2, pz, k_add, k_sub, k_smul]
  ring

theorem ssq_m : (Ssq m i * spin m .minus i : Expr (Gen ι) ℂ) = spin m .minus i * Ssq m i := by
  rw [ssq_eq]
  have h1 : (spin m .minus i * spin m .plus i * spin m .minus i : Expr (Gen ι) ℂ) =
      spin m .minus i * (spin m .minus i * spin m .plus i) + (2 : ℂ) • (spin m .z i * spin m .minus i + spin m .minus i) := by
    rw [single_assoc m i _ _ _ (by sd), pm, m_add' (by wf) (by wf) (by wf), m_smul' (by wf) (by wf), mz]
  have h2 : (spin m .minus i * (spin m .z i * spin m .z i) : Expr (Gen ι) ℂ) =
      spin m .z i * spin m .z i * spin m .minus i + spin m .z i * spin m .minus i + (spin m .z i * spin m .minus i + spin m .minus i) := by
    rw [← single_assoc m i _ _ _ (by sd), mz, m_add (by wf) (by wf) (by wf), single_assoc m i _ _ _ (by sd), mz,
      m_add' (by wf) (by wf) (by wf), single_assoc m i _ _ _ (by sd)]
  refine ext_coeff (by wf) (by wf) fun k => ?_
  simp (disch := wf) only [m_add, m_add', h1, h2, mz, k_add, k_sub, k_smul]
  ring

/-- **C88** The square of the spin is `S_- S_+ + S_z² + S_z`; it commutes with `S_x`, `S_y`, `S_z`, for every multiplicity;
for spin 1/2 it is the constant 3/4. -/
theorem _root_.LC.C88_spin_square :
    let S2 : Expr (Gen ι) ℂ := Sx m i * Sx m i + Sy m i * Sy m i + spin m .z i * spin m .z i
    S2.eqOp (spin m .minus i * spin m .plus i + spin m .z i * spin m .z i + spin m .z i) = true ∧
    (S2 * Sx m i).eqOp (Sx m i * S2) = true ∧ (S2 * Sy m i).eqOp (Sy m i * S2) = true ∧
    (S2 * spin m .z i).eqOp (spin m .z i * S2) = true ∧ (m = 2 → S2.eqOp (const (3 / 4)) = true) := by
  intro S2
  have hS : S2 = Ssq m i := rfl
  have hw : (Ssq m i : Expr (Gen ι) ℂ).WF := by rw [ssq_eq]; wf
  simp only [eqOp_iff]
  rw [hS]
  refine ⟨ssq_eq m i, ?_, ?_, ssq_z m i, ?_⟩
  · rw [sX_eq]
    refine ext_coeff (by wf) (by wf) fun k => ?_
    expand
    rw [ssq_p, ssq_m]
  · rw [sY_eq]
    refine ext_coeff (by wf) (by wf) fun k => ?_
    expand
    rw [ssq_p, ssq_m]
  · rintro rfl
    obtain ⟨hx, hy, -⟩ := C88_spin_half i
    obtain ⟨hzz, -⟩ := C15_spin_half_products (S := ℂ) i (1 / 2) (1 / 4) (by norm_num) (by norm_num)
    simp only [eqOp_iff] at hx hy hzz
    rw [Ssq, hx, hy, hzz]
    refine ext_coeff (by wf) (by wf) fun k => ?_
    simp (disch := wf) only [k_add, coeff_const]
    split <;> norm_num

/-- **C88** Operators at different sites commute. -/
theorem _root_.LC.C88_sites_commute (n : Nat) (j : ι) (h : i ≠ j) :
    (Sx m i * Sx n j : Expr (Gen ι) ℂ).eqOp (Sx n j * Sx m i) = true ∧
    (Sx m i * Sy n j : Expr (Gen ι) ℂ).eqOp (Sy n j * Sx m i) = true ∧
    (Sy m i * Sy n j : Expr (Gen ι) ℂ).eqOp (Sy n j * Sy m i) = true ∧
    (Sx m i * spin n .z j : Expr (Gen ι) ℂ).eqOp (spin n .z j * Sx m i) = true ∧
    (Sy m i * spin n .z j : Expr (Gen ι) ℂ).eqOp (spin n .z j * Sy m i) = true := by
  have hc : ∀ c e, (spin m c i * spin n e j : Expr (Gen ι) ℂ) = spin n e j * spin m c i := fun c e =>
    (eqOp_iff _ _).1 (C15_spin_sites_commute m n c e i j h)
  rw [sX_eq, sX_eq, sY_eq, sY_eq]
  simp only [eqOp_iff]
  refine ⟨?_, ?_, ?_, ?_, ?_⟩ <;> refine ext_coeff (by wf) (by wf) fun k => ?_ <;> expand <;> rw [hc] <;>
    (try rw [hc .plus .minus]) <;> (try rw [hc .minus .plus]) <;> (try rw [hc .minus .minus]) <;> (try rw [hc .minus .z]) <;> ring

/-- **C88** `make_complex` keeps the monomials and the coefficients, and commutes with all operations: it is an injective
homomorphism from the expressions with real coefficients to those with complex coefficients. -/
theorem _root_.LC.C88_make_complex {P : Gen ι → Prop} {a b : Expr (Gen ι) ℝ} (x : ℝ) (ha : Reachable P a) (hb : Reachable P b) :
    (toC a).terms = a.terms.map (fun p => (p.1, (p.2 : ℂ))) ∧
    (toC (a + b)).eqOp (toC a + toC b) = true ∧ (toC (a - b)).eqOp (toC a - toC b) = true ∧
    (toC (a * b)).eqOp (toC a * toC b) = true ∧ (toC (-a)).eqOp (-toC a) = true ∧
    (toC (x • a)).eqOp ((x : ℂ) • toC a) = true ∧ (toC a.conj).eqOp (toC a).conj = true ∧
    (toC (const x : Expr (Gen ι) ℝ)).eqOp (const (x : ℂ)) = true ∧
    ((toC a).eqOp (toC b) = true ↔ a.eqOp b = true) := by
  have wa := ha.wfG
  have wb := hb.wfG
  have wc : a.conj.WF := (Reachable.conj ha).wfG
  simp only [eqOp_iff]
  refine ⟨?_, ?_, ?_, ?_, ?_, ?_, ?_, ?_, ?_⟩
  · rw [toC_eq wa]; rfl
  · rw [toC_eq (wf_add wa wb), toC_eq wa, toC_eq wb, map_add]
  · rw [toC_eq (wf_sub wa wb), toC_eq wa, toC_eq wb, map_sub]
  · rw [toC_eq (wf_mul wa wb), toC_eq wa, toC_eq wb, map_mul]
  · rw [toC_eq (wf_neg wa), toC_eq wa, map_neg]
  · have hw : (x • a : Expr (Gen ι) ℝ).WF := wf_smulPrefix x wa
    rw [toC_eq hw, toC_eq wa, map_smul]
  · rw [toC_eq wc, toC_eq wa, map_conj]
  · rw [toC_eq (wf_const x), map_const]
  · rw [toC_eq wa, toC_eq wb, ← eqOp_iff, map_eqOp, eqOp_iff]

/-- **C88** `make_complex` of a product of generators is that product. -/
theorem _root_.LC.C88_make_complex_monomial (x : ℝ) (l : List (Gen ι)) :
    (toC (ofMonomial x l)).eqOp (ofMonomial (x : ℂ) l) = true := by
  rw [eqOp_iff, toC_eq (wf_ofMonomial x l), map_ofMonomial]

/-- A real expression with two terms and its complex version. -/
example : ∃ a : Expr (Gen Nat) ℝ, Reachable (fun _ => True) a ∧ (toC a).terms =
    [([], -2), ([Gen.boson true 1], 3)] := by
  refine ⟨(3 : ℝ) • aDag 1 + const (-2), .add (.smulPrefix _ (.ofMonomial _ _ (by simp))) (.const _), ?_⟩
  have h : ((3 : ℝ) • aDag 1 + const (-2) : Expr (Gen Nat) ℝ).terms = [([], -2), ([Gen.boson true 1], 3)] := by
    rw [add_def, smul_def]
    have h1 : (aDag 1 : Expr (Gen Nat) ℝ).terms = [([.boson true 1], 1)] := ofMonomial_single_terms _
    simp [smulPrefix, h1, Expr.const, Terms.storeAll, Terms.store, Terms.find?, Terms.emplace, monLt]
  have hw : ((3 : ℝ) • aDag 1 + const (-2) : Expr (Gen Nat) ℝ).WF :=
    wf_add (wf_smulPrefix _ (wf_ofMonomial _ _)) (wf_const _)
  rw [toC_eq hw, Expr.mapCoeffs, h]; simp

/-- `S_y` of a spin 1 at the site 7 has the terms `-i/2 S_+`, `i/2 S_-`. -/
example : (Sy 3 (7 : Nat)).terms = [([Gen.spin 3 .plus 7], -(1 / 2) * Complex.I), ([Gen.spin 3 .minus 7], 1 / 2 * Complex.I)] := by
  have h1 : ∀ c, (spin 3 c 7 : Expr (Gen Nat) ℂ).terms = [([.spin 3 c 7], 1)] := fun c => ofMonomial_single_terms _
  rw [sY_eq, smul_def, sub_def]
  have h2 : lexCompare GenOps.lt [Gen.spin 3 SpinComp.plus 7] [Gen.spin 3 SpinComp.minus (7 : Nat)] = true := by decide
  simp [smulPrefix, h1, neg_def, Terms.storeAll, Terms.store, Terms.find?, Terms.emplace, monLt, h2]

end ComplexFactory
end LC
