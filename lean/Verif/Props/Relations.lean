import Verif.Spec.Scalars
import Verif.Proof.TwoBody
import Verif.Proof.Conj
import Verif.Proof.Faithful
/-
C13–C16, C18: (anti)commutation relations of the factory functions, as equalities `==` of expressions.
-/
set_option linter.unusedSectionVars false
set_option linter.unusedSimpArgs false
namespace LC
open Expr Terms Factory
variable {ι S : Type _} [LinearOrder ι] [CommRing S] [DecidableEq S] [ConstScalar S] [ScalarLaws S] [IsDomain S]
  [CharZero S]

theorem wf1 (g : Gen ι) : (ofMonomial (1 : S) [g]).WF := wf_ofMonomial _ _
theorem wf2 (g h : Gen ι) : (ofMonomial (1 : S) [g] * ofMonomial 1 [h]).WF := wf_mul (wf1 g) (wf1 h)

theorem mk_int (i : Int) : (ConstScalar.makeConst (.integer i) : S) = (i : S) := ConstScalar.mk_integer i

theorem sp_half (c e : SpinComp) (i : ι) : GenOps.simplifyProd (Gen.spin 2 c i) (Gen.spin 2 e i)
    = some (if c = e then ⟨if c = .z then .rational 1 4 else .integer 0, []⟩
      else if e = .z then
        if c = .plus then ⟨.integer 0, [(Gen.spin 2 c i, .rational (-1) 2)]⟩
        else ⟨.integer 0, [(Gen.spin 2 c i, .rational 1 2)]⟩
      else ⟨.rational 1 2, [(Gen.spin 2 .z i, .integer 1)]⟩) := by
  simp only [GenOps.simplifyProd, Gen.simplifyProd]
  simp only [not_true_eq_false, ne_eq, or_self, if_false]
  split_ifs <;> rfl

/-- **C13** Canonical anticommutation relations, for all indices. -/
theorem C13_car (i j : ι) :
    (c i * cDag j + cDag j * c i : Expr (Gen ι) S).eqOp (Expr.const (if i = j then 1 else 0)) = true ∧
    (c i * c j + c j * c i : Expr (Gen ι) S).eqOp 0 = true ∧
    (cDag i * cDag j + cDag j * cDag i : Expr (Gen ι) S).eqOp 0 = true ∧
    (n i : Expr (Gen ι) S).eqOp (cDag i * c i) = true := by
  classical
  simp only [eqOp_iff, c, cDag, n]
  refine ⟨?_, ?_, ?_, (mul_single _ _).symm⟩
  · refine ext_coeff (wf_add (wf2 _ _) (wf2 _ _)) (wf_const _) fun k => ?_
    rw [coeff_add (wf2 _ _) (wf2 _ _), coeff_mul_single, coeff_mul_single, coeff_const]
    rw [emits_swap (by simp [GenOps.gt, Gen.gtOp, Gen.greater, Gen.algebraId]), emits_ok (by simp [GenOps.gt, Gen.gtOp, Gen.greater, Gen.algebraId])
      (by simp [GenOps.simplifyProd, Gen.simplifyProd, Gen.eqOp, Gen.equal]) _ one_ne_zero]
    by_cases h : i = j
    · subst h
      simp [linLog, GenOps.swapWith, Gen.swapWith, VarNumber.eq, VarNumber.isZero, mk_int]
      split_ifs <;> simp
    · simp [linLog, GenOps.swapWith, Gen.swapWith, VarNumber.eq, VarNumber.isZero, mk_int, h]
      split_ifs <;> simp
  · refine ext_coeff (wf_add (wf2 _ _) (wf2 _ _)) wf_zero fun k => ?_
    rw [coeff_add (wf2 _ _) (wf2 _ _), coeff_mul_single, coeff_mul_single, coeff_zero]
    rcases lt_trichotomy i j with h | h | h
    · rw [emits_swap (x := Gen.fermion false i) (by simp [GenOps.gt, Gen.gtOp, Gen.greater, Gen.algebraId, h]),
        emits_ok (by simp [GenOps.gt, Gen.gtOp, Gen.greater, Gen.algebraId, h.le])
        (by simp [GenOps.simplifyProd, Gen.simplifyProd, Gen.eqOp, Gen.equal, h.ne']) _ one_ne_zero]
      simp [linLog, GenOps.swapWith, Gen.swapWith, VarNumber.eq, VarNumber.isZero, mk_int]
      split_ifs <;> simp
    · subst h
      rw [emits_simp (f := ⟨.integer 0, []⟩) (by simp [GenOps.gt, Gen.gtOp, Gen.greater, Gen.algebraId])
        (by simp [GenOps.simplifyProd, Gen.simplifyProd, Gen.eqOp, Gen.equal])]
      simp [linLog, VarNumber.isZero]
    · rw [emits_swap (x := Gen.fermion false j) (by simp [GenOps.gt, Gen.gtOp, Gen.greater, Gen.algebraId, h]),
        emits_ok (by simp [GenOps.gt, Gen.gtOp, Gen.greater, Gen.algebraId, h.le])
        (by simp [GenOps.simplifyProd, Gen.simplifyProd, Gen.eqOp, Gen.equal, h.ne']) _ one_ne_zero]
      simp [linLog, GenOps.swapWith, Gen.swapWith, VarNumber.eq, VarNumber.isZero, mk_int]
      split_ifs <;> simp
  · refine ext_coeff (wf_add (wf2 _ _) (wf2 _ _)) wf_zero fun k => ?_
    rw [coeff_add (wf2 _ _) (wf2 _ _), coeff_mul_single, coeff_mul_single, coeff_zero]
    rcases lt_trichotomy i j with h | h | h
    · rw [emits_swap (x := Gen.fermion true j) (by simp [GenOps.gt, Gen.gtOp, Gen.greater, Gen.algebraId, h]),
        emits_ok (by simp [GenOps.gt, Gen.gtOp, Gen.greater, Gen.algebraId, h.le])
        (by simp [GenOps.simplifyProd, Gen.simplifyProd, Gen.eqOp, Gen.equal, h.ne]) _ one_ne_zero]
      simp [linLog, GenOps.swapWith, Gen.swapWith, VarNumber.eq, VarNumber.isZero, mk_int]
      split_ifs <;> simp
    · subst h
      rw [emits_simp (f := ⟨.integer 0, []⟩) (by simp [GenOps.gt, Gen.gtOp, Gen.greater, Gen.algebraId])
        (by simp [GenOps.simplifyProd, Gen.simplifyProd, Gen.eqOp, Gen.equal])]
      simp [linLog, VarNumber.isZero]
    · rw [emits_swap (x := Gen.fermion true i) (by simp [GenOps.gt, Gen.gtOp, Gen.greater, Gen.algebraId, h]),
        emits_ok (by simp [GenOps.gt, Gen.gtOp, Gen.greater, Gen.algebraId, h.le])
        (by simp [GenOps.simplifyProd, Gen.simplifyProd, Gen.eqOp, Gen.equal, h.ne]) _ one_ne_zero]
      simp [linLog, GenOps.swapWith, Gen.swapWith, VarNumber.eq, VarNumber.isZero, mk_int]
      split_ifs <;> simp

/-- **C14** Canonical commutation relations, for all indices. -/
theorem C14_ccr (i j : ι) :
    (a i * aDag j - aDag j * a i : Expr (Gen ι) S).eqOp (Expr.const (if i = j then 1 else 0)) = true ∧
    (a i * a j - a j * a i : Expr (Gen ι) S).eqOp 0 = true ∧
    (aDag i * aDag j - aDag j * aDag i : Expr (Gen ι) S).eqOp 0 = true := by
  classical
  simp only [eqOp_iff, a, aDag]
  have key : ∀ d (i j : ι), Gen.gtOp (.boson d i) (.boson d j) = true →
      ∀ k, sumAt (emits [Gen.boson d i, .boson d j] (1 : S)) k = sumAt (emits [Gen.boson d j, .boson d i] (1 : S)) k := by
    intro d i j h k
    rw [emits_swap (x := Gen.boson d i) h, emits_ok (x := Gen.boson d j) (ngt_of_gt (G := Gen ι) h) rfl _ one_ne_zero]
    simp [linLog, GenOps.swapWith, Gen.swapWith, VarNumber.eq, VarNumber.isZero, mk_int]
  have key2 : ∀ d (i j : ι) k, sumAt (emits [Gen.boson d i, .boson d j] (1 : S)) k
      = sumAt (emits [Gen.boson d j, .boson d i] (1 : S)) k := by
    intro d i j k
    rcases Gen.ltOp_tri (.boson d i) (.boson d j) with h | h | h
    · exact (key d j i (by rw [Gen.gtOp_eq]; exact h) k).symm
    · rw [h]
    · exact key d i j (by rw [Gen.gtOp_eq]; exact h) k
  refine ⟨?_, ?_, ?_⟩
  · refine ext_coeff (wf_sub (wf2 _ _) (wf2 _ _)) (wf_const _) fun k => ?_
    rw [coeff_sub (wf2 _ _) (wf2 _ _), coeff_mul_single, coeff_mul_single, coeff_const]
    rw [emits_swap (by simp [GenOps.gt, Gen.gtOp, Gen.greater, Gen.algebraId]), emits_ok (by simp [GenOps.gt, Gen.gtOp, Gen.greater, Gen.algebraId])
      (by simp [GenOps.simplifyProd, Gen.simplifyProd]) _ one_ne_zero]
    by_cases h : i = j
    · subst h
      simp [linLog, GenOps.swapWith, Gen.swapWith, VarNumber.eq, VarNumber.isZero, mk_int]
    · simp [linLog, GenOps.swapWith, Gen.swapWith, VarNumber.eq, VarNumber.isZero, mk_int, h]
  · refine ext_coeff (wf_sub (wf2 _ _) (wf2 _ _)) wf_zero fun k => ?_
    rw [coeff_sub (wf2 _ _) (wf2 _ _), coeff_mul_single, coeff_mul_single, coeff_zero, key2, sub_self]
  · refine ext_coeff (wf_sub (wf2 _ _) (wf2 _ _)) wf_zero fun k => ?_
    rw [coeff_sub (wf2 _ _) (wf2 _ _), coeff_mul_single, coeff_mul_single, coeff_zero, key2, sub_self]

/-- **C15** Spin commutation relations at one site, for every multiplicity. -/
theorem C15_spin_commutators (m : Nat) (i : ι) :
    (spin m .plus i * spin m .minus i - spin m .minus i * spin m .plus i : Expr (Gen ι) S).eqOp
      ((2 : S) • spin m .z i) = true ∧
    (spin m .z i * spin m .plus i - spin m .plus i * spin m .z i : Expr (Gen ι) S).eqOp (spin m .plus i) = true ∧
    (spin m .z i * spin m .minus i - spin m .minus i * spin m .z i : Expr (Gen ι) S).eqOp
      (-(spin m .minus i)) = true := by
  classical
  have hh := mk_half (S := S)
  have hnh := neg_half_eq (S := S)
  simp only [eqOp_iff, spin]
  by_cases h2 : m = 2
  · subst h2
    refine ⟨?_, ?_, ?_⟩
    · refine ext_coeff (wf_sub (wf2 _ _) (wf2 _ _)) (wf_smulPrefix _ (wf1 _)) fun k => ?_
      rw [smul_def, coeff_smulPrefix, coeff_sub (wf2 _ _) (wf2 _ _), coeff_mul_single, coeff_mul_single,
        coeff_ofMonomial_one, emits_single, emits_simp (by simp [GenOps.gt, Gen.gtOp, Gen.greater, Gen.algebraId, SpinComp.toNat]) (sp_half _ _ _),
        emits_swap (by simp [GenOps.gt, Gen.gtOp, Gen.greater, Gen.algebraId, SpinComp.toNat])]
      simp [linLog, GenOps.swapWith, GenOps.simplifyProd, Gen.swapWith, Gen.swapSpinHalf, VarNumber.eq, VarNumber.isZero, mk_int]
      split_ifs <;> ring
    · refine ext_coeff (wf_sub (wf2 _ _) (wf2 _ _)) (wf1 _) fun k => ?_
      rw [coeff_sub (wf2 _ _) (wf2 _ _), coeff_mul_single, coeff_mul_single,
        coeff_ofMonomial_one, emits_single, emits_simp (x := Gen.spin 2 .plus i) (by simp [GenOps.gt, Gen.gtOp, Gen.greater, Gen.algebraId, SpinComp.toNat]) (sp_half _ _ _),
        emits_swap (by simp [GenOps.gt, Gen.gtOp, Gen.greater, Gen.algebraId, SpinComp.toNat])]
      simp [linLog, GenOps.swapWith, GenOps.simplifyProd, Gen.swapWith, Gen.swapSpinHalf, VarNumber.eq, VarNumber.isZero, mk_int, hnh]
      split_ifs <;> first | linear_combination hh | ring
    · refine ext_coeff (wf_sub (wf2 _ _) (wf2 _ _)) (wf_neg (wf1 _)) fun k => ?_
      rw [coeff_neg, coeff_sub (wf2 _ _) (wf2 _ _), coeff_mul_single, coeff_mul_single,
        coeff_ofMonomial_one, emits_single, emits_simp (x := Gen.spin 2 .minus i) (by simp [GenOps.gt, Gen.gtOp, Gen.greater, Gen.algebraId, SpinComp.toNat]) (sp_half _ _ _),
        emits_swap (by simp [GenOps.gt, Gen.gtOp, Gen.greater, Gen.algebraId, SpinComp.toNat])]
      simp [linLog, GenOps.swapWith, GenOps.simplifyProd, Gen.swapWith, Gen.swapSpinHalf, VarNumber.eq, VarNumber.isZero, mk_int, hnh]
      split_ifs <;> first | linear_combination -hh | ring
  · refine ⟨?_, ?_, ?_⟩
    · refine ext_coeff (wf_sub (wf2 _ _) (wf2 _ _)) (wf_smulPrefix _ (wf1 _)) fun k => ?_
      rw [smul_def, coeff_smulPrefix, coeff_sub (wf2 _ _) (wf2 _ _), coeff_mul_single, coeff_mul_single,
        coeff_ofMonomial_one, emits_single, emits_ok (by simp [GenOps.gt, Gen.gtOp, Gen.greater, Gen.algebraId, SpinComp.toNat]) (by simp [GenOps.simplifyProd, Gen.simplifyProd, h2]) _ one_ne_zero,
        emits_swap (by simp [GenOps.gt, Gen.gtOp, Gen.greater, Gen.algebraId, SpinComp.toNat])]
      simp [linLog, GenOps.swapWith, GenOps.simplifyProd, Gen.swapWith, Gen.swapHigherSpin, VarNumber.eq, VarNumber.isZero, mk_int, h2]
      split_ifs <;> simp
    · refine ext_coeff (wf_sub (wf2 _ _) (wf2 _ _)) (wf1 _) fun k => ?_
      rw [coeff_sub (wf2 _ _) (wf2 _ _), coeff_mul_single, coeff_mul_single,
        coeff_ofMonomial_one, emits_single, emits_ok (x := Gen.spin m .plus i) (by simp [GenOps.gt, Gen.gtOp, Gen.greater, Gen.algebraId, SpinComp.toNat]) (by simp [GenOps.simplifyProd, Gen.simplifyProd, h2]) _ one_ne_zero,
        emits_swap (by simp [GenOps.gt, Gen.gtOp, Gen.greater, Gen.algebraId, SpinComp.toNat])]
      simp [linLog, GenOps.swapWith, GenOps.simplifyProd, Gen.swapWith, Gen.swapHigherSpin, VarNumber.eq, VarNumber.isZero, mk_int, h2]
    · refine ext_coeff (wf_sub (wf2 _ _) (wf2 _ _)) (wf_neg (wf1 _)) fun k => ?_
      rw [coeff_neg, coeff_sub (wf2 _ _) (wf2 _ _), coeff_mul_single, coeff_mul_single,
        coeff_ofMonomial_one, emits_single, emits_ok (x := Gen.spin m .minus i) (by simp [GenOps.gt, Gen.gtOp, Gen.greater, Gen.algebraId, SpinComp.toNat]) (by simp [GenOps.simplifyProd, Gen.simplifyProd, h2]) _ one_ne_zero,
        emits_swap (by simp [GenOps.gt, Gen.gtOp, Gen.greater, Gen.algebraId, SpinComp.toNat])]
      simp [linLog, GenOps.swapWith, GenOps.simplifyProd, Gen.swapWith, Gen.swapHigherSpin, VarNumber.eq, VarNumber.isZero, mk_int, h2]
      split_ifs <;> simp

/-- Reading the scalar `1/2` and `1/4` of the relations: the value `x` with `2 x = 1`, `4 x = 1`. -/
theorem coeff_lin1 (g : Gen ι) (x y : S) (k : List (Gen ι)) :
    (Expr.const x + y • ofMonomial (1 : S) [g] : Expr (Gen ι) S).coeff k
      = open Classical in (if k = [] then x else 0) + y * (if k = [g] then 1 else 0) := by
  classical
  rw [smul_def, coeff_add (wf_const x) (wf_smulPrefix y (wf1 g)), coeff_const, coeff_smulPrefix, coeff_ofMonomial_one,
    emits_single]
  simp

/-- **C15** Spin-1/2 products at one site: with `2h = 1` and `4q = 1`,
`S_z S_z = q`, `S_+ S_- = h + S_z`, `S_- S_+ = h - S_z`, `S_z S_+ = h S_+ = -S_+ S_z`, `S_z S_- = -h S_- = -S_- S_z`,
`S_+ S_+ = S_- S_- = 0`. -/
theorem C15_spin_half_products (i : ι) (h q : S) (hh : 2 * h = 1) (hq : 4 * q = 1) :
    (spin 2 .z i * spin 2 .z i : Expr (Gen ι) S).eqOp (Expr.const q) = true ∧
    (spin 2 .plus i * spin 2 .minus i : Expr (Gen ι) S).eqOp (Expr.const h + (1 : S) • spin 2 .z i) = true ∧
    (spin 2 .minus i * spin 2 .plus i : Expr (Gen ι) S).eqOp (Expr.const h + (-1 : S) • spin 2 .z i) = true ∧
    (spin 2 .z i * spin 2 .plus i : Expr (Gen ι) S).eqOp (h • spin 2 .plus i) = true ∧
    (spin 2 .plus i * spin 2 .z i : Expr (Gen ι) S).eqOp ((-h) • spin 2 .plus i) = true ∧
    (spin 2 .z i * spin 2 .minus i : Expr (Gen ι) S).eqOp ((-h) • spin 2 .minus i) = true ∧
    (spin 2 .minus i * spin 2 .z i : Expr (Gen ι) S).eqOp (h • spin 2 .minus i) = true ∧
    (spin 2 .plus i * spin 2 .plus i : Expr (Gen ι) S).eqOp 0 = true ∧
    (spin 2 .minus i * spin 2 .minus i : Expr (Gen ι) S).eqOp 0 = true := by
  classical
  have e1 : (ConstScalar.makeConst (.rational 1 2) : S) = h := by
    have := mk_half (S := S)
    exact mul_left_cancel₀ (two_ne_zero) (this.trans hh.symm)
  have e2 : (ConstScalar.makeConst (.rational 1 4) : S) = q := by
    have := mk_quarter (S := S)
    exact mul_left_cancel₀ (by exact_mod_cast (by decide : (4 : ℕ) ≠ 0)) (this.trans hq.symm)
  have e3 : (ConstScalar.makeConst (.rational (-1) 2) : S) = -h := by rw [neg_half_eq, e1]
  simp only [eqOp_iff, spin]
  refine ⟨?_, ?_, ?_, ?_, ?_, ?_, ?_, ?_, ?_⟩
  · refine ext_coeff (wf2 _ _) (wf_const _) fun k => ?_
    rw [coeff_mul_single, coeff_const, emits_simp (ngt_refl _) (sp_half _ _ _)]
    simp [linLog, VarNumber.isZero, e2]
  · refine ext_coeff (wf2 _ _) (wf_add (wf_const _) (wf_smulPrefix _ (wf1 _))) fun k => ?_
    rw [coeff_mul_single, coeff_lin1,
      emits_simp (by simp [GenOps.gt, Gen.gtOp, Gen.greater, Gen.algebraId, SpinComp.toNat]) (sp_half _ _ _)]
    simp [linLog, VarNumber.isZero, e1, mk_int]
  · refine ext_coeff (wf2 _ _) (wf_add (wf_const _) (wf_smulPrefix _ (wf1 _))) fun k => ?_
    rw [coeff_mul_single, coeff_lin1,
      emits_swap (by simp [GenOps.gt, Gen.gtOp, Gen.greater, Gen.algebraId, SpinComp.toNat])]
    simp [linLog, VarNumber.isZero, VarNumber.eq, e1, mk_int, GenOps.swapWith, Gen.swapWith, Gen.swapSpinHalf]
  · refine ext_coeff (wf2 _ _) (wf_smulPrefix _ (wf1 _)) fun k => ?_
    rw [coeff_mul_single, smul_def, coeff_smulPrefix, coeff_ofMonomial_one, emits_single,
      emits_swap (by simp [GenOps.gt, Gen.gtOp, Gen.greater, Gen.algebraId, SpinComp.toNat])]
    simp [linLog, VarNumber.isZero, VarNumber.eq, e1, mk_int, GenOps.swapWith, Gen.swapWith, Gen.swapSpinHalf]
  · refine ext_coeff (wf2 _ _) (wf_smulPrefix _ (wf1 _)) fun k => ?_
    rw [coeff_mul_single, smul_def, coeff_smulPrefix, coeff_ofMonomial_one, emits_single,
      emits_simp (by simp [GenOps.gt, Gen.gtOp, Gen.greater, Gen.algebraId, SpinComp.toNat]) (sp_half _ _ _)]
    simp [linLog, VarNumber.isZero, e3, mk_int]
  · refine ext_coeff (wf2 _ _) (wf_smulPrefix _ (wf1 _)) fun k => ?_
    rw [coeff_mul_single, smul_def, coeff_smulPrefix, coeff_ofMonomial_one, emits_single,
      emits_swap (by simp [GenOps.gt, Gen.gtOp, Gen.greater, Gen.algebraId, SpinComp.toNat])]
    simp [linLog, VarNumber.isZero, VarNumber.eq, e3, mk_int, GenOps.swapWith, Gen.swapWith, Gen.swapSpinHalf]
  · refine ext_coeff (wf2 _ _) (wf_smulPrefix _ (wf1 _)) fun k => ?_
    rw [coeff_mul_single, smul_def, coeff_smulPrefix, coeff_ofMonomial_one, emits_single,
      emits_simp (by simp [GenOps.gt, Gen.gtOp, Gen.greater, Gen.algebraId, SpinComp.toNat]) (sp_half _ _ _)]
    simp [linLog, VarNumber.isZero, e1, mk_int]
  · refine ext_coeff (wf2 _ _) wf_zero fun k => ?_
    rw [coeff_mul_single, coeff_zero, emits_simp (ngt_refl _) (sp_half _ _ _)]
    simp [linLog, VarNumber.isZero]
  · refine ext_coeff (wf2 _ _) wf_zero fun k => ?_
    rw [coeff_mul_single, coeff_zero, emits_simp (ngt_refl _) (sp_half _ _ _)]
    simp [linLog, VarNumber.isZero]

/-- Two generators that must commute: of different algebras, or spins at different indices, or spins of different
multiplicity (at one index only if none of them is a spin-1/2, see F2). -/
inductive MustCommute : Gen ι → Gen ι → Prop
  | fb (d i e j) : MustCommute (.fermion d i) (.boson e j)
  | fs (d i n c j) : MustCommute (.fermion d i) (.spin n c j)
  | bs (d i n c j) : MustCommute (.boson d i) (.spin n c j)
  | site (n c i m e j) : i ≠ j → MustCommute (.spin n c i) (.spin m e j)
  | mult (n c m e i) : n ≠ m → n ≠ 2 → m ≠ 2 → MustCommute (.spin n c i) (.spin m e i)
  | symm (g h) : MustCommute g h → MustCommute h g

/-- What the library does with such a pair. -/
structure Commuting (g h : Gen ι) : Prop where
  ne : g ≠ h
  swap : GenOps.swapWith g h = (.integer 1, ⟨.integer 0, []⟩)
  swap' : GenOps.swapWith h g = (.integer 1, ⟨.integer 0, []⟩)
  simp : GenOps.simplifyProd g h = none
  simp' : GenOps.simplifyProd h g = none

theorem MustCommute.commuting {g h : Gen ι} (H : MustCommute g h) : Commuting g h := by
  induction H with
  | fb => constructor <;> first | rfl | simp
  | fs => constructor <;> first | rfl | simp
  | bs => constructor <;> first | rfl | simp
  | site n c i m e j h =>
    have := Ne.symm h
    constructor <;> simp [GenOps.swapWith, Gen.swapWith, GenOps.simplifyProd, Gen.simplifyProd, h, this]
  | mult n c m e i h h1 h2 =>
    have := Ne.symm h
    constructor <;> simp [GenOps.swapWith, Gen.swapWith, GenOps.simplifyProd, Gen.simplifyProd, h, this, h1, h2]
  | symm _ _ _ ih => exact ⟨ih.ne.symm, ih.swap', ih.swap, ih.simp', ih.simp⟩

/-- **C16** Generators of different algebras (and spins at different indices or of different multiplicity) commute. -/
theorem C16_commute_partial {g h : Gen ι} (H : MustCommute g h) :
    (ofMonomial (1 : S) [g] * ofMonomial 1 [h]).eqOp (ofMonomial (1 : S) [h] * ofMonomial 1 [g]) = true := by
  classical
  have H := H.commuting
  rw [eqOp_iff]
  refine ext_coeff (wf2 _ _) (wf2 _ _) fun k => ?_
  rw [coeff_mul_single, coeff_mul_single]
  rcases LawfulGen.lt_tri g h with hl | hl | hl
  · have hgt : GenOps.gt h g = true := by rw [LawfulGen.gt_iff]; exact hl
    rw [emits_ok (x := g) (ngt_of_gt hgt) H.simp _ one_ne_zero, emits_swap (x := h) hgt]
    simp [linLog, H.swap', VarNumber.isZero, VarNumber.eq, mk_int]
  · exact absurd hl H.ne
  · have hgt : GenOps.gt g h = true := by rw [LawfulGen.gt_iff]; exact hl
    rw [emits_ok (x := h) (ngt_of_gt hgt) H.simp' _ one_ne_zero, emits_swap (x := g) hgt]
    simp [linLog, H.swap, VarNumber.isZero, VarNumber.eq, mk_int]

example : MustCommute (Gen.spin 3 .plus 1) (.spin 4 .z 1) := .mult _ _ _ _ _ (by decide) (by decide) (by decide)

/-- **C15** Spins at different sites commute. -/
theorem C15_spin_sites_commute (m n : Nat) (c e : SpinComp) (i j : ι) (h : i ≠ j) :
    (spin m c i * spin n e j : Expr (Gen ι) S).eqOp (spin n e j * spin m c i) = true :=
  C16_commute_partial (.site _ _ _ _ _ _ h)

end LC
