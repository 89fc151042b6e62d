import Verif.Proof.ThrowSafe
import Verif.Spec.ThrowScalar
import Verif.Spec.Scalars
import Verif.Model.Factories
import Mathlib.Algebra.Star.Rat
/-
C77: integer coefficients (`int`, `long`, `mpz_class`). C78: exact rational coefficients (`mpq_class`, `boost::rational`).
-/
set_option linter.unusedSectionVars false
set_option linter.unusedVariables false
namespace LC
open Thr

/-- The same expression with rational coefficients. -/
def Expr.toRat {G : Type _} (a : Expr G ℤ) : Expr G ℚ := a.mapCoeffs (fun n : ℤ => (n : ℚ))

theorem exactRat : ExactScalar ℚ :=
  { add := fun _ _ => rfl, sub := fun _ _ => rfl, mul := fun _ _ => rfl, neg := fun _ => rfl,
    makeConst := fun v => by
      cases v with
      | real x => exact (show x = (x.num : ℚ) / ((x.den : Int) : ℚ) by simpa using (Rat.num_div_den x).symm)
      | _ => rfl
    isZero := fun x => by simp [ScalarOps.isZero],
    conj := fun _ => rfl, eq := fun x y => by simp [ScalarOps.eq] }

theorem embedInt : ScalarEmbedding (fun n : ℤ => (n : ℚ)) where
  isZero x := by simp [ScalarOps.isZero]
  add x y := Int.cast_add x y
  sub x y := Int.cast_sub x y
  mul x y := Int.cast_mul x y
  neg x := Int.cast_neg x
  conj x := rfl
  eq x y := by simp [ScalarOps.eq]
  makeConst v h := by
    cases v with
    | integer i => rfl
    | rational a b => cases h
    | real x => cases h
  zero := rfl

theorem embedRat : ScalarEmbedding (id : ℚ → ℚ) where
  isZero x := rfl
  add x y := rfl
  sub x y := rfl
  mul x y := rfl
  neg x := rfl
  conj x := rfl
  eq x y := rfl
  makeConst v h := rfl
  zero := rfl

theorem mapCoeffs_id {G : Type _} (a : Expr G ℚ) : a.mapCoeffs id = a := by
  cases a with
  | mk t => simp [Expr.mapCoeffs]

section exact
variable {G : Type _} [GenOps G]

/-- C77 (a). Every operation on expressions with integer coefficients that does not throw gives the same result as with
rational coefficients, whatever the algebra; addition, subtraction, negation, operations with integers and comparison never
throw. -/
theorem C77_integer_exact (a b e : Expr G ℤ) (x : ℤ) (m : List G) (f : LinFun G) :
    (Thr.ofMonomial x m = some e → e.toRat = Expr.ofMonomial (x : ℚ) m) ∧
    (Thr.mul a b = some e → e.toRat = a.toRat * b.toRat) ∧
    (Thr.conj a = some e → e.toRat = a.toRat.conj) ∧
    (Thr.ofLinFun f = some e → e.toRat = Expr.ofLinFun f) ∧
    (Any.const x : Expr G ℤ).toRat = Expr.const (x : ℚ) ∧
    (Any.addAssign a b).toRat = a.toRat + b.toRat ∧
    (Any.subAssign a b).toRat = a.toRat - b.toRat ∧
    (Any.neg a).toRat = -a.toRat ∧
    (Any.smulPrefix x a).toRat = Expr.smulPrefix (x : ℚ) a.toRat ∧
    (Any.smulPostfix a x).toRat = a.toRat.smulPostfix (x : ℚ) ∧
    (Any.addScalar a x).toRat = a.toRat.addScalar (x : ℚ) ∧
    (Any.addAssignScalar a x).toRat = a.toRat.addAssignScalar (x : ℚ) ∧
    (Any.subScalar a x).toRat = a.toRat.subScalar (x : ℚ) ∧
    (Any.scalarSub x a).toRat = Expr.scalarSub (x : ℚ) a.toRat ∧
    Any.eqOp a b = Expr.eqOp a.toRat b.toRat := by
  have hX := exactRat
  refine ⟨fun h => ?_, fun h => ?_, fun h => ?_, fun h => ?_, ?_, ?_, ?_, ?_, ?_, ?_, ?_, ?_, ?_, ?_, ?_⟩
  · exact ((Any.ofMonomial_exact hX _ _).symm.trans (ofMonomial_sim embedInt x m e h)).symm
  · exact ((Any.mulAssign_exact hX _ _).symm.trans (mul_sim embedInt a b e h)).symm
  · exact ((Any.conj_exact hX _).symm.trans (conj_sim embedInt a e h)).symm
  · exact ((Any.ofLinFun_exact hX _).symm.trans (ofLinFun_sim embedInt f e h)).symm
  · exact ((Any.const_exact hX _).symm.trans (const_map embedInt x)).symm
  · exact ((Any.addAssign_exact hX _ _).symm.trans (addAssign_map embedInt a b)).symm
  · exact ((Any.subAssign_exact hX _ _).symm.trans (subAssign_map embedInt a b)).symm
  · exact ((Any.neg_exact hX _).symm.trans (neg_map embedInt a)).symm
  · exact ((Any.smulPrefix_exact hX _ _).symm.trans (smulPrefix_map embedInt x a)).symm
  · exact ((Any.smulPostfix_exact hX _ _).symm.trans (smulPostfix_map embedInt x a)).symm
  · exact ((Any.addScalar_exact hX _ _).symm.trans (addScalar_map embedInt x a)).symm
  · exact ((Any.addAssignScalar_exact hX _ _).symm.trans (addAssignScalar_map embedInt x a)).symm
  · exact ((Any.subScalar_exact hX _ _).symm.trans (subScalar_map embedInt x a)).symm
  · exact ((Any.scalarSub_exact hX _ _).symm.trans (scalarSub_map embedInt x a)).symm
  · exact ((Any.eqOp_exact hX _ _).symm.trans (eqOp_map embedInt a b)).symm

/-- C77 (b). `a *= b` either completes, and `a` is the product, or throws, and `a` is what it was. -/
theorem C77_mul_assign_strong [ThrowOps S] (a b : Expr G S) :
    (∃ e, Thr.mul a b = some e ∧ Thr.mulAssign a b = (e, false)) ∨ (Thr.mul a b = none ∧ Thr.mulAssign a b = (a, true)) := by
  unfold Thr.mul Thr.mulAssign
  cases h : a.terms.foldlM (fun t m1 =>
      b.terms.foldlM (fun t m2 => Thr.normalize Any.store (m1.1 ++ m2.1) (ScalarOps.mul m1.2 m2.2) t) t) [] with
  | none => right; exact ⟨rfl, rfl⟩
  | some t => left; exact ⟨⟨t⟩, rfl, rfl⟩

end exact

section safe
variable {ι : Type _} [LinearOrder ι]

/-- Fermions, bosons and all spins except spin-1/2. -/
def NoSpinHalf : Gen ι → Prop
  | .spin n _ _ => n ≠ 2
  | _ => True

theorem convertibleInt : ConvertibleGen ℤ (NoSpinHalf : Gen ι → Prop) where
  swap_const g h hg hh hgt := by
    cases g <;> cases h <;> try rfl
    rename_i m c i n e j
    show ThrowOps.representable ℤ (Gen.swapWith _ _).1 = true
    have hm : m ≠ 2 := hg
    simp only [Gen.swapWith, if_neg hm]
    unfold Gen.swapHigherSpin
    split_ifs <;> rfl
  swap g h hg hh hgt := by
    show (Gen.swapWith g h).2.Representable ℤ ∧ ∀ p ∈ (Gen.swapWith g h).2.terms, NoSpinHalf p.1
    cases g <;> cases h <;> try (exact ⟨⟨rfl, by simp [Gen.swapWith]⟩, by simp [Gen.swapWith]⟩)
    rename_i m c i n e j
    have hm : m ≠ 2 := hg
    simp only [Gen.swapWith, if_neg hm]
    unfold Gen.swapHigherSpin
    split_ifs <;> refine ⟨⟨rfl, ?_⟩, ?_⟩ <;> intro p hp <;> simp at hp <;> subst hp <;> first | rfl | exact hm
  simp g h f hg hh hs := by
    have hs : Gen.simplifyProd g h = some f := hs
    cases g <;> cases h <;> try (cases hs)
    · simp only [Gen.simplifyProd] at hs
      split at hs
      · cases hs; exact ⟨⟨rfl, by simp⟩, by simp⟩
      · cases hs
    · rename_i m c i n e j _
      have hm : m ≠ 2 := hg
      simp [Gen.simplifyProd, hm] at hs
  red g p f hg hf hP := by
    have : (GenOps.reducePower g p f).2 = f := by cases g <;> rfl
    rw [this]; exact ⟨hf, hP⟩
  conj g hg := by
    show (Gen.conj g).Representable ℤ ∧ ∀ p ∈ (Gen.conj g).terms, NoSpinHalf p.1
    cases g <;> refine ⟨⟨rfl, ?_⟩, ?_⟩ <;> intro p hp <;> simp [Gen.conj] at hp <;> subst hp <;> first | rfl | exact hg

theorem closedInt : ClosedGen (NoSpinHalf : Gen ι → Prop) :=
  ⟨fun g h hg hh hgt => (convertibleInt.swap g h hg hh hgt).2, fun g h f hg hh _ hs => (convertibleInt.simp g h f hg hh hs).2,
    fun g p f _ _ _ => by cases g <;> rfl, fun g p _ _ _ q hq => by
      have : (GenOps.reducePower g p LinFun.zero).2 = LinFun.zero := by cases g <;> rfl
      rw [this] at hq; simp [LinFun.zero] at hq⟩

/-- C77 (c). No operation on expressions with integer coefficients throws as long as no spin-1/2 is involved. -/
theorem C77_no_exception {a b : Expr (Gen ι) ℤ} (ha : a.InP NoSpinHalf) (hb : b.InP NoSpinHalf) (x : ℤ) {m : List (Gen ι)}
    (hm : ∀ g ∈ m, NoSpinHalf g) :
    (∃ e, Thr.ofMonomial x m = some e ∧ e.InP NoSpinHalf) ∧ (∃ e, Thr.mul a b = some e ∧ e.InP NoSpinHalf) ∧
    (∃ e, Thr.conj a = some e ∧ e.InP NoSpinHalf) := by
  refine ⟨?_, ?_, ?_⟩
  · obtain ⟨e, h⟩ := ofMonomial_safe convertibleInt rfl x hm
    exact ⟨e, h, ofMonomial_inP convertibleInt rfl exactRat embedInt closedInt hm h⟩
  · obtain ⟨e, h⟩ := mul_safe convertibleInt rfl ha hb
    exact ⟨e, h, mul_inP convertibleInt rfl exactRat embedInt closedInt ha hb h⟩
  · obtain ⟨e, h⟩ := conj_safe convertibleInt rfl exactRat embedInt closedInt ha
    exact ⟨e, h, conj_inP convertibleInt rfl exactRat embedInt closedInt ha h⟩

/-- Expressions with integer coefficients that a program can build from generators satisfying `P` without an exception. -/
inductive ReachableInt {G : Type _} [GenOps G] (P : G → Prop) : Expr G ℤ → Prop
  | zero : ReachableInt P ⟨[]⟩
  | const (x : ℤ) : ReachableInt P (Any.const x)
  | ofMonomial (x : ℤ) (m : List G) {e} : (∀ g ∈ m, P g) → Thr.ofMonomial x m = some e → ReachableInt P e
  | add {a b} : ReachableInt P a → ReachableInt P b → ReachableInt P (Any.addAssign a b)
  | sub {a b} : ReachableInt P a → ReachableInt P b → ReachableInt P (Any.subAssign a b)
  | mul {a b e} : ReachableInt P a → ReachableInt P b → Thr.mul a b = some e → ReachableInt P e
  | neg {a} : ReachableInt P a → ReachableInt P (Any.neg a)
  | smulPrefix (x : ℤ) {a} : ReachableInt P a → ReachableInt P (Any.smulPrefix x a)
  | smulPostfix (x : ℤ) {a} : ReachableInt P a → ReachableInt P (Any.smulPostfix a x)
  | addScalar (x : ℤ) {a} : ReachableInt P a → ReachableInt P (Any.addScalar a x)
  | subScalar (x : ℤ) {a} : ReachableInt P a → ReachableInt P (Any.subScalar a x)
  | scalarSub (x : ℤ) {a} : ReachableInt P a → ReachableInt P (Any.scalarSub x a)
  | conj {a e} : ReachableInt P a → Thr.conj a = some e → ReachableInt P e

/-- C77 (d). Whatever a program builds with integer coefficients is, read with rational coefficients, something it could build
with rational coefficients; so all properties proved for those hold. -/
theorem C77_reachable {G : Type _} [GenOps G] {P : G → Prop} {e : Expr G ℤ} (h : ReachableInt P e) : Reachable P e.toRat := by
  have key := fun a b e x m f => C77_integer_exact (G := G) a b e x m f
  induction h with
  | zero => exact .zero
  | const x => rw [(key ⟨[]⟩ ⟨[]⟩ ⟨[]⟩ x [] LinFun.zero).2.2.2.2.1]; exact .const _
  | ofMonomial x m hm h => rw [(key ⟨[]⟩ ⟨[]⟩ _ x m LinFun.zero).1 h]; exact .ofMonomial _ _ hm
  | @add a b _ _ ha hb => rw [(key a b ⟨[]⟩ 0 [] LinFun.zero).2.2.2.2.2.1]; exact .add ha hb
  | @sub a b _ _ ha hb => rw [(key a b ⟨[]⟩ 0 [] LinFun.zero).2.2.2.2.2.2.1]; exact .sub ha hb
  | @mul a b e _ _ h ha hb => rw [(key a b e 0 [] LinFun.zero).2.1 h]; exact .mul ha hb
  | @neg a _ ha => rw [(key a ⟨[]⟩ ⟨[]⟩ 0 [] LinFun.zero).2.2.2.2.2.2.2.1]; exact .neg ha
  | @smulPrefix x a _ ha => rw [(key a ⟨[]⟩ ⟨[]⟩ x [] LinFun.zero).2.2.2.2.2.2.2.2.1]; exact .smulPrefix _ ha
  | @smulPostfix x a _ ha => rw [(key a ⟨[]⟩ ⟨[]⟩ x [] LinFun.zero).2.2.2.2.2.2.2.2.2.1]; exact .smulPostfix _ ha
  | @addScalar x a _ ha => rw [(key a ⟨[]⟩ ⟨[]⟩ x [] LinFun.zero).2.2.2.2.2.2.2.2.2.2.1]; exact .addScalar _ ha
  | @subScalar x a _ ha => rw [(key a ⟨[]⟩ ⟨[]⟩ x [] LinFun.zero).2.2.2.2.2.2.2.2.2.2.2.2.1]; exact .subScalar _ ha
  | @scalarSub x a _ ha => rw [(key a ⟨[]⟩ ⟨[]⟩ x [] LinFun.zero).2.2.2.2.2.2.2.2.2.2.2.2.2.1]; exact .scalarSub _ ha
  | @conj a e _ h ha => rw [(key a ⟨[]⟩ e 0 [] LinFun.zero).2.2.1 h]; exact .conj ha

open Factory in
/-- `(c†₁ + 2 a†) · (c₁ − S₊) ` with a spin 1: no exception, integer coefficients. -/
example : ∃ e, Thr.mul (⟨[([.fermion true 1], 1), ([.boson true 1], 2)]⟩ : Expr (Gen ℕ) ℤ)
    ⟨[([.fermion false 1], 1), ([.spin 3 .plus 1], -1)]⟩ = some e ∧ e.terms.length = 4 := by
  exact ⟨_, rfl, by decide +kernel⟩

/-- The hypotheses of `C77_no_exception` hold for a program that exchanges generators. -/
example : ReachableInt NoSpinHalf (⟨[([], 1), ([.fermion true 1, .fermion false 1], -1)]⟩ : Expr (Gen ℕ) ℤ) := by
  refine .ofMonomial 1 [.fermion false 1, .fermion true 1] (by simp [NoSpinHalf]) rfl

/-- C77 (e). With a spin-1/2 the product of two components at the same site throws, except `S₊ S₊` and `S₋ S₋`, which
vanish; also where the result has integer coefficients: `4 S_z S_z = 1`. -/
theorem C77_spin_half_throws (i : ι) (c e : SpinComp) (x : ℤ) (hx : x ≠ 0) :
    (Thr.ofMonomial x [Gen.spin 2 c i, Gen.spin 2 e i] = none ↔ ¬ (c = e ∧ c ≠ .z)) ∧
    Expr.ofMonomial (4 : ℚ) [Gen.spin 2 .z i, Gen.spin 2 .z i] = Expr.toRat ⟨[([], 1)]⟩ := by
  constructor
  · have hz : ScalarOps.isZero x = false := by simp [ScalarOps.isZero, hx]
    cases c <;> cases e <;>
      simp [Thr.ofMonomial, hz, Thr.normalize, Thr.both, Thr.normStep, Thr.sortLoop, Thr.pass, GenOps.gt, Gen.gtOp, Gen.greater,
        Gen.algebraId, SpinComp.toNat, GenOps.simplifyProd, Gen.simplifyProd, Thr.processF, VarNumber.isZero, Thr.makeConst,
        ThrowOps.representable, GenOps.swapWith, Gen.swapWith, Gen.swapSpinHalf]
  · simp [Expr.ofMonomial, normalize, both, normStep, sortLoop, pass, GenOps.gt, Gen.gtOp, Gen.greater,
        Gen.algebraId, SpinComp.toNat, GenOps.simplifyProd, Gen.simplifyProd, processF, VarNumber.isZero, reduceStep]
    have : (4 : ℚ) * ConstScalar.makeConst (VarNumber.rational 1 4) = 1 := by decide +kernel
    rw [this]
    simp [Terms.store, Expr.toRat, Expr.mapCoeffs, Terms.find?, Terms.emplace]

theorem convertibleRat : ConvertibleGen ℚ (fun _ : Gen ι => True) where
  swap_const g h hg hh hgt := by
    show ThrowOps.representable ℚ (Gen.swapWith _ _).1 = true
    cases g <;> cases h <;> try rfl
    simp only [Gen.swapWith]
    unfold Gen.swapHigherSpin Gen.swapSpinHalf
    split_ifs <;> rfl
  swap g h hg hh hgt := by
    refine ⟨?_, fun _ _ => trivial⟩
    show (Gen.swapWith g h).2.Representable ℚ
    cases g <;> cases h <;> try (exact ⟨rfl, by simp [Gen.swapWith]⟩)
    simp only [Gen.swapWith]
    unfold Gen.swapHigherSpin Gen.swapSpinHalf
    split_ifs <;> refine ⟨rfl, ?_⟩ <;> intro p hp <;> simp at hp <;> subst hp <;> rfl
  simp g h f hg hh hs := by
    refine ⟨?_, fun _ _ => trivial⟩
    have hs : Gen.simplifyProd g h = some f := hs
    cases g <;> cases h <;> try (cases hs)
    · simp only [Gen.simplifyProd] at hs
      split at hs
      · cases hs; exact ⟨rfl, by simp⟩
      · cases hs
    · simp only [Gen.simplifyProd] at hs
      split_ifs at hs <;> cases hs <;> refine ⟨rfl, ?_⟩ <;> intro p hp <;> simp at hp <;> subst hp <;> rfl
  red g p f hg hf hP := by
    have : (GenOps.reducePower g p f).2 = f := by cases g <;> rfl
    rw [this]; exact ⟨hf, hP⟩
  conj g hg := by
    refine ⟨?_, fun _ _ => trivial⟩
    show (Gen.conj g).Representable ℚ
    cases g <;> refine ⟨rfl, ?_⟩ <;> intro p hp <;> simp [Gen.conj] at hp <;> subst hp <;> rfl

theorem closedRat : ClosedGen (fun _ : Gen ι => True) := closedGen_true fun g p f _ _ => by cases g <;> rfl

/-- C78. With exact rational coefficients no operation throws, for any of the predefined algebras including spin-1/2, and the
results are the exact ones. -/
theorem C78_rational_exact (a b : Expr (Gen ι) ℚ) (x : ℚ) (m : List (Gen ι)) :
    Thr.ofMonomial x m = some (Expr.ofMonomial x m) ∧ Thr.mul a b = some (a * b) ∧ Thr.mulAssign a b = (a * b, false) ∧
    Thr.conj a = some a.conj ∧
    Any.addAssign a b = a + b ∧ Any.subAssign a b = a - b ∧ Any.neg a = -a ∧
    Any.smulPrefix x a = Expr.smulPrefix x a ∧ Any.smulPostfix a x = a.smulPostfix x ∧
    Any.eqOp a b = Expr.eqOp a b := by
  have hX := exactRat
  have hP : ∀ a : Expr (Gen ι) ℚ, a.InP (fun _ => True) := fun _ _ _ _ _ => trivial
  have hmul : Thr.mul a b = some (a * b) := by
    obtain ⟨e, h⟩ := mul_safe (convertibleRat (ι := ι)) rfl (hP a) (hP b)
    have := mul_sim embedRat a b e h
    rw [mapCoeffs_id, mapCoeffs_id, mapCoeffs_id, Any.mulAssign_exact hX] at this
    rw [h, ← this]; rfl
  refine ⟨?_, hmul, ?_, ?_, Any.addAssign_exact hX a b, Any.subAssign_exact hX a b, Any.neg_exact hX a,
    Any.smulPrefix_exact hX x a, Any.smulPostfix_exact hX x a, Any.eqOp_exact hX a b⟩
  · obtain ⟨e, h⟩ := ofMonomial_safe (convertibleRat (ι := ι)) rfl x (m := m) (fun _ _ => trivial)
    have := ofMonomial_sim embedRat x m e h
    rw [mapCoeffs_id, Any.ofMonomial_exact hX] at this
    rw [h, ← this]; rfl
  · rcases C77_mul_assign_strong a b with ⟨e, h1, h2⟩ | ⟨h1, h2⟩
    · rw [h2]; rw [hmul] at h1; cases h1; rfl
    · rw [hmul] at h1; cases h1
  · obtain ⟨e, h⟩ := conj_safe (convertibleRat (ι := ι)) rfl hX embedRat closedRat (hP a)
    have := conj_sim embedRat a e h
    rw [mapCoeffs_id, mapCoeffs_id, Any.conj_exact hX] at this
    rw [h, ← this]

/-- A case with fractions: `S₊ S₋ = 1/2 + S_z`. -/
example : Thr.ofMonomial (1 : ℚ) [Gen.spin 2 .plus 1, Gen.spin 2 .minus 1] =
    some (⟨[([], 1/2), ([Gen.spin 2 .z 1], 1)]⟩ : Expr (Gen ℕ) ℚ) := by
  rw [(C78_rational_exact ⟨[]⟩ ⟨[]⟩ _ _).1]
  have : (Expr.ofMonomial (1 : ℚ) [Gen.spin 2 .plus 1, Gen.spin 2 .minus 1] : Expr (Gen ℕ) ℚ).terms =
    [([], 1/2), ([Gen.spin 2 .z 1], 1)] := by decide +kernel
  rw [← this]

end safe
end LC
