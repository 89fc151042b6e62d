import Verif.Proof.Gmp
import Verif.Props.ConstRepr
/-
C105: coefficients of type `mpq_class`.
-/
set_option linter.unusedSectionVars false
set_option linter.unusedSimpArgs false
set_option linter.unusedTactic false
namespace LC
open Thr

section
variable {ι : Type _} [LinearOrder ι]

theorem gen_lowest (g h : Gen ι) : (Gen.swapWith g h).1.Lowest ∧ (Gen.swapWith g h).2.Lowest := by
  cases g <;> cases h <;> try (exact ⟨trivial, trivial, by simp [Gen.swapWith]⟩)
  simp only [Gen.swapWith]
  unfold Gen.swapHigherSpin Gen.swapSpinHalf
  split_ifs <;> refine ⟨by simp [VarNumber.Lowest], by simp [VarNumber.Lowest], ?_⟩ <;> intro p hp <;> simp at hp <;>
    subst hp <;> simp [VarNumber.Lowest]

/-- The structure constants of the predefined algebras are integers or fractions in lowest terms. -/
theorem C105_predefined : LowestGen (Gen ι) where
  swap g h _ := gen_lowest g h
  simp g h f hs := by
    have hs : Gen.simplifyProd g h = some f := hs
    cases g <;> cases h <;> try (cases hs)
    · simp only [Gen.simplifyProd] at hs
      split at hs
      · cases hs; exact ⟨trivial, by simp⟩
      · cases hs
    · simp only [Gen.simplifyProd] at hs
      split_ifs at hs <;> cases hs <;> refine ⟨by simp [VarNumber.Lowest], ?_⟩ <;> intro p hp <;> simp at hp <;>
        subst hp <;> simp [VarNumber.Lowest]
  red g p f := .inl (by cases g <;> rfl)
  conj g := by
    show (Gen.conj g).Lowest
    cases g <;> refine ⟨trivial, ?_⟩ <;> intro p hp <;> simp [Gen.conj] at hp <;> subst hp <;> trivial
end

/-- The structure constants of a user-defined algebra are integers or fractions in lowest terms. -/
structure UserLowest (U : Type _) [UserGen U] : Prop where
  swap : ∀ u v : U, (UserGen.swapWith u v).1.Lowest ∧ (UserGen.swapWith u v).2.Lowest
  simp : ∀ (u v : U) (f : LinFun U), UserGen.simplifyProd u v = some f → f.Lowest
  red : ∀ (u : U) (p : ℕ) (f : LinFun U), UserGen.reducePower u p = some f → f.Lowest
  conj : ∀ u : U, (UserGen.conj u).Lowest

theorem LinFun.Lowest.map {G H : Type _} (a : G → H) {f : LinFun G} (h : f.Lowest) : (f.map a).Lowest :=
  ⟨h.1, fun p hp => by
    simp only [LinFun.map, List.mem_map] at hp
    obtain ⟨q, hq, rfl⟩ := hp
    exact h.2 q hq⟩

/-- So are then all constants of the predefined algebras and the user-defined one together. -/
theorem C105_user {ι U : Type _} [LinearOrder ι] [UserGen U] (hU : UserLowest U) : LowestGen (AllGen ι U) where
  swap g h hgt := by
    show (AllGen.swapWith g h).1.Lowest ∧ (AllGen.swapWith g h).2.Lowest
    have pre := gen_lowest (ι := ι)
    simp only [AllGen.swapWith]
    split
    · cases g <;> cases h
      · exact ⟨(pre _ _).1, (pre _ _).2.map _⟩
      · exact ⟨trivial, trivial, fun _ hp => by cases hp⟩
      · exact ⟨trivial, trivial, fun _ hp => by cases hp⟩
      · exact ⟨(hU.swap _ _).1, (hU.swap _ _).2.map _⟩
    · exact ⟨trivial, trivial, by simp⟩
  simp g h f hs := by
    have hs : AllGen.simplifyProd g h = some f := hs
    simp only [AllGen.simplifyProd] at hs
    split at hs
    · cases g <;> cases h
      · obtain ⟨k, hk, rfl⟩ := Option.map_eq_some_iff.1 hs
        exact (C105_predefined.simp _ _ k hk).map _
      · cases hs
      · cases hs
      · obtain ⟨k, hk, rfl⟩ := Option.map_eq_some_iff.1 hs
        exact (hU.simp _ _ k hk).map _
    · cases hs
  red g p f := by
    show (AllGen.reducePower g p f).2 = f ∨ (AllGen.reducePower g p f).2.Lowest
    cases g with
    | pre g => exact .inl rfl
    | user u =>
      simp only [AllGen.reducePower]
      cases h : UserGen.reducePower u p with
      | none => exact .inl rfl
      | some k => exact .inr ((hU.red u p k h).map _)
  conj g := by
    cases g with
    | pre g => exact (C105_predefined.conj g).map _
    | user u => exact (hU.conj u).map _

section
variable {G : Type _} [GenOps G]

/-- C105 (a). As long as the structure constants of the algebras in use are integers or fractions in lowest terms (predefined algebras:
`C105_predefined`), no operation on expressions with `mpq_class` coefficients in canonical form throws, the results are the ones of
exact arithmetic with rational numbers and their coefficients are in canonical form; and `==` decides equality of the numbers.
Full property: for all user-defined algebras with rational structure constants; it fails, see `C105_F46_not_canonical`. -/
theorem C105_exact_partial (h : LowestGen G) (a b : Expr G ℚ) (x : ℚ) (m : List G) :
    Thr.ofMonomial (Mpq.ofRat x) m = some (Expr.ofMonomial x m).toMpq ∧
    Thr.mul a.toMpq b.toMpq = some (a * b).toMpq ∧
    Thr.mulAssign a.toMpq b.toMpq = ((a * b).toMpq, false) ∧
    Thr.conj a.toMpq = some a.conj.toMpq ∧
    Any.const (Mpq.ofRat x) = (Expr.const x : Expr G ℚ).toMpq ∧
    Any.addAssign a.toMpq b.toMpq = (a + b).toMpq ∧
    Any.subAssign a.toMpq b.toMpq = (a - b).toMpq ∧
    Any.neg a.toMpq = (-a).toMpq ∧
    Any.smulPrefix (Mpq.ofRat x) a.toMpq = (Expr.smulPrefix x a).toMpq ∧
    Any.smulPostfix a.toMpq (Mpq.ofRat x) = (a.smulPostfix x).toMpq ∧
    Any.addScalar a.toMpq (Mpq.ofRat x) = (a.addScalar x).toMpq ∧
    Any.addAssignScalar a.toMpq (Mpq.ofRat x) = (a.addAssignScalar x).toMpq ∧
    Any.subScalar a.toMpq (Mpq.ofRat x) = (a.subScalar x).toMpq ∧
    Any.scalarSub (Mpq.ofRat x) a.toMpq = (Expr.scalarSub x a).toMpq ∧
    Any.eqOp a.toMpq b.toMpq = Expr.eqOp a b := by
  have hX := exactRat
  have hm := mpq_mul h a b
  have hl := low_val a
  have hl' := low_val b
  have hq := low_mpq a
  have hq' := low_mpq b
  generalize a.mapCoeffs LowQ.mk = A at hl hq
  generalize b.mapCoeffs LowQ.mk = B at hl' hq'
  refine ⟨mpq_ofMonomial h x m, hm, ?_, mpq_conj h a, ?_, ?_, ?_, ?_, ?_, ?_, ?_, ?_, ?_, ?_, ?_⟩
  · rcases C77_mul_assign_strong a.toMpq b.toMpq with ⟨e, h1, h2⟩ | ⟨h1, h2⟩
    · rw [h2]; rw [hm] at h1; cases h1; rfl
    · rw [hm] at h1; cases h1
  all_goals subst hl; try subst hl'
  all_goals try rw [← hq]
  all_goals try rw [← hq']
  · exact (const_map embedMpq ⟨x⟩).trans ((low_split _).trans (congrArg Expr.toMpq ((const_map embedLowQ ⟨x⟩).symm.trans (Any.const_exact hX _))))
  · exact (addAssign_map embedMpq _ _).trans ((low_split _).trans (congrArg Expr.toMpq ((addAssign_map embedLowQ _ _).symm.trans (Any.addAssign_exact hX _ _))))
  · exact (subAssign_map embedMpq _ _).trans ((low_split _).trans (congrArg Expr.toMpq ((subAssign_map embedLowQ _ _).symm.trans (Any.subAssign_exact hX _ _))))
  · exact (neg_map embedMpq _).trans ((low_split _).trans (congrArg Expr.toMpq ((neg_map embedLowQ _).symm.trans (Any.neg_exact hX _))))
  · exact (smulPrefix_map embedMpq ⟨x⟩ _).trans ((low_split _).trans (congrArg Expr.toMpq ((smulPrefix_map embedLowQ ⟨x⟩ _).symm.trans (Any.smulPrefix_exact hX _ _))))
  · exact (smulPostfix_map embedMpq ⟨x⟩ _).trans ((low_split _).trans (congrArg Expr.toMpq ((smulPostfix_map embedLowQ ⟨x⟩ _).symm.trans (Any.smulPostfix_exact hX _ _))))
  · exact (addScalar_map embedMpq ⟨x⟩ _).trans ((low_split _).trans (congrArg Expr.toMpq ((addScalar_map embedLowQ ⟨x⟩ _).symm.trans (Any.addScalar_exact hX _ _))))
  · exact (addAssignScalar_map embedMpq ⟨x⟩ _).trans ((low_split _).trans (congrArg Expr.toMpq ((addAssignScalar_map embedLowQ ⟨x⟩ _).symm.trans (Any.addAssignScalar_exact hX _ _))))
  · exact (subScalar_map embedMpq ⟨x⟩ _).trans ((low_split _).trans (congrArg Expr.toMpq ((subScalar_map embedLowQ ⟨x⟩ _).symm.trans (Any.subScalar_exact hX _ _))))
  · exact (scalarSub_map embedMpq ⟨x⟩ _).trans ((low_split _).trans (congrArg Expr.toMpq ((scalarSub_map embedLowQ ⟨x⟩ _).symm.trans (Any.scalarSub_exact hX _ _))))
  · exact (eqOp_map embedMpq _ _).trans ((eqOp_map embedLowQ _ _).symm.trans (Any.eqOp_exact hX _ _))

end

/-- A case with fractions: `S₊ S₋ = 1/2 + S_z`, times `2/3`. -/
example : Thr.ofMonomial (⟨2, 3⟩ : Mpq) [Gen.spin 2 .plus 1, Gen.spin 2 .minus 1] =
    some (⟨[([], ⟨1, 3⟩), ([Gen.spin 2 .z 1], ⟨2, 3⟩)]⟩ : Expr (Gen ℕ) Mpq) := by
  decide +kernel

/-- The version of the free oscillators whose constants are in lowest terms meets the hypothesis. -/
theorem freeLowest : LowestGen (AllGen ℕ (FreeGen false)) :=
  C105_user ⟨fun u v => by
    obtain ⟨c1, i1⟩ := u; obtain ⟨c2, i2⟩ := v
    cases c1 <;> cases c2 <;> simp [UserGen.swapWith, VarNumber.Lowest, LinFun.Lowest],
    fun _ _ _ h => by simp [UserGen.simplifyProd] at h, fun _ _ _ h => by simp [UserGen.reducePower] at h, fun u => by
      refine ⟨trivial, ?_⟩
      intro p hp
      simp [UserGen.conj] at hp; subst hp; trivial⟩

example : Thr.ofMonomial (⟨2, 3⟩ : Mpq) [AllGen.user (⟨false, 0⟩ : FreeGen false), .user ⟨true, 2⟩]
    = some (Expr.ofMonomial (2 / 3 : ℚ) [AllGen.user (⟨false, 0⟩ : FreeGen false), .user ⟨true, 2⟩] : Expr (AllGen ℕ (FreeGen false)) ℚ).toMpq := by
  have := (C105_exact_partial freeLowest ⟨[]⟩ ⟨[]⟩ (2 / 3) [AllGen.user (⟨false, 0⟩ : FreeGen false), .user ⟨true, 2⟩]).1
  rw [← this]
  decide +kernel

/-- C105 (b), F46. The other version does not: `a_0 a†_2`, a product of canonical expressions, is stored with the coefficient `2/4`, and
comes out different from `1/2`, to which it is numerically equal. -/
theorem C105_F46_not_canonical :
    Thr.ofMonomial (⟨1, 1⟩ : Mpq) [AllGen.user (⟨false, 0⟩ : FreeGen true), .user ⟨true, 2⟩]
      = some (⟨[([], ⟨2, 4⟩)]⟩ : Expr (AllGen ℕ (FreeGen true)) Mpq) ∧
    Any.eqOp (⟨[([], ⟨2, 4⟩)]⟩ : Expr (AllGen ℕ (FreeGen true)) Mpq) (Any.const ⟨1, 2⟩) = false := by
  decide +kernel

end LC
