import Verif.Proof.ConstRepr
import Verif.Props.FixedInt
import Verif.Proof.UserAlgebra
/-
C102: structure constants are numbers.
-/
set_option linter.unusedSectionVars false
set_option linter.unusedSimpArgs false
set_option linter.unusedTactic false
namespace LC
open Any.ConstRepr

/-- C102 (a). `var_number`: `==` holds for the same kind of number with the same contents only, so equal objects stand for the same number;
`is_zero()` says whether the number is zero, whatever its kind. -/
theorem C102_var_number (v w : VarNumber) :
    (v.eq w = true ↔ v = w) ∧ (v.Defined → v.eq w = true → v.SameNumber w) ∧ (v.Defined → (v.isZero = true ↔ v.rat = 0)) := by
  have h : v.eq w = true ↔ v = w := by
    cases v <;> cases w <;> simp [VarNumber.eq]
  exact ⟨h, fun hd e => by rw [h] at e; subst e; exact ⟨hd, hd, rfl⟩, fun hd => isZero_iff hd⟩

section
variable {ι U U' : Type _} [LinearOrder ι] [UserGen U] [UserGen U']

theorem LinFun.SameNumbers.map {G G' H H' : Type _} {θ : G → G'} {κ : H → H'} {a : G → H} {b : G' → H'} (hab : ∀ g, b (θ g) = κ (a g))
    {f : LinFun G} {f' : LinFun G'} (h : f.SameNumbers θ f') : (f.map a).SameNumbers κ (f'.map b) := by
  refine ⟨h.const, ?_⟩
  simp only [LinFun.map, List.forall₂_map_left_iff, List.forall₂_map_right_iff]
  refine h.terms.imp ?_
  intro p q hpq
  exact ⟨by rw [hpq.1, hab], hpq.2⟩

/-- Predefined structure constants have nonzero denominators. -/
theorem gen_defined (g h : Gen ι) : (Gen.swapWith g h).1.Defined ∧ (Gen.swapWith g h).2.const.Defined ∧
    ∀ p ∈ (Gen.swapWith g h).2.terms, p.2.Defined := by
  cases g <;> cases h
  all_goals
    simp only [Gen.swapWith]
    try unfold Gen.swapSpinHalf
    try unfold Gen.swapHigherSpin
    first | (split_ifs <;> simp [VarNumber.Defined]) | simp [VarNumber.Defined]

theorem gen_simp_defined (g h : Gen ι) {f : LinFun (Gen ι)} (hf : Gen.simplifyProd g h = some f) :
    f.const.Defined ∧ ∀ p ∈ f.terms, p.2.Defined := by
  cases g <;> cases h <;> simp only [Gen.simplifyProd] at hf
  all_goals
    first | (cases hf) | (split_ifs at hf <;> cases hf <;> simp [VarNumber.Defined])

theorem same_refl {f : LinFun (Gen ι)} (h : f.const.Defined ∧ ∀ p ∈ f.terms, p.2.Defined) : f.SameNumbers id f := by
  refine ⟨⟨h.1, h.1, rfl⟩, ?_⟩
  rw [List.forall₂_same]
  exact fun p hp => ⟨rfl, h.2 p hp, h.2 p hp, rfl⟩

theorem SameUser.sameAlgebra {η : U ≃ U'} (h : SameUser η) : SameAlgebra (AllGen.counterpart η : AllGen ι U ≃ AllGen ι U') := by
  have pre : ∀ g h : Gen ι, (Gen.swapWith g h).1.SameNumber (Gen.swapWith g h).1 ∧ (Gen.swapWith g h).2.SameNumbers id (Gen.swapWith g h).2 :=
    fun g h => ⟨⟨(gen_defined g h).1, (gen_defined g h).1, rfl⟩, same_refl (gen_defined g h).2⟩
  have triv : (VarNumber.integer 1).SameNumber (.integer 1) ∧
      LinFun.SameNumbers (AllGen.counterpart η) (⟨.integer 0, []⟩ : LinFun (AllGen ι U)) ⟨.integer 0, []⟩ :=
    ⟨⟨trivial, trivial, rfl⟩, ⟨⟨trivial, trivial, rfl⟩, .nil⟩⟩
  have hid : ∀ g : AllGen ι U, (AllGen.counterpart η g).algebraId = g.algebraId := by
    intro g; cases g
    · rfl
    · exact h.algebraId _
  refine ⟨?_, ?_, ?_, ?_, ?_, ?_⟩
  · intro a b
    show AllGen.eqOp _ _ = AllGen.eqOp a b
    simp only [AllGen.eqOp, hid]
    cases a <;> cases b <;> simp [AllGen.counterpart, AllGen.equal, h.equal]
  · intro a b
    show AllGen.ltOp _ _ = AllGen.ltOp a b
    simp only [AllGen.ltOp, hid]
    cases a <;> cases b <;> simp [AllGen.counterpart, AllGen.less, h.less]
  · intro a b
    show AllGen.gtOp _ _ = AllGen.gtOp a b
    simp only [AllGen.gtOp, hid]
    cases a <;> cases b <;> simp [AllGen.counterpart, AllGen.greater, h.greater]
  · intro a b _
    show (AllGen.swapWith a b).1.SameNumber (AllGen.swapWith _ _).1 ∧ (AllGen.swapWith a b).2.SameNumbers _ (AllGen.swapWith _ _).2
    simp only [AllGen.swapWith, hid]
    split
    · cases a <;> cases b
      · exact ⟨(pre _ _).1, (pre _ _).2.map (κ := AllGen.counterpart η) (a := AllGen.pre) (b := AllGen.pre) fun _ => rfl⟩
      · exact triv
      · exact triv
      · exact ⟨(h.swap _ _).1, (h.swap _ _).2.map (κ := AllGen.counterpart η) (a := AllGen.user) (b := AllGen.user) fun _ => rfl⟩
    · exact triv
  · intro a b _
    show Option.Rel _ (AllGen.simplifyProd a b) (AllGen.simplifyProd _ _)
    simp only [AllGen.simplifyProd, hid]
    split
    · cases a <;> cases b
      · rename_i g g' _ _
        show Option.Rel _ ((Gen.simplifyProd g g').map _) ((Gen.simplifyProd g g').map _)
        cases hs : Gen.simplifyProd g g' with
        | none => exact .none
        | some f => exact .some ((same_refl (gen_simp_defined _ _ hs)).map (κ := AllGen.counterpart η) (a := AllGen.pre) (b := AllGen.pre) fun _ => rfl)
      · exact .none
      · exact .none
      · rename_i u v _ _
        have := h.simp u v
        show Option.Rel _ ((UserGen.simplifyProd u v).map _) ((UserGen.simplifyProd (η u) (η v)).map _)
        generalize UserGen.simplifyProd u v = o at this
        generalize UserGen.simplifyProd (η u) (η v) = o' at this
        cases this with
        | none => exact .none
        | some hf => exact .some (hf.map (κ := AllGen.counterpart η) (a := AllGen.user) (b := AllGen.user) fun _ => rfl)
    · exact .none
  · intro a n f f' hf
    cases a with
    | pre g => exact ⟨rfl, hf⟩
    | user u =>
      have := h.red u n
      show (AllGen.reducePower (.user (η u)) n f').1 = (AllGen.reducePower (.user u) n f).1 ∧ LinFun.SameNumbers _ (AllGen.reducePower (.user u) n f).2 (AllGen.reducePower (.user (η u)) n f').2
      simp only [AllGen.reducePower]
      generalize UserGen.reducePower u n = o at this
      generalize UserGen.reducePower (η u) n = o' at this
      cases this with
      | none => exact ⟨rfl, hf⟩
      | some hf' => exact ⟨rfl, hf'.map (κ := AllGen.counterpart η) (a := AllGen.user) (b := AllGen.user) fun _ => rfl⟩

/-- C102 (b). Two programs that differ only in how the structure constants of the user-defined algebras are written (e.g. `var_number(1, 2)`
or `var_number(2, 4)`, `0` or `0.0`) compute expressions with the same coefficients, unless one of them throws. -/
theorem C102_coefficients {S : Type _} [CommRing S] [ThrowOps S] (hS : ValueScalar S) {η : U ≃ U'} (h : SameUser η)
    (hU : UserOrder U) (hU' : UserOrder U') (lit : ℤ → S) (p : IntProg (AllGen ι U)) {e : Expr (AllGen ι U) S} {e' : Expr (AllGen ι U') S}
    (he : p.run lit = some e) (he' : (p.map (AllGen.counterpart η)).run lit = some e') (k : List (AllGen ι U)) :
    e'.at_ (k.map (AllGen.counterpart η)) = e.at_ k := by
  have := AllGen.lawful (ι := ι) hU
  have := AllGen.lawful (ι := ι) hU'
  exact (run_rel hS h.sameAlgebra lit p he he').at_ k
end

/-! ### Non-vacuity -/

theorem valueRat : ValueScalar ℚ where
  isZero x := by simp [ScalarOps.isZero]
  add _ _ := rfl
  sub _ _ := rfl
  mul _ _ := rfl
  neg _ := rfl
  zero := ⟨rfl, rfl⟩
  same v w h := by
    have key : ∀ v : VarNumber, (ScalarOps.makeConst v : ℚ) = v.rat := by
      intro v; cases v <;> rfl
    rw [key, key, h.2.2]

/-- Free oscillators (`a_i a†_j = q a†_j a_i + 1/2` with `q = 0`), in two versions: `q` and `1/2` are written `0` and `1/2`, or `0/3` and
`2/4`. The object with `cre = true` is a creation operator. -/
structure FreeGen (version : Bool) where
  cre : Bool
  index : Nat
  deriving DecidableEq

instance (version : Bool) : UserGen (FreeGen version) where
  algebraId _ := 7
  equal g h := decide (g = h)
  less g h := if g.cre != h.cre then g.cre else decide (g.index < h.index)
  greater g h := if g.cre != h.cre then h.cre else decide (g.index > h.index)
  swapWith g h :=
    if g.cre then (.integer 1, ⟨.integer 0, []⟩)
    else if h.cre then
      (if version then .rational 0 3 else .integer 0, ⟨if version then .rational 2 4 else .rational 1 2, []⟩)
    else (.integer 1, ⟨.integer 0, []⟩)

def freeVersions : FreeGen false ≃ FreeGen true :=
  ⟨fun g => ⟨g.cre, g.index⟩, fun g => ⟨g.cre, g.index⟩, fun _ => rfl, fun _ => rfl⟩

theorem freeOrder (b : Bool) : UserOrder (FreeGen b) where
  id_nonneg _ := by simp [UserGen.algebraId]
  eq_iff u v _ := by simp [UserGen.equal]
  lt_irrefl u := by simp [UserGen.less]
  lt_trans u v w _ _ h1 h2 := by
    obtain ⟨c1, i1⟩ := u; obtain ⟨c2, i2⟩ := v; obtain ⟨c3, i3⟩ := w
    cases c1 <;> cases c2 <;> cases c3 <;> simp_all [UserGen.less] <;> omega
  lt_tri u v _ := by
    obtain ⟨c1, i1⟩ := u; obtain ⟨c2, i2⟩ := v
    cases c1 <;> cases c2 <;> simp [UserGen.less] <;> omega
  gt_iff u v _ := by
    obtain ⟨c1, i1⟩ := u; obtain ⟨c2, i2⟩ := v
    cases c1 <;> cases c2 <;> simp [UserGen.less, UserGen.greater]

theorem freeSame : SameUser freeVersions where
  algebraId _ := rfl
  equal u v := by obtain ⟨c1, i1⟩ := u; obtain ⟨c2, i2⟩ := v; simp [UserGen.equal, freeVersions]
  less _ _ := rfl
  greater _ _ := rfl
  swap u v := by
    have nil : ∀ x y : VarNumber, x.SameNumber y → (⟨x, []⟩ : LinFun (FreeGen false)).SameNumbers freeVersions ⟨y, []⟩ :=
      fun x y h => ⟨h, .nil⟩
    obtain ⟨c1, i1⟩ := u; obtain ⟨c2, i2⟩ := v
    cases c1 <;> cases c2 <;> refine ⟨?_, nil _ _ ?_⟩ <;> simp [UserGen.swapWith, freeVersions, VarNumber.SameNumber,
      VarNumber.Defined, VarNumber.rat] <;> norm_num
  simp _ _ := .none
  red _ _ := .none

/-- `a_0 (a†_1 a†_2)` in the two versions (non-vacuity of C102 (b)). The coefficients agree; but in the version with `q` written `0/3` a
term with a zero coefficient is stored (F28). -/
def freeProgram : IntProg (AllGen Nat (FreeGen false)) :=
  .mul (.monomial 1 [.user ⟨false, 0⟩]) (.monomial 1 [.user ⟨true, 1⟩, .user ⟨true, 2⟩])

theorem C102_F28_zero_terms :
    freeProgram.run (fun i => (i : ℚ)) = some (⟨[([.user ⟨true, 2⟩], 1 / 2)]⟩ : Expr (AllGen Nat (FreeGen false)) ℚ) ∧
    (freeProgram.map (AllGen.counterpart freeVersions)).run (fun i => (i : ℚ))
      = some (⟨[([.user ⟨true, 1⟩], 0), ([.user ⟨true, 2⟩], 1 / 2)]⟩ : Expr (AllGen Nat (FreeGen true)) ℚ) := by
  decide +kernel

end LC
