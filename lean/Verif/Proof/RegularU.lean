import Verif.Proof.Unreduced
/-
A faithful representation of the algebra of fermions, bosons, spins-1/2 and the universal enveloping algebras of the
higher spins.
-/
set_option linter.unusedSectionVars false
set_option linter.unusedSimpArgs false
set_option linter.unusedTactic false
set_option linter.unusedVariables false
namespace LC.Reg
open ConstScalar

attribute [-instance] Gen.instGenOps
attribute [-instance] Gen.instLawfulGen
attribute [local instance] genOpsU
attribute [local instance] lawfulU
attribute [local instance] goodU

section Weyl
variable {A : Type _} [Ring A]

/-- `sl(2)` inside the Weyl algebra. -/
theorem weyl_sl2 {p m z P Q : A} (hPp : P * p = p * P + 1) (hQm : Q * m = m * Q + 1)
    (pm : m * p = p * m) (pz : z * p = p * z) (mz : z * m = m * z) (Pm : P * m = m * P) (Pz : P * z = z * P)
    (Qp : Q * p = p * Q) (Qz : Q * z = z * Q) (PQ : Q * P = P * Q) :
    let sp := p
    let sz := z + p * P - m * Q
    let sm := m - 2 * (z * P) + 2 * (m * (Q * P)) - p * (P * P)
    sp * sm - sm * sp = 2 * sz ∧ sz * sp - sp * sz = sp ∧ sz * sm - sm * sz = - sm := by
  intro sp sz sm
  have hPp' : ∀ x, P * (p * x) = p * (P * x) + x := fun x => by rw [← mul_assoc, hPp, add_mul, mul_assoc, one_mul]
  have hQm' : ∀ x, Q * (m * x) = m * (Q * x) + x := fun x => by rw [← mul_assoc, hQm, add_mul, mul_assoc, one_mul]
  have pm' : ∀ x, m * (p * x) = p * (m * x) := fun x => by rw [← mul_assoc, pm, mul_assoc]
  have pz' : ∀ x, z * (p * x) = p * (z * x) := fun x => by rw [← mul_assoc, pz, mul_assoc]
  have mz' : ∀ x, z * (m * x) = m * (z * x) := fun x => by rw [← mul_assoc, mz, mul_assoc]
  have Pm' : ∀ x, P * (m * x) = m * (P * x) := fun x => by rw [← mul_assoc, Pm, mul_assoc]
  have Pz' : ∀ x, P * (z * x) = z * (P * x) := fun x => by rw [← mul_assoc, Pz, mul_assoc]
  have Qp' : ∀ x, Q * (p * x) = p * (Q * x) := fun x => by rw [← mul_assoc, Qp, mul_assoc]
  have Qz' : ∀ x, Q * (z * x) = z * (Q * x) := fun x => by rw [← mul_assoc, Qz, mul_assoc]
  have PQ' : ∀ x, Q * (P * x) = P * (Q * x) := fun x => by rw [← mul_assoc, PQ, mul_assoc]
  refine ⟨?_, ?_, ?_⟩
  all_goals
    simp only [sp, sz, sm, two_mul, mul_add, add_mul, mul_sub, sub_mul, mul_assoc, hPp, hQm, pm, pz, mz, Pm, Pz, Qp, Qz,
      PQ, hPp', hQm', pm', pz', mz', Pm', Pz', Qp', Qz', PQ', mul_one, one_mul]
    abel
end Weyl

variable {ι S : Type _} [LinearOrder ι] [CommRing S] [DecidableEq S] [ConstScalar S] [ScalarLaws S]

/-- Spin operators of the enveloping algebra on the exponents of `S_+`, `S_-`, `S_z`. -/
def spinU (n : Nat) (i : ι) : SpinComp → Module.End S (BSp ι S)
  | .plus => Xp (.spin n .plus i)
  | .minus => Xp (.spin n .minus i) - 2 * (Xp (.spin n .z i) * D (.spin n .plus i))
      + 2 * (Xp (.spin n .minus i) * (D (.spin n .minus i) * D (.spin n .plus i)))
      - Xp (.spin n .plus i) * (D (.spin n .plus i) * D (.spin n .plus i))
  | .z => Xp (.spin n .z i) + Xp (.spin n .plus i) * D (.spin n .plus i)
      - Xp (.spin n .minus i) * D (.spin n .minus i)

theorem DX_same {X R : Type _} [DecidableEq X] [AddCommGroup R] [Module S R] (g : X) :
    D (S := S) (R := R) g * Xp g = Xp g * D g + 1 := by
  have := DX (S := S) (R := R) g g
  rw [if_pos rfl, sub_eq_iff_eq_add'] at this
  exact this

theorem DX_ne {X R : Type _} [DecidableEq X] [AddCommGroup R] [Module S R] {g h : X} (hne : g ≠ h) :
    D (S := S) (R := R) g * Xp h = Xp h * D g := by
  have := DX (S := S) (R := R) g h
  rw [if_neg hne, sub_eq_zero] at this
  exact this

section
variable {X R : Type _} [DecidableEq X] [AddCommGroup R] [Module S R] {g h : X}
theorem cXX (g h : X) : Commute (Xp (S := S) (R := R) g) (Xp h) := XX g h
theorem cDD (g h : X) : Commute (D (S := S) (R := R) g) (D h) := DD g h
theorem cDX (hne : g ≠ h) : Commute (D (S := S) (R := R) g) (Xp h) := DX_ne hne
theorem cXD (hne : h ≠ g) : Commute (Xp (S := S) (R := R) g) (D h) := (DX_ne hne).symm
end

theorem spinU_rel (n : Nat) (i : ι) :
    spinU (S := S) n i .plus * spinU n i .minus - spinU n i .minus * spinU n i .plus = 2 * spinU n i .z ∧
    spinU (S := S) n i .z * spinU n i .plus - spinU n i .plus * spinU n i .z = spinU n i .plus ∧
    spinU (S := S) n i .z * spinU n i .minus - spinU n i .minus * spinU n i .z = - spinU n i .minus :=
  weyl_sl2 (DX_same _) (DX_same _) (XX _ _) (XX _ _) (XX _ _) (DX_ne (by simp)) (DX_ne (by simp)) (DX_ne (by simp))
    (DX_ne (by simp)) (DD _ _)

/-- An operator that commutes with the multiplications and derivatives of site `(n, i)` commutes with the spin. -/
theorem spinU_comm (n : Nat) (i : ι) (c : SpinComp) (y : Module.End S (BSp ι S))
    (hX : ∀ e, Commute y (Xp (.spin n e i))) (hD : ∀ e, Commute y (D (.spin n e i))) : Commute y (spinU n i c) := by
  have h2 : Commute y (2 : Module.End S (BSp ι S)) := Commute.ofNat_right y 2
  cases c with
  | plus => exact hX _
  | minus =>
    exact (((hX _).sub_right (h2.mul_right ((hX _).mul_right (hD _)))).add_right
      (h2.mul_right ((hX _).mul_right ((hD _).mul_right (hD _))))).sub_right ((hX _).mul_right ((hD _).mul_right (hD _)))
  | z => exact ((hX _).add_right ((hX _).mul_right (hD _))).sub_right ((hX _).mul_right (hD _))

theorem spinU_spinU {n m : Nat} {i j : ι} (h : n ≠ m ∨ i ≠ j) (c e : SpinComp) :
    Commute (spinU (S := S) n i c) (spinU m j e) := by
  have hne : ∀ c e, Gen.spin n c i ≠ Gen.spin m e j := by
    intro c e he
    injection he with h1 h2 h3
    rcases h with h | h
    · exact h h1
    · exact h h3
  have h1 : ∀ e, Commute (Xp (S := S) (R := Sp ι S) (Gen.spin m e j)) (spinU n i c) := fun e =>
    spinU_comm n i c _ (fun c => cXX _ _) (fun c => cXD (hne c e))
  have h2 : ∀ e, Commute (D (S := S) (R := Sp ι S) (Gen.spin m e j)) (spinU n i c) := fun e =>
    spinU_comm n i c _ (fun c => cDX (hne c e).symm) (fun c => cDD _ _)
  exact spinU_comm m j e _ (fun e => (h1 e).symm) (fun e => (h2 e).symm)

/-- The representation. -/
def repU : Gen ι → Module.End S (V ι S)
  | .spin n c i => if n = 2 then rep (.spin 2 c i) else lift _ (spinU n i c)
  | g => rep g

theorem repU_core (M : Nat → ι → Prop) : TextbookCore S M (repU : Gen ι → Module.End S (V ι S)) where
  car := rep_textbook.car
  ccr := rep_textbook.ccr
  ccr_same := rep_textbook.ccr_same
  spin_pm n i _ := by
    by_cases h : n = 2
    · subst h; exact rep_textbook.spin_pm 2 i rfl
    · simp only [repU, if_neg h, ← map_mul, ← map_sub, (spinU_rel n i).1]
      rw [map_mul, map_ofNat]
  spin_zp n i _ := by
    by_cases h : n = 2
    · subst h; exact rep_textbook.spin_zp 2 i rfl
    · simp only [repU, if_neg h, ← map_mul, ← map_sub, (spinU_rel n i).2.1]
  spin_zm n i _ := by
    by_cases h : n = 2
    · subst h; exact rep_textbook.spin_zm 2 i rfl
    · simp only [repU, if_neg h, ← map_mul, ← map_sub, (spinU_rel n i).2.2, map_neg]
  spin_comm n c i m e j _ _ hh := by
    have key : ∀ n i c (f : Module.End S (Sp ι S)), Commute (lift (Gen ι → ℕ) f) (spinU n i c) := fun n i c f =>
      spinU_comm n i c _ (fun e => (X_comp _ f).symm) (fun e => (D_comp _ f).symm)
    by_cases h : n = 2 <;> by_cases h' : m = 2
    · subst h h'
      exact rep_textbook.spin_comm 2 c i 2 e j rfl rfl hh
    · subst h
      simp only [repU, if_neg h', if_true, rep, ← map_mul]
      rw [(key m j e _).eq]
    · subst h'
      simp only [repU, if_neg h, if_true, rep, ← map_mul]
      rw [(key n i c _).eq]
    · simp only [repU, if_neg h, if_neg h', ← map_mul, (spinU_spinU hh c e).eq]
  half_nil i c _ hc := by
    have := rep_textbook (ι := ι) (S := S).spin_nil 2 c i rfl hc
    rw [pow_two] at this
    exact this
  half_zz i _ := rep_textbook.half_zz i rfl
  half_pm i _ := rep_textbook.half_pm i rfl
  half_z i c _ hc := rep_textbook.half_z i c rfl hc
  comm_fb := rep_textbook.comm_fb
  comm_fs d i n c j _ := by
    by_cases h : n = 2
    · subst h; exact rep_textbook.comm_fs d i 2 c j rfl
    · simp only [repU, if_neg h]
      have h1 := fun g f => W_comp (S := S) (R := BSp ι S) (lt := glt (ι := ι)) g f
      have h2 := fun g f => K_comp (S := S) (R := BSp ι S) (lt := glt (ι := ι)) g f
      cases d
      · simp only [rep, mul_add, add_mul]
        exact congrArg₂ _ (h1 _ _) (h2 _ _)
      · simp only [rep]
        exact h1 _ _
  comm_bs d i n c j _ := by
    by_cases h : n = 2
    · subst h; exact rep_textbook.comm_bs d i 2 c j rfl
    · simp only [repU, if_neg h, rep, ← map_mul]
      congr 1
      refine (spinU_comm n j c (bos d i) (fun e => ?_) (fun e => ?_)).eq
      · cases d
        · exact (cXX _ _).add_left (cDX (by simp))
        · exact cXX _ _
      · cases d
        · exact (cXD (by simp)).add_left (cDD _ _)
        · exact cXD (by simp)

end LC.Reg
