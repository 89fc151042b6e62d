import Verif.Proof.LOpApply
import Verif.Proof.Conj
import Verif.Proof.Hom
/-
Reachable expressions over the generators of a Hilbert space.
-/
set_option linter.unusedSectionVars false
set_option linter.unusedSimpArgs false
namespace LC
open HilbertSpace Expr Terms
variable {ι S T : Type _} [LinearOrder ι] {hs : HilbertSpace ι} {M : Nat → ι → Prop} {Q : Mode ι → Prop}

/-- Generators allowed by `M` that act on a mode in `Q`. -/
def AllowedOn (M : Nat → ι → Prop) (Q : Mode ι → Prop) (g : Gen ι) : Prop := Allowed M g ∧ Q g.mode

theorem nfGen_on (hM : HalfAlone M) : NFGen (AllowedOn M Q) := by
  have h0 := nfGen M hM
  refine ⟨?_, ?_, fun x y hx hy => h0.swap_ok x y hx.1 hy.1, fun g p f hg => h0.red_false g p f hg.1,
    fun g p hg => h0.red_vanish g p hg.1⟩
  · intro g₁ g₂ h1 h2 hgt p hp
    refine ⟨h0.swap_mem g₁ g₂ h1.1 h2.1 hgt p hp, ?_⟩
    cases g₁ <;> cases g₂ <;>
      simp only [GenOps.swapWith, Gen.swapWith, Gen.swapSpinHalf, Gen.swapHigherSpin] at hp
    all_goals try (simp at hp)
    split at hp
    · rename_i hs
      obtain ⟨rfl, rfl⟩ := hs
      split at hp
      · rename_i h2
        subst h2
        split at hp
        · split at hp <;> (simp at hp; subst hp; exact h1.2)
        · simp at hp; subst hp; exact h1.2
      · split at hp
        · split at hp <;> (simp at hp; subst hp; exact h1.2)
        · simp at hp; subst hp; exact h1.2
    · simp at hp
  · intro g₁ g₂ f h1 h2 hgt hf p hp
    refine ⟨h0.simp_mem g₁ g₂ f h1.1 h2.1 hgt hf p hp, ?_⟩
    revert hf
    cases g₁ <;> cases g₂ <;>
      simp only [GenOps.simplifyProd, Gen.simplifyProd]
    all_goals try (intro hf; cases hf)
    all_goals split_ifs
    all_goals try (intro hf; cases hf)
    all_goals simp at hp
    all_goals first | done | (subst hp; first | exact h1.2 | exact h2.2)

theorem conjOK_on : ConjOK (AllowedOn M Q) := by
  refine ⟨(conjOK (fun _ _ => True)).good, ?_⟩
  intro g hg p hp
  obtain ⟨h1, h2⟩ := hg
  cases g <;> simp [GenOps.conj, Gen.conj] at hp <;> subst hp <;> exact ⟨h1, h2⟩

section
variable [CommRing S] [DecidableEq S] [ConstScalar S] [ScalarLaws S] [IsDomain S] [CharZero S] [Star S] [Algebra ℝ S]

theorem reach_canon (hM : HalfAlone M) {e : Expr (Gen ι) S} (he : Reachable (AllowedOn M Q) e) : e.AllCanon (AllowedOn M Q) :=
  he.allCanon (nfGen_on hM) conjOK_on

theorem reach_actsOn (hM : HalfAlone M) {e : Expr (Gen ι) S}
    (he : Reachable (AllowedOn M fun k => hs.has k.space = true) e) : ActsOn hs e := fun p hp =>
  ⟨canonicalMonomial_of_chain (reach_canon hM he p hp).chain, fun g hg => ((reach_canon hM he p hp).mem g hg).2⟩

end

section
variable [CommRing S] [DecidableEq S] [ConstScalar S] [ScalarLaws S] [Algebra ℝ S] [AddCommGroup T] [Module S T]

theorem opEl_add (a b : Expr (Gen ι) S) (t k : Nat) : opEl hs (a + b) t k = opEl hs a t k + opEl hs b t k := by
  have := evalWith_expr_add (s := fun m => algebraMap ℝ S (matEl hs m t k)) a b
  simpa only [opEl, evalWith, smul_eq_mul, smul_def] using this

theorem opEl_smul (x : S) (a : Expr (Gen ι) S) (t k : Nat) : opEl hs (x • a) t k = x * opEl hs a t k := by
  rw [show x • a = smulPrefix x a from rfl]
  have := evalWith_expr_smul (s := fun m => algebraMap ℝ S (matEl hs m t k)) x a
  simpa only [opEl, evalWith, smul_eq_mul, smul_def] using this

theorem opApply_add (a b : Expr (Gen ι) S) (ψ : Nat → T) (t : Nat) :
    opApply hs (a + b) ψ t = opApply hs a ψ t + opApply hs b ψ t := by
  unfold opApply
  split
  · simp only [opEl_add, add_smul, Finset.sum_add_distrib]
  · simp

theorem opApply_smul (x : S) (a : Expr (Gen ι) S) (ψ : Nat → T) (t : Nat) :
    opApply hs (x • a) ψ t = x • opApply hs a ψ t := by
  unfold opApply
  split
  · simp only [opEl_smul, mul_smul, Finset.smul_sum]
  · simp

theorem opApply_linear (a : Expr (Gen ι) S) (x y : S) (ψ φ χ : Nat → T) (h : ∀ k, χ k = x • ψ k + y • φ k) (t : Nat) :
    opApply hs a χ t = x • opApply hs a ψ t + y • opApply hs a φ t := by
  unfold opApply
  split
  · rw [Finset.smul_sum, Finset.smul_sum, ← Finset.sum_add_distrib]
    refine Finset.sum_congr rfl fun k _ => ?_
    rw [h, smul_add, smul_comm x, smul_comm y]
  · simp

end
end LC
