import Verif.Spec.FockVector
import Verif.Proof.FockOp
import Verif.Props.LOperator
/-
Linear operators act on state vectors as operators of the Fock space.
-/
set_option linter.unusedSectionVars false
namespace LC
open Expr HilbertSpace Classical
variable {ι S : Type _} [LinearOrder ι] [CommRing S] [Algebra ℝ S] [ConstScalar S] [ScalarLaws S] [DecidableEq S] [Star S] [IsDomain S] [CharZero S] {hs : HilbertSpace ι} {M : Nat → ι → Prop}

theorem occ_foreign (hc : Constructed hs) (hnf : ∀ es ∈ hs.elementarySpaces, ¬ es.Foreign) {es : ESpace ι} (he : es.Foreign) (s : Nat) :
    occ hs s es = 0 := by
  refine occ_not_has ?_ s
  by_contra h
  rw [Bool.not_eq_false] at h
  obtain ⟨f, nb, d, hl⟩ := loc_of_has hc h
  obtain ⟨e, h1, h2, _, _⟩ := hl.mem
  refine hnf e (List.mem_map.2 ⟨_, h1, rfl⟩) ?_
  rw [ESpace.key_eq_iff] at h2
  unfold ESpace.Foreign at he ⊢
  rwa [h2.1]

theorem conf_inj (hc : Constructed hs) (hpre : PredefinedSpaces hs) (hnf : ∀ es ∈ hs.elementarySpaces, ¬ es.Foreign) {s t : Nat}
    (h1 : ValidState hs s) (h2 : ValidState hs t) (h : conf hs s = conf hs t) : s = t :=
  encodes_unique hc hpre (k := s) (n := conf hs s) h1 h2 ⟨rfl, fun _ _ => rfl⟩
    ⟨h.symm, fun es he => by rw [occ_foreign hc hnf he, occ_foreign hc hnf he]⟩

theorem fockVec_apply (hc : Constructed hs) (hpre : PredefinedSpaces hs) (hnf : ∀ es ∈ hs.elementarySpaces, ¬ es.Foreign)
    (ψ : Nat → S) {t : Nat} (ht : ValidState hs t) : fockVec hs ψ ⟨conf hs t, conf_phys hc hpre ht⟩ = ψ t := by
  rw [fockVec, Finsupp.finsetSum_apply, Finset.sum_eq_single t]
  · rw [Finsupp.smul_apply, ket, dif_pos (conf_phys hc hpre ht), Finsupp.single_eq_same, smul_eq_mul, mul_one]
  · intro k hk hkt
    rw [mem_basisStates] at hk
    rw [Finsupp.smul_apply, ket, dif_pos (conf_phys hc hpre hk), Finsupp.single_eq_of_ne, smul_zero]
    intro h
    exact hkt (conf_inj hc hpre hnf hk ht (Subtype.mk.inj h).symm)
  · intro h; exact (h (mem_basisStates.2 ht)).elim

theorem opApply_fock (hM : HalfAlone M) (hc : Constructed hs) (hpre : PredefinedSpaces hs) (hnf : ∀ es ∈ hs.elementarySpaces, ¬ es.Foreign)
    {e : Expr (Gen ι) S} (he : Reachable (InSpace M hs) e) (ψ : Nat → S) {t : Nat} (ht : ValidState hs t) :
    opApply hs e ψ t = evalExpr (fockGen S) e (fockVec hs ψ) ⟨conf hs t, conf_phys hc hpre ht⟩ := by
  have hsf : ∀ k, SameForeign hs t k := fun k es hes => by rw [occ_foreign hc hnf hes, occ_foreign hc hnf hes]
  rw [opApply, if_pos ht, fockVec, map_sum, Finsupp.finsetSum_apply]
  refine Finset.sum_congr rfl fun k hk => ?_
  rw [mem_basisStates] at hk
  rw [opEl_fock hc hpre (reach_normalOn hM he) ht hk, if_pos (hsf k), map_smul, Finsupp.smul_apply, smul_eq_mul, smul_eq_mul, mul_comm]

end LC
