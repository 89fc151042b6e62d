import Verif.Spec.BasisIndex
import Verif.Proof.MatrixFaithful
/-
Lemmas for C108.
-/
namespace LC
open HilbertSpace
variable {ι : Type _} [LinearOrder ι] {hs : HilbertSpace ι}

theorem basisStateIndex_loc {es : ESpace ι} {f nb d n : Nat} (h : Loc hs es f nb d) (hn : n < 2 ^ nb) :
    hs.basisStateIndex es n = .ok (n * 2 ^ f) := by
  have h1 := h.fits
  have h2 := h.small
  have : n * 2 ^ f < W64 := by
    calc n * 2 ^ f < 2 ^ nb * 2 ^ f := Nat.mul_lt_mul_of_pos_right hn (Nat.two_pow_pos _)
      _ = 2 ^ (nb + f) := (pow_add _ _ _).symm
      _ ≤ 2 ^ 63 := Nat.pow_le_pow_right (by norm_num) (by omega)
      _ < W64 := by decide
  rw [basisStateIndex, h.range]
  simp only [Int.toNat_natCast, Nat.shiftLeft_eq]
  rw [Nat.mod_eq_of_lt this]

theorem sumIndex_spec (hc : Constructed hs) : ∀ (l : List (ESpace ι × Nat)), NamedOnce l → NumbersFit hs l →
    ∃ s, sumIndex hs l = .ok s ∧ ValidState hs s ∧ (∀ p ∈ l, occ hs s p.1 = p.2) ∧
      ∀ es, (∀ p ∈ l, p.1.eqOp es = false) → occ hs s es = 0
  | [], _, _ => ⟨0, rfl, MatF.valid_zero hc, by simp, fun es _ => by unfold occ; split <;> simp⟩
  | p :: l, hp, hd => by
    obtain ⟨s, h1, h2, h3, h4⟩ := sumIndex_spec hc l (List.Pairwise.of_cons hp) fun q hq => hd q (by simp [hq])
    obtain ⟨d, hd1, hd2⟩ := hd p (by simp)
    obtain ⟨f, nb, d', hl⟩ := loc_of_has hc (MatF.has_of_dim hd1)
    have hdd := hl.dimOf
    rw [hd1] at hdd
    cases hdd
    have h0 : occ hs s p.1 = 0 := h4 p.1 fun q hq => by
      have := (List.pairwise_cons.1 hp).1 q hq
      rw [← Bool.not_eq_true, ESpace.eqOp_iff] at this ⊢
      exact fun e => this e.symm
    obtain ⟨v1, v2⟩ := setField_valid hc hl h2 hd2
    have e : setField f nb p.2 s = s + p.2 * 2 ^ f := by
      rw [occ_loc hl] at h0
      have := setField_add (f := f) (nb := nb) (s := s) (k := p.2)
      rwa [h0, Nat.zero_add] at this
    rw [e] at v1 v2
    refine ⟨s + p.2 * 2 ^ f, ?_, v1, fun q hq => ?_, fun es he => ?_⟩
    · have : (p.2 * 2 ^ f + s) % 2 ^ 64 = s + p.2 * 2 ^ f := by
        rw [Nat.add_comm, Nat.mod_eq_of_lt]
        refine v1.1.trans_le ((Nat.pow_le_pow_right (by norm_num) hl.small).trans (by decide))
      obtain ⟨es, n⟩ := p
      simp only [sumIndex, basisStateIndex_loc hl (hd2.trans_le hl.le), h1, bind, Except.bind, pure, Except.pure] at this ⊢
      rw [this]
    · rw [v2]
      rcases List.mem_cons.1 hq with rfl | hq
      · simp
      · rw [if_neg, h3 q hq]
        have := (List.pairwise_cons.1 hp).1 q hq
        rw [← Bool.not_eq_true, ESpace.eqOp_iff] at this
        exact fun e => this e.symm
    · rw [v2, if_neg, h4 es fun q hq => he q (by simp [hq])]
      have := he p (by simp)
      rw [← Bool.not_eq_true, ESpace.eqOp_iff] at this
      exact fun e => this e.symm
end LC
