import Verif.Proof.Charge
import Verif.Props.LOperator
import Verif.Proof.SectorAction
/-
C62, C63: additive quantum numbers.
-/
set_option linter.unusedSectionVars false
namespace LC
open HilbertSpace Expr
variable {ι S A : Type _} [LinearOrder ι] [CommRing S] [DecidableEq S] [ConstScalar S] [ScalarLaws S] [IsDomain S] [CharZero S]
  [Star S] [AddCommGroup A]

/-- **C62** Normal ordering conserves every additive quantum number: the expression made of one monomial has only terms with the
charge of this monomial. -/
theorem C62_monomial {M : Nat → ι → Prop} (hM : HalfAlone M) (w : Charge ι A) (x : S) (m : List (Gen ι)) (hm : ∀ g ∈ m, Allowed M g) :
    w.Homogeneous (w.mon m) (ofMonomial x m) :=
  fun p hp => (hom_ofMonomial (nfGen M hM) (graded_gen hM w) x m ⟨hm, rfl⟩ p hp).2

/-- **C62** Homogeneous expressions are closed under the operations of the API: sums and differences of expressions of charge `d` have
charge `d`, multiplication by a constant does not change the charge, constants have charge 0, in products charges add up, and Hermitian
conjugation reverses them. -/
theorem C62_grading {M : Nat → ι → Prop} (hM : HalfAlone M) (w : Charge ι A) (a b : Expr (Gen ι) S) (ha : Reachable (Allowed M) a)
    (hb : Reachable (Allowed M) b) (d d' : A) (x : S) (hd : w.Homogeneous d a) :
    (w.Homogeneous d' b → w.Homogeneous (d + d') (a * b)) ∧ (w.Homogeneous d b → w.Homogeneous d (a + b) ∧ w.Homogeneous d (a - b)) ∧
    w.Homogeneous d (-a) ∧ w.Homogeneous d (smulPrefix x a) ∧ w.Homogeneous d (smulPostfix a x) ∧ w.Homogeneous 0 (const x : Expr (Gen ι) S) ∧
    w.Homogeneous (-d) a.conj := by
  have hN := nfGen M hM
  have hG := graded_gen hM w
  have ea := homE_of hM ha hd
  refine ⟨fun h p hp => (hom_mul hN hG ea (homE_of hM hb h) p hp).2,
    fun h => ⟨fun p hp => (hom_add ea (homE_of hM hb h) p hp).2, fun p hp => (hom_sub ea (homE_of hM hb h) p hp).2⟩,
    fun p hp => (hom_neg ea p hp).2, fun p hp => (hom_smul x ea p hp).2, ?_, fun p hp => (hom_const (P := Allowed M) x p hp).2,
    fun p hp => (hom_conj hN hG conj_const_zero (conj_charge w) ea p hp).2⟩
  rw [smulPostfix_eq]
  exact fun p hp => (hom_smul x ea p hp).2

/-- **C63** Selection rule: an expression all terms of which have charge `d` has matrix elements only between basis states whose values of the
quantum number differ by `d`. In particular, an operator of charge 0 is block diagonal. -/
theorem C63_selection_rule [Algebra ℝ S] (w : Charge ι A) (ms : Finset (Mode ι)) (hsupp : ∀ k ∉ ms, w.mode k = 0) (hs : HilbertSpace ι)
    (e : Expr (Gen ι) S) (d : A) (he : w.Homogeneous d e) (t k : Nat) (h : opEl hs e t k ≠ 0) :
    w.state ms hs t = w.state ms hs k + d := by
  obtain ⟨p, hp, hne⟩ : ∃ p ∈ e.terms, matEl hs p.1 t k ≠ 0 := by
    by_contra hcon
    push Not at hcon
    apply h
    unfold opEl
    apply List.sum_eq_zero
    intro y hy
    obtain ⟨p, hp, rfl⟩ := List.mem_map.1 hy
    rw [hcon p hp, map_zero, mul_zero]
  unfold matEl at hne
  split at hne
  · exact absurd rfl hne
  · next n x hm =>
    split at hne
    · next hen =>
      have := monAct_charge_gen w ms _ _ _ _ _ hsupp hm
      rw [← hen.1, he p hp] at this
      exact this
    · exact absurd rfl hne

/-- The number of particles in two fermionic modes and a bosonic one: the charge of `c†_0 c_2 a_1` is -1, its matrix element between the states with one
fermion in mode 2 and two bosons, and with one fermion in mode 0 and one boson is allowed. -/
example : ∃ (w : Charge Nat Int) (ms : Finset (Mode Nat)), (∀ k ∉ ms, w.mode k = 0) ∧
    w.mon [.fermion true 0, .fermion false 2, .boson false 1] = -1 ∧ w.mode (.boson 1) = 1 := by
  classical
  refine ⟨⟨fun i => if i = 0 ∨ i = 2 then 1 else 0, fun i => if i = 1 then 1 else 0, fun _ _ => 0⟩, {.fermion 0, .fermion 2, .boson 1}, ?_, by decide, by decide⟩
  intro k hk
  cases k <;> simp_all [Charge.mode]

end LC
