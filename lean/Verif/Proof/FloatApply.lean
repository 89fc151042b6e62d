import Verif.Proof.FloatAction
/-
C98: error analysis of `op(src, dst)`.
-/
set_option linter.unusedSectionVars false
set_option linter.unusedSimpArgs false
namespace LC
open Classical
namespace Flo
variable {ι D S T V W 𝕜 : Type _} [LinearOrder ι] [RCLike 𝕜] {hs : HilbertSpace ι}
variable [AmpOps T] [CoefOps D S T] [StateVec V T] [StateVec W T] [FloatSV V T] [FloatSV W T]
variable {u tol : ℝ} {vS : S → 𝕜} {vT : T → 𝕜} {fS : S → Prop} {fT : T → Prop}

/-- `y` is `Y`, a sum of `j` numbers with absolute values adding up to `A`. -/
def Acc (u tol : ℝ) (vT : T → 𝕜) (fT : T → Prop) (drop : Bool) (K j : Nat) (y : T) (Y : 𝕜) (A : ℝ) : Prop :=
  ‖Y‖ ≤ A ∧ (fT y → ‖vT y - Y‖ ≤ ((1 + u) ^ (K + j) - 1) * A + dropErr u tol drop j)

variable (R : Rounding (D := D) u tol vS vT fS fT)

include R

theorem dropErr_step (drop : Bool) (j : Nat) :
    (1 + u) * dropErr u tol drop j + (if drop then tol else 0) ≤ dropErr u tol drop (j + 1) := by
  unfold dropErr
  cases drop with
  | false => simp
  | true =>
    simp only [if_true]
    have h1 := R.u_nonneg
    have h2 := R.tol_nonneg
    have h3 := one_le_pow h1 (j + 1)
    have : tol ≤ tol * (1 + u) ^ (j + 1) := by nlinarith
    have e : (1 + u) * (tol * j * (1 + u) ^ j) = tol * j * (1 + u) ^ (j + 1) := by ring
    rw [e]
    push_cast
    nlinarith

theorem dropErr_nonneg (drop : Bool) (j : Nat) : 0 ≤ dropErr u tol drop j := by
  unfold dropErr
  split
  · have h1 := R.u_nonneg
    have h2 := R.tol_nonneg
    positivity
  · exact le_rfl

theorem acc_zero (drop : Bool) (K : Nat) : Acc u tol vT fT drop K 0 AmpOps.zero 0 0 := by
  refine ⟨by simp, fun _ => ?_⟩
  rw [R.zero.2]
  simpa using dropErr_nonneg R drop 0

/-- The sum, before it is forgotten. -/
theorem acc_add {drop : Bool} {K j : Nat} {y x : T} {Y X : 𝕜} {A : ℝ} (h : Acc u tol vT fT drop K j y Y A)
    (hx : fT x → Near u K (vT x) X) (hf : fT (AmpOps.add y x)) :
    ‖vT (AmpOps.add y x) - (Y + X)‖ ≤ ((1 + u) ^ (K + (j + 1)) - 1) * (A + ‖X‖) + (1 + u) * dropErr u tol drop j := by
  obtain ⟨f1, f2, ha⟩ := R.add y x hf
  have hu := R.u_nonneg
  have b1 := h.2 f1
  have b2 := hx f2
  unfold Near at b2
  have hsum : ‖vT y + vT x - (Y + X)‖ ≤ ‖vT y - Y‖ + ‖vT x - X‖ := by
    have : vT y + vT x - (Y + X) = (vT y - Y) + (vT x - X) := by ring
    rw [this]; exact norm_add_le _ _
  have hn : ‖vT y + vT x‖ ≤ ‖vT y + vT x - (Y + X)‖ + (‖Y‖ + ‖X‖) := by
    have e : vT y + vT x = (vT y + vT x - (Y + X)) + (Y + X) := by ring
    calc ‖vT y + vT x‖ = ‖(vT y + vT x - (Y + X)) + (Y + X)‖ := by rw [← e]
      _ ≤ _ := (norm_add_le _ _).trans (by linarith [norm_add_le Y X])
  have ht : ‖vT (AmpOps.add y x) - (Y + X)‖ ≤ ‖vT (AmpOps.add y x) - (vT y + vT x)‖ + ‖vT y + vT x - (Y + X)‖ := by
    have : vT (AmpOps.add y x) - (Y + X) = (vT (AmpOps.add y x) - (vT y + vT x)) + (vT y + vT x - (Y + X)) := by ring
    rw [this]; exact norm_add_le _ _
  have hA : 0 ≤ A := (norm_nonneg _).trans h.1
  have hX := norm_nonneg X
  have g1 := one_le_pow hu K
  have g2 : (1 + u) ^ K ≤ (1 + u) ^ (K + j) := pow_le_pow_right₀ (by linarith) (by omega)
  have gs : (1 + u) ^ (K + (j + 1)) = (1 + u) ^ (K + j) * (1 + u) := by rw [← Nat.add_assoc, pow_succ]
  have q1 : ‖vT x - X‖ ≤ ((1 + u) ^ (K + j) - 1) * ‖X‖ := b2.trans (mul_le_mul_of_nonneg_right (by linarith) hX)
  have q2 : ‖vT y + vT x - (Y + X)‖ ≤ ((1 + u) ^ (K + j) - 1) * (A + ‖X‖) + dropErr u tol drop j := by nlinarith
  have q3 : u * ‖vT y + vT x‖ ≤ u * (((1 + u) ^ (K + j) - 1) * (A + ‖X‖) + dropErr u tol drop j + (A + ‖X‖)) :=
    mul_le_mul_of_nonneg_left (by linarith [h.1]) hu
  rw [gs]
  nlinarith

theorem acc_upd {drop : Bool} {K j : Nat} {y x y' : T} {Y X : 𝕜} {A : ℝ} (h : Acc u tol vT fT drop K j y Y A)
    (hx : fT x → Near u K (vT x) X) (hupd : Upd drop y x y') :
    Acc u tol vT fT drop K (j + 1) y' (Y + X) (A + ‖X‖) := by
  have hu := R.u_nonneg
  have hA : 0 ≤ A := (norm_nonneg _).trans h.1
  have hX := norm_nonneg X
  have hstep := dropErr_step R drop j
  have hdn := dropErr_nonneg R drop j
  refine ⟨(norm_add_le _ _).trans (by linarith [h.1]), fun hf => ?_⟩
  have hd1 : (1 + u) * dropErr u tol drop j ≤ dropErr u tol drop (j + 1) := by
    refine le_trans ?_ hstep
    have : (0 : ℝ) ≤ if drop then tol else 0 := by split; exacts [R.tol_nonneg, le_rfl]
    linarith
  have fresh : ∀ {z : T}, y = AmpOps.zero → fT z → (fT z → Near u K (vT z) X) →
      ‖vT z - (Y + X)‖ ≤ ((1 + u) ^ (K + (j + 1)) - 1) * (A + ‖X‖) + (1 + u) * dropErr u tol drop j := by
    intro z hy hz hnz
    have b1 := h.2 (by rw [hy]; exact R.zero.1)
    rw [hy, R.zero.2, zero_sub, norm_neg] at b1
    have b2 := hnz hz
    unfold Near at b2
    have ht : ‖vT z - (Y + X)‖ ≤ ‖vT z - X‖ + ‖Y‖ := by
      have : vT z - (Y + X) = (vT z - X) - Y := by ring
      rw [this]; exact norm_sub_le _ _
    have g2 : (1 + u) ^ K ≤ (1 + u) ^ (K + (j + 1)) := pow_le_pow_right₀ (by linarith) (by omega)
    have g3 : (1 + u) ^ (K + j) ≤ (1 + u) ^ (K + (j + 1)) := pow_le_pow_right₀ (by linarith) (by omega)
    have q1 := b2.trans (mul_le_mul_of_nonneg_right (sub_le_sub_right g2 1) hX)
    have q2 := mul_le_mul_of_nonneg_right (sub_le_sub_right g3 1) hA
    nlinarith [mul_nonneg hu hdn]
  cases hupd with
  | add => exact (acc_add R h hx hf).trans (by linarith)
  | fresh hy => exact (fresh hy hf hx).trans (by linarith)
  | dropSum hd hz =>
    obtain ⟨f, ht⟩ := R.isZero _ hz
    have b := acc_add R h hx f
    rw [R.zero.2]
    have : ‖(0 : 𝕜) - (Y + X)‖ ≤ ‖vT (AmpOps.add y x) - (Y + X)‖ + ‖vT (AmpOps.add y x)‖ := by
      have e : (0 : 𝕜) - (Y + X) = (vT (AmpOps.add y x) - (Y + X)) - vT (AmpOps.add y x) := by ring
      rw [e]; exact norm_sub_le _ _
    rw [if_pos hd] at hstep
    linarith
  | dropNew hd hy hz =>
    obtain ⟨f, ht⟩ := R.isZero _ hz
    have b := fresh hy f hx
    rw [R.zero.2]
    have : ‖(0 : 𝕜) - (Y + X)‖ ≤ ‖vT x - (Y + X)‖ + ‖vT x‖ := by
      have e : (0 : 𝕜) - (Y + X) = (vT x - (Y + X)) - vT x := by ring
      rw [e]; exact norm_sub_le _ _
    rw [if_pos hd] at hstep
    linarith

theorem acc_mono {drop : Bool} {K j j' : Nat} {y : T} {Y : 𝕜} {A : ℝ} (h : Acc u tol vT fT drop K j y Y A) (hj : j ≤ j') :
    Acc u tol vT fT drop K j' y Y A := by
  have hu := R.u_nonneg
  refine ⟨h.1, fun hf => (h.2 hf).trans ?_⟩
  have hA : 0 ≤ A := (norm_nonneg _).trans h.1
  have g : (1 + u) ^ (K + j) ≤ (1 + u) ^ (K + j') := pow_le_pow_right₀ (by linarith) (by omega)
  have q := mul_le_mul_of_nonneg_right (sub_le_sub_right g 1) hA
  have : dropErr u tol drop j ≤ dropErr u tol drop j' := by
    unfold dropErr
    split
    · have g' : (1 + u) ^ j ≤ (1 + u) ^ j' := pow_le_pow_right₀ (by linarith) hj
      have h1 := R.tol_nonneg
      have h2 : (j : ℝ) ≤ j' := by exact_mod_cast hj
      gcongr
    · exact le_rfl
  linarith

/-- 1 if the monomial has a matrix element between `k` and `t`. -/
noncomputable def hit (hs : HilbertSpace ι) (m : List (Gen ι)) (k t : Nat) : Nat :=
  if ValidState hs t ∧ matEl hs m t k ≠ 0 then 1 else 0

theorem applyTerm_acc (hc : Constructed hs) (hpre : PredefinedSpaces hs) {m : List (Gen ι)} (hm : CanonicalMonomial m)
    {ma : MonomialAction} (hma : MonomialAction.make m hs = .ok ma) {L : Nat} (hL : m.length ≤ L) {k : Nat}
    (hk : ValidState hs k) (a : T) (c : S) (w : W)
    (hw : FloatSV.inv w) (ht : ∀ t, ValidState hs t → matEl hs m t k ≠ 0 → t ∈ FloatSV.dom w) :
    ∃ w', applyTerm k a ma c w = .ok w' ∧ FloatSV.inv w' ∧ FloatSV.dom w' = FloatSV.dom w ∧
      ∀ t j Y A, Acc u tol vT fT (FloatSV.drop W) (3 * L + 2) j (FloatSV.amp w t) Y A →
        Acc u tol vT fT (FloatSV.drop W) (3 * L + 2) (j + hit hs m k t) (FloatSV.amp w' t)
          (Y + contrib hs k (vT a) m (vS c) t) (A + ‖contrib hs k (vT a) m (vS c) t‖) := by
  have h := monomial_act hc hpre hm hma hk (1 : 𝕜)
  obtain ⟨tb, ts, hcost⟩ := make_cost hma
  have hsim := act_sim R (a := ma) tb ts k (k := 0) (c := CoefOps.const (S := S) (CoefOps.one S)) (c' := 1)
    (fun _ => by rw [R.one]; exact Near.refl R.u_nonneg _)
  unfold ActsAs at h
  cases hact : monAct (bosonDims hs) m (conf hs k) with
  | none =>
    rw [hact] at h
    simp only at h
    rw [h] at hsim
    have hz : act ma k (CoefOps.const (S := S) (CoefOps.one S)) = .zero := by
      revert hsim
      cases act ma k (CoefOps.const (S := S) (CoefOps.one S)) with
      | ub => intro h; simp [Sim] at h
      | zero => intro _; rfl
      | nonzero i c => rintro ⟨c', h, _⟩; simp at h
    refine ⟨w, by simp [applyTerm, hz], hw, rfl, fun t j Y A hA => ?_⟩
    have : contrib hs k (vT a) m (vS c) t = 0 := by simp [contrib, matEl, hact]
    rw [this, norm_zero, add_zero, add_zero]
    exact acc_mono R hA (by omega)
  | some p =>
    obtain ⟨n, x⟩ := p
    rw [hact] at h
    obtain ⟨s, h1, h2, h3, h4⟩ := h
    rw [h1] at hsim
    have hE : Encodes hs k n s := ⟨h3, h4⟩
    have hx := (monAct_phys (conf_phys hc hpre hk) hact).2
    have hmat : ∀ t, matEl hs m t k = if Encodes hs k n t then x else 0 := by intro t; simp [matEl, hact]
    have hu : s ∈ FloatSV.dom w := ht s h2 (by rw [hmat, if_pos hE]; exact hx)
    obtain ⟨co, hco, hnear⟩ : ∃ co, act ma k (CoefOps.const (S := S) (CoefOps.one S)) = .nonzero s co ∧
        (fS co → Near u (3 * L) (vS co) (1 * algebraMap ℝ 𝕜 x)) := by
      revert hsim
      cases act ma k (CoefOps.const (S := S) (CoefOps.one S)) with
      | ub => intro h; simp [Sim] at h
      | zero => intro h; simp [Sim] at h
      | nonzero i c =>
        rintro ⟨c', h, hn⟩
        simp only [ActRes.nonzero.injEq] at h
        obtain ⟨rfl, rfl⟩ := h
        exact ⟨c, rfl, fun hf => (hn hf).mono R.u_nonneg (by omega)⟩
    obtain ⟨w', e1, e2, e3, e4, e5⟩ := FloatSV.update w s (CoefOps.scale (CoefOps.mul c co) a) hw hu
    refine ⟨w', by simp only [applyTerm, hco]; exact e1, e2, e3, fun t j Y A hA => ?_⟩
    by_cases hts : t = s
    · subst hts
      have hcon : contrib hs k (vT a) m (vS c) t = vS c * algebraMap ℝ 𝕜 x * vT a := by
        rw [contrib, if_pos h2, hmat, if_pos hE, smul_eq_mul]
      have hh : hit hs m k t = 1 := by
        rw [hit, if_pos ⟨h2, by rw [hmat, if_pos hE]; exact hx⟩]
      rw [hcon, hh]
      refine acc_upd R hA (fun hf => ?_) e5
      obtain ⟨f1, f2, hsc⟩ := R.scale _ _ hf
      have c1 := co_mul R (k := 0) (c := c) (c' := vS c) (fun _ => Near.refl R.u_nonneg _) hnear f1
      rw [one_mul] at c1
      have c2 := c1.mul R.u_nonneg (Near.refl R.u_nonneg (vT a))
      have c3 := c2.round R.u_nonneg hsc
      exact c3.mono R.u_nonneg (by omega)
    · rw [e4 t hts]
      have hcon : contrib hs k (vT a) m (vS c) t = 0 := by
        rw [contrib]
        by_cases hv : ValidState hs t
        · rw [if_pos hv, hmat, if_neg (fun hE' => hts (encodes_unique hc hpre hv h2 hE' hE))]
          simp
        · rw [if_neg hv]
      rw [hcon, norm_zero, add_zero, add_zero]
      exact acc_mono R hA (by omega)

theorem applyTerms_acc (hc : Constructed hs) (hpre : PredefinedSpaces hs) {acts : List (MonomialAction × S)}
    {terms : List (List (Gen ι) × S)} (hmade : Made hs acts terms) (hm : ∀ p ∈ terms, CanonicalMonomial p.1) {L : Nat}
    (hL : ∀ p ∈ terms, p.1.length ≤ L) {k : Nat} (hk : ValidState hs k) (a : T) (w : W) (hw : FloatSV.inv w)
    (ht : ∀ p ∈ terms, ∀ t, ValidState hs t → matEl hs p.1 t k ≠ 0 → t ∈ FloatSV.dom w) :
    ∃ w', applyTerms k a acts w = .ok w' ∧ FloatSV.inv w' ∧ FloatSV.dom w' = FloatSV.dom w ∧
      ∀ t j Y A, Acc u tol vT fT (FloatSV.drop W) (3 * L + 2) j (FloatSV.amp w t) Y A →
        Acc u tol vT fT (FloatSV.drop W) (3 * L + 2) (j + (terms.map fun p => hit hs p.1 k t).sum) (FloatSV.amp w' t)
          (Y + (terms.map fun p => contrib hs k (vT a) p.1 (vS p.2) t).sum)
          (A + (terms.map fun p => ‖contrib hs k (vT a) p.1 (vS p.2) t‖).sum) := by
  induction hmade generalizing w with
  | nil => exact ⟨w, rfl, hw, rfl, fun t j Y A h => by simpa using h⟩
  | @cons x p acts terms hxp hmade ih =>
    obtain ⟨ma, c⟩ := x
    obtain ⟨m, c'⟩ := p
    obtain ⟨hma, hcc⟩ := hxp
    simp only at hma hcc
    subst hcc
    obtain ⟨w1, e1, e2, e3, e4⟩ := applyTerm_acc R hc hpre (hm (m, c) (by simp)) hma (hL (m, c) (by simp)) hk a c w hw
      (ht (m, c) (by simp))
    obtain ⟨w2, f1, f2, f3, f4⟩ := ih (fun p hp => hm p (by simp [hp])) (fun p hp => hL p (by simp [hp])) w1 e2
      (fun p hp t h1 h2 => by rw [e3]; exact ht p (by simp [hp]) t h1 h2)
    refine ⟨w2, by simp only [applyTerms, e1]; exact f1, f2, f3.trans e3, fun t j Y A h => ?_⟩
    have := f4 t _ _ _ (e4 t _ _ _ h)
    simp only [List.map_cons, List.sum_cons]
    rwa [← add_assoc, ← add_assoc, ← add_assoc]

theorem applyAll_acc (hc : Constructed hs) (hpre : PredefinedSpaces hs) {acts : List (MonomialAction × S)}
    {terms : List (List (Gen ι) × S)} (hmade : Made hs acts terms) (hm : ∀ p ∈ terms, CanonicalMonomial p.1) {L : Nat}
    (hL : ∀ p ∈ terms, p.1.length ≤ L) (l : List (Nat × T)) (hl : ∀ q ∈ l, ValidState hs q.1) (w : W) (hw : FloatSV.inv w)
    (ht : ∀ q ∈ l, ∀ p ∈ terms, ∀ t, ValidState hs t → matEl hs p.1 t q.1 ≠ 0 → t ∈ FloatSV.dom w) :
    ∃ w', applyAll acts l w = .ok w' ∧ FloatSV.inv w' ∧ FloatSV.dom w' = FloatSV.dom w ∧
      ∀ t j Y A, Acc u tol vT fT (FloatSV.drop W) (3 * L + 2) j (FloatSV.amp w t) Y A →
        Acc u tol vT fT (FloatSV.drop W) (3 * L + 2) (j + (l.map fun q => (terms.map fun p => hit hs p.1 q.1 t).sum).sum)
          (FloatSV.amp w' t)
          (Y + (l.map fun q => (terms.map fun p => contrib hs q.1 (vT q.2) p.1 (vS p.2) t).sum).sum)
          (A + (l.map fun q => (terms.map fun p => ‖contrib hs q.1 (vT q.2) p.1 (vS p.2) t‖).sum).sum) := by
  induction l generalizing w with
  | nil => exact ⟨w, rfl, hw, rfl, fun t j Y A h => by simpa using h⟩
  | cons q l ih =>
    obtain ⟨k, a⟩ := q
    obtain ⟨w1, e1, e2, e3, e4⟩ := applyTerms_acc R hc hpre hmade hm hL (hl (k, a) (by simp)) a w hw (ht (k, a) (by simp))
    obtain ⟨w2, f1, f2, f3, f4⟩ := ih (fun q hq => hl q (by simp [hq])) w1 e2
      (fun q hq p hp t h1 h2 => by rw [e3]; exact ht q (by simp [hq]) p hp t h1 h2)
    refine ⟨w2, by simp only [applyAll, e1]; exact f1, f2, f3.trans e3, fun t j Y A h => ?_⟩
    have := f4 t _ _ _ (e4 t _ _ _ h)
    simp only [List.map_cons, List.sum_cons]
    rwa [← add_assoc, ← add_assoc, ← add_assoc]

end Flo
end LC
