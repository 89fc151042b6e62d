import Verif.Proof.FloatApply
import Verif.Proof.StateVec
/-
C98: the number of contributions to one amplitude; dense and sparse vectors.
-/
set_option linter.unusedSectionVars false
set_option linter.unusedSimpArgs false
namespace LC
open Classical HilbertSpace
variable {ι : Type _} [LinearOrder ι] {hs : HilbertSpace ι}

theorem genAct_top {bd : ι → ℕ∞} {g : Gen ι} {n : Config ι} {q : Config ι × ℝ} (h : genAct bd g n = some q) :
    genAct (fun _ => ⊤) g n = some q := by
  cases g with
  | fermion d i => cases d <;> simpa [genAct] using h
  | spin m c i => cases c <;> simpa [genAct] using h
  | boson d i =>
    cases d with
    | false => simpa [genAct] using h
    | true =>
      simp only [genAct] at h ⊢
      split at h
      · rw [if_pos (ENat.natCast_lt_top _)]; exact h
      · simp at h

theorem monAct_top {bd : ι → ℕ∞} {m : List (Gen ι)} {n : Config ι} {q : Config ι × ℝ} (h : monAct bd m n = some q) :
    monAct (fun _ => ⊤) m n = some q := by
  induction m generalizing q with
  | nil => exact h
  | cons g m ih =>
    rw [monAct] at h ⊢
    cases hm : monAct bd m n with
    | none => rw [hm] at h; simp at h
    | some p =>
      rw [hm] at h
      rw [ih hm]
      simp only [Option.bind_some] at h ⊢
      cases hg : genAct bd g p.1 with
      | none => rw [hg] at h; simp at h
      | some r => rw [hg] at h; rw [genAct_top hg]; exact h

/-- A row of the matrix of a monomial has at most one nonzero element. -/
theorem matEl_row (hc : Constructed hs) (hpre : PredefinedSpaces hs) {m : List (Gen ι)} {t k l : Nat} (hk : ValidState hs k)
    (hl : ValidState hs l) (h1 : matEl hs m t k ≠ 0) (h2 : matEl hs m t l ≠ 0) : k = l := by
  have key : ∀ {k}, ValidState hs k → matEl hs m t k ≠ 0 →
      (∃ x, monAct (fun _ => ⊤) (m.reverse.map Gen.dag) (conf hs t) = some (conf hs k, x)) ∧
        ∀ es : ESpace ι, es.Foreign → occ hs t es = occ hs k es := by
    intro k hk h
    unfold matEl at h
    cases hact : monAct (bosonDims hs) m (conf hs k) with
    | none => rw [hact] at h; simp at h
    | some p =>
      obtain ⟨n, x⟩ := p
      rw [hact] at h
      simp only at h
      split at h
      · next hE =>
        obtain ⟨hE1, hE2⟩ := hE
        refine ⟨⟨x, ?_⟩, hE2⟩
        rw [hE1]
        exact monAct_dag (conf_phys hc hpre hk) (monAct_top hact)
      · simp at h
  obtain ⟨⟨x, a1⟩, a2⟩ := key hk h1
  obtain ⟨⟨y, b1⟩, b2⟩ := key hl h2
  rw [a1] at b1
  simp only [Option.some.injEq, Prod.mk.injEq] at b1
  exact state_ext hc hk.1 hl.1 (occ_of_conf hpre hc b1.1 fun es he => (a2 es he).symm.trans (b2 es he))

namespace Flo
variable {D S T V W 𝕜 : Type _} [RCLike 𝕜]

theorem hits_one (hc : Constructed hs) (hpre : PredefinedSpaces hs) (m : List (Gen ι)) (t : Nat) (l : List (Nat × T))
    (hl : ∀ q ∈ l, ValidState hs q.1) (hn : (l.map Prod.fst).Nodup) : (l.map fun q => hit hs m q.1 t).sum ≤ 1 := by
  induction l with
  | nil => simp
  | cons q l ih =>
    rw [List.map_cons, List.sum_cons]
    rw [List.map_cons, List.nodup_cons] at hn
    by_cases h : ValidState hs t ∧ matEl hs m t q.1 ≠ 0
    · have : (l.map fun q => hit hs m q.1 t).sum = 0 := by
        rw [List.sum_eq_zero_iff]
        intro x hx
        obtain ⟨r, hr, rfl⟩ := List.mem_map.1 hx
        unfold hit
        rw [if_neg]
        intro h'
        have := matEl_row hc hpre (hl q (by simp)) (hl r (by simp [hr])) h.2 h'.2
        exact hn.1 (List.mem_map.2 ⟨r, hr, this.symm⟩)
      rw [this]
      unfold hit
      split <;> omega
    · have h0 : hit hs m q.1 t = 0 := by unfold hit; rw [if_neg h]
      rw [h0, Nat.zero_add]
      exact ih (fun q hq => hl q (by simp [hq])) hn.2

theorem hits_le (hc : Constructed hs) (hpre : PredefinedSpaces hs) (terms : List (List (Gen ι) × S)) (t : Nat)
    (l : List (Nat × T)) (hl : ∀ q ∈ l, ValidState hs q.1) (hn : (l.map Prod.fst).Nodup) :
    (l.map fun q => (terms.map fun p => hit hs p.1 q.1 t).sum).sum ≤ terms.length := by
  induction terms with
  | nil => simp
  | cons p terms ih =>
    have : (l.map fun q => ((p :: terms).map fun p => hit hs p.1 q.1 t).sum).sum =
        (l.map fun q => hit hs p.1 q.1 t).sum + (l.map fun q => (terms.map fun p => hit hs p.1 q.1 t).sum).sum := by
      simp only [List.map_cons, List.sum_cons]
      exact List.sum_map_add
    rw [this, List.length_cons]
    have := hits_one hc hpre p.1 t l hl hn
    omega

theorem length_le_degree {G : Type _} (e : Expr G S) : ∀ p ∈ e.terms, p.1.length ≤ e.degree := by
  unfold Expr.degree
  induction e.terms with
  | nil => simp
  | cons q l ih =>
    intro p hp
    rw [List.map_cons, List.foldr_cons]
    rcases List.mem_cons.1 hp with rfl | hp
    · exact le_max_left _ _
    · exact (ih p hp).trans (le_max_right _ _)

theorem contrib_norm {vS : S → 𝕜} (k : Nat) (a : 𝕜) (e : Expr (Gen ι) S) {t : Nat} (hv : ValidState hs t) :
    (e.terms.map fun p => ‖contrib hs k a p.1 (vS p.2) t‖).sum = absEl hs (e.values vS) t k * ‖a‖ := by
  unfold absEl Expr.values
  induction e.terms with
  | nil => simp
  | cons p l ih =>
    simp only [List.map_cons, List.sum_cons, List.map_map, add_mul] at ih ⊢
    rw [ih]
    congr 1
    rw [contrib, if_pos hv, smul_eq_mul, norm_mul, norm_mul, norm_algebraMap', Real.norm_eq_abs]

theorem contrib_value {vS : S → 𝕜} (k : Nat) (a : 𝕜) (e : Expr (Gen ι) S) {t : Nat} (hv : ValidState hs t) :
    (e.terms.map fun p => contrib hs k a p.1 (vS p.2) t).sum = opEl hs (e.values vS) t k * a := by
  unfold opEl Expr.values
  induction e.terms with
  | nil => simp
  | cons p l ih =>
    simp only [List.map_cons, List.sum_cons, List.map_map, add_mul] at ih ⊢
    rw [ih, contrib, if_pos hv, smul_eq_mul]

theorem opEl_norm (e : Expr (Gen ι) 𝕜) (t k : Nat) : ‖opEl hs e t k‖ ≤ absEl hs e t k := by
  unfold opEl absEl
  induction e.terms with
  | nil => simp
  | cons p l ih =>
    simp only [List.map_cons, List.sum_cons]
    refine (norm_add_le _ _).trans (add_le_add ?_ ih)
    rw [norm_mul, norm_algebraMap', Real.norm_eq_abs]

theorem absEl_nonneg (e : Expr (Gen ι) 𝕜) (t k : Nat) : 0 ≤ absEl hs e t k := (norm_nonneg _).trans (opEl_norm e t k)

variable [AmpOps T] [CoefOps D S T] [StateVec V T] [StateVec W T] [FloatSV V T] [FloatSV W T]
variable {u tol : ℝ} {vS : S → 𝕜} {vT : T → 𝕜} {fS : S → Prop} {fT : T → Prop}

omit [AmpOps T] [CoefOps D S T] [StateVec V T] [StateVec W T] [FloatSV V T] [FloatSV W T] [RCLike 𝕜] in
theorem keys_sum {M : Type _} [AddCommMonoid M] (vT : T → 𝕜) (l : List (Nat × T)) (hn : (l.map Prod.fst).Nodup) (ψ : Nat → T)
    (hl : ∀ p ∈ l, p.2 = ψ p.1) (f : Nat → 𝕜 → M) :
    (l.map fun q => f q.1 (vT q.2)).sum = ∑ k ∈ (l.map Prod.fst).toFinset, f k (vT (ψ k)) := by
  have : (l.map fun q => f q.1 (vT q.2)) = (l.map Prod.fst).map fun k => f k (vT (ψ k)) := by
    rw [List.map_map]
    refine List.map_congr_left fun p hp => ?_
    simp [hl p hp]
  rw [this, List.sum_toFinset _ hn]

/-- With the skipped amplitudes themselves instead of the tolerance. -/
theorem actImpl_bound_sharp (R : Rounding (D := D) u tol vS vT fS fT) (hc : Constructed hs) (hpre : PredefinedSpaces hs)
    {e : Expr (Gen ι) S} {op : LOperator S} (hop : LOperator.make e hs = .ok op) (he : ∀ p ∈ e.terms, CanonicalMonomial p.1)
    (v : V) (w : W) (hv : FloatSV.inv v) (hw : FloatSV.inv w) (hz : ∀ t, FloatSV.amp w t = AmpOps.zero)
    (hdom : ∀ k ∈ FloatSV.visited v, ValidState hs k)
    (ht : ∀ k ∈ FloatSV.visited v, ∀ p ∈ e.terms, ∀ t, ValidState hs t → matEl hs p.1 t k ≠ 0 → t ∈ FloatSV.dom w) :
    ∃ w', Flo.actImpl op v w = .ok w' ∧ FloatSV.inv w' ∧ FloatSV.dom w' = FloatSV.dom w ∧
      ∀ t, fT (FloatSV.amp w' t) →
        ‖vT (FloatSV.amp w' t) - opApply hs (e.values vS) (fun k => vT (FloatSV.amp v k)) t‖ ≤
          ((1 + u) ^ (e.terms.length + 3 * e.degree + 2) - 1) *
              ∑ k ∈ basisStates hs, absEl hs (e.values vS) t k * ‖vT (FloatSV.amp v k)‖
            + ∑ k ∈ basisStates hs with AmpOps.isZero (FloatSV.amp v k) = true, absEl hs (e.values vS) t k * ‖vT (FloatSV.amp v k)‖
            + dropErr u tol (FloatSV.drop W) e.terms.length := by
  obtain ⟨l, h1, h2, h3, h4⟩ := FloatSV.each v hv
  have hmem : ∀ q ∈ l, q.1 ∈ FloatSV.visited v := fun q hq => (h3 _).1 (List.mem_map.2 ⟨q, hq, rfl⟩)
  have hval : ∀ q ∈ l, ValidState hs q.1 := fun q hq => hdom _ (hmem q hq)
  obtain ⟨w', e1, e2, e3, e4⟩ := applyAll_acc R hc hpre (make_made hop) he (length_le_degree e) l hval w hw
    (fun q hq => ht _ (hmem q hq))
  refine ⟨w', by simp only [Flo.actImpl, h1]; exact e1, e2, e3, fun t hf => ?_⟩
  have hacc := e4 t 0 0 0 (by rw [hz]; exact acc_zero R _ _)
  rw [Nat.zero_add, zero_add, zero_add] at hacc
  have hb := (acc_mono R hacc (hits_le hc hpre e.terms t l hval h2)).2 hf
  have hu := R.u_nonneg
  have htol := R.tol_nonneg
  have hexp : 3 * e.degree + 2 + e.terms.length = e.terms.length + 3 * e.degree + 2 := by ring
  rw [hexp] at hb
  have hpow := one_le_pow hu (e.terms.length + 3 * e.degree + 2)
  have hdn := dropErr_nonneg R (FloatSV.drop W) e.terms.length
  have hA1 : 0 ≤ ∑ k ∈ basisStates hs, absEl hs (e.values vS) t k * ‖vT (FloatSV.amp v k)‖ :=
    Finset.sum_nonneg fun k _ => mul_nonneg (absEl_nonneg _ _ _) (norm_nonneg _)
  have hA2 : 0 ≤ ∑ k ∈ basisStates hs with AmpOps.isZero (FloatSV.amp v k) = true, absEl hs (e.values vS) t k * ‖vT (FloatSV.amp v k)‖ :=
    Finset.sum_nonneg fun k _ => mul_nonneg (absEl_nonneg _ _ _) (norm_nonneg _)
  by_cases hvt : ValidState hs t
  swap
  · have z1 : (l.map fun q => (e.terms.map fun p => contrib hs q.1 (vT q.2) p.1 (vS p.2) t).sum).sum = 0 := by
      simp [contrib, hvt]
    have z2 : (l.map fun q => (e.terms.map fun p => ‖contrib hs q.1 (vT q.2) p.1 (vS p.2) t‖).sum).sum = 0 := by
      simp [contrib, hvt]
    rw [z1, z2, mul_zero, zero_add] at hb
    rw [opApply, if_neg hvt]
    have := mul_nonneg (sub_nonneg.2 hpow) hA1
    linarith
  simp only [contrib_norm _ _ e hvt, contrib_value _ _ e hvt] at hb
  rw [opApply, if_pos hvt]
  simp only [smul_eq_mul]
  set ψ : Nat → 𝕜 := fun k => vT (FloatSV.amp v k) with hψ
  set K := (l.map Prod.fst).toFinset with hK
  have hKsub : K ⊆ basisStates hs := by
    intro k hk
    rw [hK, List.mem_toFinset] at hk
    obtain ⟨p, hp, rfl⟩ := List.mem_map.1 hk
    exact mem_basisStates.2 (hval p hp)
  rw [keys_sum vT l h2 (FloatSV.amp v) h4 (fun k a => opEl hs (e.values vS) t k * a),
    keys_sum vT l h2 (FloatSV.amp v) h4 (fun k a => absEl hs (e.values vS) t k * ‖a‖)] at hb
  rw [← Finset.sum_sdiff hKsub]
  have hskip : ∀ k ∈ basisStates hs \ K, ψ k = 0 ∨ AmpOps.isZero (FloatSV.amp v k) = true := by
    intro k hk
    have : k ∉ FloatSV.visited v := fun h => (Finset.mem_sdiff.1 hk).2 (by rw [hK, List.mem_toFinset]; exact (h3 k).2 h)
    rcases FloatSV.skipped v k hv this with h | h
    · left; rw [hψ]; simp only [h]; exact R.zero.2
    · exact .inr h
  have hrest : ‖∑ k ∈ basisStates hs \ K, opEl hs (e.values vS) t k * ψ k‖ ≤
      ∑ k ∈ basisStates hs with AmpOps.isZero (FloatSV.amp v k) = true, absEl hs (e.values vS) t k * ‖ψ k‖ := by
    refine (norm_sum_le _ _).trans ?_
    rw [Finset.sum_filter]
    have hnn : ∀ k, 0 ≤ absEl hs (e.values vS) t k * ‖ψ k‖ := fun k => mul_nonneg (absEl_nonneg _ _ _) (norm_nonneg _)
    refine (Finset.sum_le_sum (fun k hk => ?_)).trans
      (Finset.sum_le_sum_of_subset_of_nonneg Finset.sdiff_subset fun k _ _ => ?_)
    · rw [norm_mul]
      rcases hskip k hk with h | h
      · rw [h, norm_zero, mul_zero, mul_zero]
        split <;> exact le_rfl
      · rw [if_pos h]
        exact mul_le_mul_of_nonneg_right (opEl_norm _ _ _) (norm_nonneg _)
    · split
      exacts [hnn k, le_rfl]
  have hKA : ∑ k ∈ K, absEl hs (e.values vS) t k * ‖ψ k‖ ≤ ∑ k ∈ basisStates hs, absEl hs (e.values vS) t k * ‖ψ k‖ :=
    Finset.sum_le_sum_of_subset_of_nonneg hKsub fun k _ _ => mul_nonneg (absEl_nonneg _ _ _) (norm_nonneg _)
  have htri : ‖vT (FloatSV.amp w' t) - (∑ k ∈ basisStates hs \ K, opEl hs (e.values vS) t k * ψ k
      + ∑ k ∈ K, opEl hs (e.values vS) t k * ψ k)‖ ≤
      ‖vT (FloatSV.amp w' t) - ∑ k ∈ K, opEl hs (e.values vS) t k * ψ k‖
        + ‖∑ k ∈ basisStates hs \ K, opEl hs (e.values vS) t k * ψ k‖ := by
    have : vT (FloatSV.amp w' t) - (∑ k ∈ basisStates hs \ K, opEl hs (e.values vS) t k * ψ k
      + ∑ k ∈ K, opEl hs (e.values vS) t k * ψ k) = (vT (FloatSV.amp w' t) - ∑ k ∈ K, opEl hs (e.values vS) t k * ψ k)
        - ∑ k ∈ basisStates hs \ K, opEl hs (e.values vS) t k * ψ k := by ring
    rw [this]; exact norm_sub_le _ _
  have := mul_le_mul_of_nonneg_left hKA (sub_nonneg.2 hpow)
  linarith

theorem actImpl_bound (R : Rounding (D := D) u tol vS vT fS fT) (hc : Constructed hs) (hpre : PredefinedSpaces hs)
    {e : Expr (Gen ι) S} {op : LOperator S} (hop : LOperator.make e hs = .ok op) (he : ∀ p ∈ e.terms, CanonicalMonomial p.1)
    (v : V) (w : W) (hv : FloatSV.inv v) (hw : FloatSV.inv w) (hz : ∀ t, FloatSV.amp w t = AmpOps.zero)
    (hdom : ∀ k ∈ FloatSV.visited v, ValidState hs k)
    (ht : ∀ k ∈ FloatSV.visited v, ∀ p ∈ e.terms, ∀ t, ValidState hs t → matEl hs p.1 t k ≠ 0 → t ∈ FloatSV.dom w) :
    ∃ w', Flo.actImpl op v w = .ok w' ∧ FloatSV.inv w' ∧ FloatSV.dom w' = FloatSV.dom w ∧
      ∀ t, fT (FloatSV.amp w' t) →
        ‖vT (FloatSV.amp w' t) - opApply hs (e.values vS) (fun k => vT (FloatSV.amp v k)) t‖ ≤
          ((1 + u) ^ (e.terms.length + 3 * e.degree + 2) - 1) *
              ∑ k ∈ basisStates hs, absEl hs (e.values vS) t k * ‖vT (FloatSV.amp v k)‖
            + tol * ∑ k ∈ basisStates hs with AmpOps.isZero (FloatSV.amp v k) = true, absEl hs (e.values vS) t k
            + dropErr u tol (FloatSV.drop W) e.terms.length := by
  obtain ⟨w', h1, h2, h3, h4⟩ := actImpl_bound_sharp R hc hpre hop he v w hv hw hz hdom ht
  refine ⟨w', h1, h2, h3, fun t hf => (h4 t hf).trans ?_⟩
  have : ∑ k ∈ basisStates hs with AmpOps.isZero (FloatSV.amp v k) = true, absEl hs (e.values vS) t k * ‖vT (FloatSV.amp v k)‖ ≤
      tol * ∑ k ∈ basisStates hs with AmpOps.isZero (FloatSV.amp v k) = true, absEl hs (e.values vS) t k := by
    rw [Finset.mul_sum]
    refine Finset.sum_le_sum fun k hk => ?_
    rw [mul_comm tol]
    exact mul_le_mul_of_nonneg_left (R.isZero _ (Finset.mem_filter.1 hk).2).2 (absEl_nonneg _ _ _)
  linarith

end Flo

/-! ### Vectors -/

namespace FloVec
variable {T : Type _} [AmpOps T]

theorem foreachFrom_spec (l : List T) (n : Nat) :
    ((foreachFrom n l).map Prod.fst).Nodup ∧
      ∀ p, p ∈ foreachFrom n l ↔ n ≤ p.1 ∧ l[p.1 - n]? = some p.2 ∧ AmpOps.isZero p.2 = false := by
  induction l generalizing n with
  | nil => simp [foreachFrom]
  | cons a l ih =>
    obtain ⟨h1, h2⟩ := ih (n + 1)
    have step : ∀ p : Nat × T, (n ≤ p.1 ∧ (a :: l)[p.1 - n]? = some p.2 ∧ AmpOps.isZero p.2 = false) ↔
        (p = (n, a) ∧ AmpOps.isZero a = false) ∨ (n + 1 ≤ p.1 ∧ l[p.1 - (n + 1)]? = some p.2 ∧ AmpOps.isZero p.2 = false) := by
      rintro ⟨k, b⟩
      simp only [Prod.mk.injEq]
      by_cases hk : k = n
      · subst hk
        simp only [le_refl, Nat.sub_self, List.getElem?_cons_zero, Option.some.injEq, true_and]
        constructor
        · rintro ⟨rfl, h⟩; exact .inl ⟨rfl, h⟩
        · rintro (⟨rfl, h⟩ | ⟨h, _⟩)
          · exact ⟨rfl, h⟩
          · omega
      · by_cases hlt : n + 1 ≤ k
        · rw [show k - n = (k - (n + 1)) + 1 by omega, List.getElem?_cons_succ]
          simp [hk, hlt, show n ≤ k by omega]
        · simp [hk, hlt, show ¬ n ≤ k by omega]
    rw [foreachFrom]
    by_cases ha : AmpOps.isZero a = true
    · rw [if_pos ha]
      refine ⟨h1, fun p => ?_⟩
      rw [step, h2]
      simp [ha]
    · rw [if_neg ha]
      simp only [Bool.not_eq_true] at ha
      refine ⟨?_, fun p => ?_⟩
      · rw [List.map_cons, List.nodup_cons]
        refine ⟨fun h => ?_, h1⟩
        obtain ⟨p, hp, hp'⟩ := List.mem_map.1 h
        have := ((h2 p).1 hp).1
        omega
      · rw [step, List.mem_cons, h2]
        simp [ha]

/-- `std::vector`: sums are never forgotten; amplitudes that pass `is_zero` are not visited. -/
instance : FloatSV (FloVec T) T where
  drop := false
  inv _ := True
  dom v := {n | n < v.data.length}
  amp v n := v.data.getD n AmpOps.zero
  visited v := {n | n < v.data.length ∧ AmpOps.isZero (v.data.getD n AmpOps.zero) = false}
  each v _ := by
    obtain ⟨h1, h2⟩ := foreachFrom_spec v.data 0
    refine ⟨_, rfl, h1, fun n => ⟨fun h => ?_, fun h => ?_⟩, fun p hp => ?_⟩
    · obtain ⟨p, hp, rfl⟩ := List.mem_map.1 h
      obtain ⟨_, h, h'⟩ := (h2 p).1 hp
      rw [Nat.sub_zero] at h
      have hlt := (List.getElem?_eq_some_iff.1 h).1
      exact ⟨hlt, by rw [List.getD_eq_getElem?_getD, h]; exact h'⟩
    · obtain ⟨hlt, hz⟩ := h
      refine List.mem_map.2 ⟨(n, v.data.getD n AmpOps.zero), (h2 _).2 ⟨Nat.zero_le _, ?_, hz⟩, rfl⟩
      rw [Nat.sub_zero, List.getD_eq_getElem?_getD, List.getElem?_eq_getElem hlt]; rfl
    · obtain ⟨_, h, _⟩ := (h2 p).1 hp
      rw [Nat.sub_zero] at h
      rw [List.getD_eq_getElem?_getD, h]; rfl
  skipped v n _ h := by
    by_cases hlt : n < v.data.length
    · right
      by_contra h'
      exact h ⟨hlt, by simpa using h'⟩
    · left
      rw [List.getD_eq_getElem?_getD, List.getElem?_eq_none (by omega)]; rfl
  update v n x _ hn := by
    have hn' : n < v.data.length := hn
    have h1 : v.data[n]? = some (v.data.getD n AmpOps.zero) := by
      rw [List.getD_eq_getElem?_getD, List.getElem?_eq_getElem hn']; rfl
    refine ⟨⟨v.data.set n (AmpOps.add (v.data.getD n AmpOps.zero) x)⟩, ?_, trivial, ?_, fun k hk => ?_, ?_⟩
    · show updateAdd v n x = _
      rw [updateAdd, h1]
    · ext k; simp
    · simp only [List.getD_eq_getElem?_getD, List.getElem?_set_ne (Ne.symm hk)]
    · have : (v.data.set n (AmpOps.add (v.data.getD n AmpOps.zero) x)).getD n AmpOps.zero =
          AmpOps.add (v.data.getD n AmpOps.zero) x := by
        rw [List.getD_eq_getElem?_getD, List.getElem?_set_self hn']; rfl
      rw [this]
      exact .add
  zero v _ := by
    refine ⟨trivial, ?_, fun n => ?_⟩
    · ext k; simp [StateVec.setZeros]
    · simp only [StateVec.setZeros, List.getD_eq_getElem?_getD, List.getElem?_map]
      cases v.data[n]? <;> rfl

instance : FloatZeros (FloVec T) where
  zeros v _ := by
    refine ⟨trivial, ?_, fun n => ?_⟩
    · ext k; simp [ZerosLike.zerosLike, FloatSV.dom]
    · simp only [FloatSV.amp, ZerosLike.zerosLike, List.getD_eq_getElem?_getD, List.getElem?_replicate]
      split <;> rfl

end FloVec

namespace FloSparse
variable {H T : Type _} [HashImpl H Nat T] [AmpOps T]

theorem getElement_eq (sv : FloSparse H T) (n : Nat) : sv.getElement n = (sv.data.find? n).getD AmpOps.zero := by
  unfold getElement; cases sv.data.find? n <;> rfl

/-- `sparse_state_vector`: sums that pass `is_zero` are forgotten. -/
instance : FloatSV (FloSparse H T) T where
  drop := true
  inv v := v.data.Nodup
  dom _ := Set.univ
  amp v n := v.getElement n
  visited v := {n | v.data.find? n ≠ none}
  each v hv := by
    refine ⟨v.data.items, rfl, hv, fun n => ?_, fun p hp => ?_⟩
    · rw [Set.mem_ofPred_eq, ne_eq, UMap.find?_none, not_not]
    · rw [getElement_eq, (UMap.find?_iff hv p.1 p.2).2 hp]; rfl
  skipped v n _ h := by
    left
    have h' : v.data.find? n = none := by
      by_contra hc; exact h hc
    rw [getElement_eq, h']; rfl
  update v n x hv _ := by
    refine ⟨v.updateAdd n x, rfl, ?_⟩
    unfold updateAdd
    cases hf : v.data.find? n with
    | none =>
      by_cases hx : AmpOps.isZero x = true
      · simp only [hx, Bool.not_true, Bool.false_eq_true, if_false]
        refine ⟨hv, by simp, fun k hk => by trivial, ?_⟩
        rw [getElement_eq, hf]
        exact .dropNew rfl rfl hx
      · simp only [Bool.not_eq_true] at hx
        simp only [hx, Bool.not_false, if_true]
        obtain ⟨h1, h2⟩ := UMap.set_spec hv n x
        refine ⟨h1, by simp, fun k hk => ?_, ?_⟩
        · rw [getElement_eq, getElement_eq, h2, if_neg hk]
        · rw [getElement_eq, getElement_eq, h2, if_pos rfl, hf]
          exact .fresh rfl
    | some a =>
      obtain ⟨h1, h2⟩ := UMap.assign_spec hv n (AmpOps.add a x) (by simp [hf])
      simp only
      by_cases hx : AmpOps.isZero (AmpOps.add a x) = true
      · rw [if_pos hx]
        obtain ⟨h3, h4⟩ := UMap.erase_spec h1 n
        refine ⟨h3, by simp, fun k hk => ?_, ?_⟩
        · rw [getElement_eq, getElement_eq, h4, if_neg hk, h2, if_neg hk]
        · rw [getElement_eq, getElement_eq, h4, if_pos rfl, hf]
          exact .dropSum rfl hx
      · rw [if_neg hx]
        refine ⟨h1, by simp, fun k hk => ?_, ?_⟩
        · rw [getElement_eq, getElement_eq, h2, if_neg hk]
        · rw [getElement_eq, getElement_eq, h2, if_pos rfl, hf]
          exact .add
  zero v _ := ⟨by simp [StateVec.setZeros, UMap.Nodup], rfl, fun _ => rfl⟩

instance : FloatZeros (FloSparse H T) where
  zeros _ _ := ⟨UMap.nodup_empty, rfl, fun _ => rfl⟩

end FloSparse
end LC
