import Mathlib.Algebra.BigOperators.Ring.Finset
import Mathlib.Algebra.BigOperators.Group.Finset.Piecewise
import Mathlib.Algebra.Module.BigOperators
import Verif.Proof.FockPhys
/-
What `op(src, dst)` computes.
-/
set_option linter.unusedSectionVars false
set_option linter.unusedSimpArgs false
namespace LC
open HilbertSpace Classical
variable {ι S T V W : Type _} [LinearOrder ι] {hs : HilbertSpace ι} [CommRing S] [Algebra ℝ S] [AddCommMonoid T] [Module S T]
  [StateVec V T] [StateVec W T] [LawfulSV V T] [LawfulSV W T]

/-- The list of actions belongs to the list of terms. -/
def Made (hs : HilbertSpace ι) : List (MonomialAction × S) → List (List (Gen ι) × S) → Prop :=
  List.Forall₂ fun a p => MonomialAction.make p.1 hs = .ok a.1 ∧ a.2 = p.2

omit [CommRing S] [Algebra ℝ S] in
theorem makeLoop_made (l : List (List (Gen ι) × S)) (acts : List (MonomialAction × S))
    (h : LOperator.makeLoop hs l = .ok acts) : Made hs acts l := by
  induction l generalizing acts with
  | nil => simp only [LOperator.makeLoop, Except.ok.injEq] at h; rw [← h]; exact .nil
  | cons p l ih =>
    obtain ⟨m, c⟩ := p
    simp only [LOperator.makeLoop] at h
    split at h
    · simp at h
    · next a ha =>
      split at h
      · simp at h
      · next r hr =>
        simp only [Except.ok.injEq] at h
        rw [← h]
        exact .cons ⟨ha, rfl⟩ (ih r hr)

omit [CommRing S] [Algebra ℝ S] in
theorem make_made {e : Expr (Gen ι) S} {op : LOperator S} (h : LOperator.make e hs = .ok op) : Made hs op.actions e.terms := by
  unfold LOperator.make at h
  split at h
  · simp at h
  · next l hl =>
    simp only [Except.ok.injEq] at h
    rw [← h]; exact makeLoop_made _ _ hl

/-- The term of the sum contributed by one monomial. -/
noncomputable def contrib (hs : HilbertSpace ι) (k : Nat) (a : T) (m : List (Gen ι)) (c : S) (t : Nat) : T :=
  if ValidState hs t then (c * algebraMap ℝ S (matEl hs m t k)) • a else 0

theorem applyTerm_spec (hc : Constructed hs) (hpre : PredefinedSpaces hs) {m : List (Gen ι)} (hm : CanonicalMonomial m)
    {ma : MonomialAction} (hma : MonomialAction.make m hs = .ok ma) {k : Nat} (hk : ValidState hs k) (a : T) (c : S) (w : W)
    (hw : LawfulSV.inv w) (ht : ∀ t, ValidState hs t → matEl hs m t k ≠ 0 → t ∈ LawfulSV.dom w) :
    ∃ w', applyTerm k a ma c w = .ok w' ∧ LawfulSV.inv w' ∧ LawfulSV.dom w' = LawfulSV.dom w ∧
      ∀ t, LawfulSV.amp w' t = LawfulSV.amp w t + contrib hs k a m c t := by
  have h := monomial_act hc hpre hm hma hk (1 : S)
  unfold ActsAs at h
  cases hact : monAct (bosonDims hs) m (conf hs k) with
  | none =>
    rw [hact] at h
    simp only at h
    refine ⟨w, by simp [applyTerm, h], hw, rfl, fun t => ?_⟩
    simp [contrib, matEl, hact]
  | some p =>
    obtain ⟨n, x⟩ := p
    rw [hact] at h
    obtain ⟨u, h1, h2, h3, h4⟩ := h
    have hE : Encodes hs k n u := ⟨h3, h4⟩
    have hx := (monAct_phys (conf_phys hc hpre hk) hact).2
    have hmat : ∀ t, matEl hs m t k = if Encodes hs k n t then x else 0 := by intro t; simp [matEl, hact]
    have hu : u ∈ LawfulSV.dom w := ht u h2 (by rw [hmat, if_pos hE]; exact hx)
    obtain ⟨w', e1, e2, e3, e4⟩ := LawfulSV.update w u ((c * (1 * algebraMap ℝ S x)) • a) hw hu
    refine ⟨w', by simp only [applyTerm, h1]; exact e1, e2, e3, fun t => ?_⟩
    rw [e4, contrib, hmat, one_mul]
    congr 1
    by_cases htu : t = u
    · subst htu; rw [if_pos rfl, if_pos h2, if_pos hE]
    · rw [if_neg htu]
      by_cases hv : ValidState hs t
      · rw [if_pos hv, if_neg (fun hE' => htu (encodes_unique hc hpre hv h2 hE' hE))]
        simp
      · rw [if_neg hv]

theorem applyTerms_spec (hc : Constructed hs) (hpre : PredefinedSpaces hs) {acts : List (MonomialAction × S)}
    {terms : List (List (Gen ι) × S)} (hmade : Made hs acts terms) (hm : ∀ p ∈ terms, CanonicalMonomial p.1) {k : Nat}
    (hk : ValidState hs k) (a : T) (w : W) (hw : LawfulSV.inv w)
    (ht : ∀ p ∈ terms, ∀ t, ValidState hs t → matEl hs p.1 t k ≠ 0 → t ∈ LawfulSV.dom w) :
    ∃ w', applyTerms k a acts w = .ok w' ∧ LawfulSV.inv w' ∧ LawfulSV.dom w' = LawfulSV.dom w ∧
      ∀ t, LawfulSV.amp w' t = LawfulSV.amp w t + (terms.map fun p => contrib hs k a p.1 p.2 t).sum := by
  induction hmade generalizing w with
  | nil => exact ⟨w, rfl, hw, rfl, fun t => by simp⟩
  | @cons x p acts terms hxp hmade ih =>
    obtain ⟨ma, c⟩ := x
    obtain ⟨m, c'⟩ := p
    obtain ⟨hma, hcc⟩ := hxp
    simp only at hma hcc
    subst hcc
    obtain ⟨w1, e1, e2, e3, e4⟩ := applyTerm_spec hc hpre (hm (m, c) (by simp)) hma hk a c w hw (ht (m, c) (by simp))
    obtain ⟨w2, f1, f2, f3, f4⟩ := ih (fun p hp => hm p (by simp [hp])) w1 e2
      (fun p hp t h1 h2 => by rw [e3]; exact ht p (by simp [hp]) t h1 h2)
    refine ⟨w2, by simp only [applyTerms, e1]; exact f1, f2, f3.trans e3, fun t => ?_⟩
    rw [f4, e4, List.map_cons, List.sum_cons, add_assoc]

theorem applyAll_spec (hc : Constructed hs) (hpre : PredefinedSpaces hs) {acts : List (MonomialAction × S)}
    {terms : List (List (Gen ι) × S)} (hmade : Made hs acts terms) (hm : ∀ p ∈ terms, CanonicalMonomial p.1)
    (l : List (Nat × T)) (hl : ∀ q ∈ l, ValidState hs q.1) (w : W) (hw : LawfulSV.inv w)
    (ht : ∀ q ∈ l, ∀ p ∈ terms, ∀ t, ValidState hs t → matEl hs p.1 t q.1 ≠ 0 → t ∈ LawfulSV.dom w) :
    ∃ w', applyAll acts l w = .ok w' ∧ LawfulSV.inv w' ∧ LawfulSV.dom w' = LawfulSV.dom w ∧
      ∀ t, LawfulSV.amp w' t = LawfulSV.amp w t
        + (l.map fun q => (terms.map fun p => contrib hs q.1 q.2 p.1 p.2 t).sum).sum := by
  induction l generalizing w with
  | nil => exact ⟨w, rfl, hw, rfl, fun t => by simp⟩
  | cons q l ih =>
    obtain ⟨k, a⟩ := q
    obtain ⟨w1, e1, e2, e3, e4⟩ := applyTerms_spec hc hpre hmade hm (hl (k, a) (by simp)) a w hw (ht (k, a) (by simp))
    obtain ⟨w2, f1, f2, f3, f4⟩ := ih (fun q hq => hl q (by simp [hq])) w1 e2
      (fun q hq p hp t h1 h2 => by rw [e3]; exact ht q (by simp [hq]) p hp t h1 h2)
    refine ⟨w2, by simp only [applyAll, e1]; exact f1, f2, f3.trans e3, fun t => ?_⟩
    rw [f4, e4, List.map_cons, List.sum_cons, add_assoc]

theorem contrib_sum (k : Nat) (a : T) (e : Expr (Gen ι) S) (t : Nat) :
    (e.terms.map fun p => contrib hs k a p.1 p.2 t).sum = if ValidState hs t then opEl hs e t k • a else 0 := by
  unfold contrib opEl
  split
  · induction e.terms with
    | nil => simp
    | cons p l ih => simp only [List.map_cons, List.sum_cons, add_smul, ih]
  · simp

theorem sum_keys (l : List (Nat × T)) (hn : (l.map Prod.fst).Nodup) (f : Nat → T → T) (ψ : Nat → T) (hl : ∀ p ∈ l, p.2 = ψ p.1)
    (s : Finset Nat) (hs : ∀ p ∈ l, p.1 ∈ s) (h0 : ∀ k ∈ s, k ∉ l.map Prod.fst → f k (ψ k) = 0) :
    (l.map fun q => f q.1 q.2).sum = ∑ k ∈ s, f k (ψ k) := by
  have h1 : (l.map fun q => f q.1 q.2) = (l.map Prod.fst).map fun k => f k (ψ k) := by
    rw [List.map_map]
    refine List.map_congr_left fun p hp => ?_
    simp [hl p hp]
  rw [h1, ← List.sum_toFinset _ hn]
  refine Finset.sum_subset (fun k hk => ?_) fun k hk hk' => h0 k hk (by simpa using hk')
  rw [List.mem_toFinset] at hk
  obtain ⟨p, hp, rfl⟩ := List.mem_map.1 hk
  exact hs p hp

/-- Accumulation of `op` applied to `v` into `w`. -/
theorem actImpl_spec (hc : Constructed hs) (hpre : PredefinedSpaces hs) {e : Expr (Gen ι) S} {op : LOperator S}
    (hop : LOperator.make e hs = .ok op) (he : ∀ p ∈ e.terms, CanonicalMonomial p.1) (v : V) (w : W)
    (hv : LawfulSV.inv v) (hw : LawfulSV.inv w) (hdom : ∀ k ∈ LawfulSV.visited v, ValidState hs k)
    (ht : ∀ k ∈ LawfulSV.visited v, ∀ p ∈ e.terms, ∀ t, ValidState hs t → matEl hs p.1 t k ≠ 0 → t ∈ LawfulSV.dom w) :
    ∃ w', op.actImpl v w = .ok w' ∧ LawfulSV.inv w' ∧ LawfulSV.dom w' = LawfulSV.dom w ∧
      ∀ t, LawfulSV.amp w' t = LawfulSV.amp w t + opApply hs e (LawfulSV.amp v) t := by
  obtain ⟨l, h1, h2, h3, h4⟩ := LawfulSV.each v hv
  have hmem : ∀ q ∈ l, q.1 ∈ LawfulSV.visited v := fun q hq => (h3 _).1 (List.mem_map.2 ⟨q, hq, rfl⟩)
  obtain ⟨w', e1, e2, e3, e4⟩ := applyAll_spec hc hpre (make_made hop) he l (fun q hq => hdom _ (hmem q hq)) w hw
    (fun q hq => ht _ (hmem q hq))
  refine ⟨w', by simp only [LOperator.actImpl, h1]; exact e1, e2, e3, fun t => ?_⟩
  rw [e4]
  congr 1
  simp only [contrib_sum]
  unfold opApply
  split
  · refine sum_keys l h2 (fun k a => opEl hs e t k • a) (LawfulSV.amp v) h4 _
      (fun p hp => mem_basisStates.2 (hdom _ (hmem p hp))) fun k _ hk => ?_
    have : LawfulSV.amp v k = 0 := by
      by_contra h
      exact hk ((h3 k).2 (LawfulSV.visited_of_ne v k hv h))
    simp only [this, smul_zero]
  · simp

/-! ### Constructing operators -/

omit [CommRing S] [Algebra ℝ S] in
theorem makeLoop_ok (hc : Constructed hs) (hpre : PredefinedSpaces hs) (l : List (List (Gen ι) × S))
    (h : ∀ p ∈ l, CanonicalMonomial p.1 ∧ ∀ g ∈ p.1, hs.has g.mode.space = true) : ∃ acts, LOperator.makeLoop hs l = .ok acts := by
  induction l with
  | nil => exact ⟨[], rfl⟩
  | cons p l ih =>
    obtain ⟨m, c⟩ := p
    obtain ⟨a, ha⟩ := monomialAction_make_ok hc hpre (h (m, c) (by simp)).1 (h (m, c) (by simp)).2
    obtain ⟨r, hr⟩ := ih fun p hp => h p (by simp [hp])
    exact ⟨(a, c) :: r, by simp [LOperator.makeLoop, ha, hr]⟩

omit [CommRing S] [Algebra ℝ S] in
theorem make_ok (hc : Constructed hs) (hpre : PredefinedSpaces hs) {e : Expr (Gen ι) S} (h : ActsOn hs e) :
    ∃ op, LOperator.make e hs = .ok op := by
  obtain ⟨l, hl⟩ := makeLoop_ok hc hpre e.terms h
  exact ⟨⟨l⟩, by simp [LOperator.make, hl]⟩

end LC
