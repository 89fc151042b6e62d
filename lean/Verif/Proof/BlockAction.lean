import Verif.Proof.Views
import Verif.Proof.LOpApply
/-
Operators that lead out of the range of a vector which throws on such accesses.
-/
set_option linter.unusedSectionVars false
namespace LC
open HilbertSpace
variable {ι S T V W : Type _} [LinearOrder ι] {hs : HilbertSpace ι} [CommRing S] [Algebra ℝ S] [AddCommMonoid T] [Module S T]
  [StateVec V T] [StateVec W T] [LawfulSV V T] [LawfulSV W T]

/-- One term of an operator leads from `k` to a basis state outside `dom w`. -/
def LeadsOut (hs : HilbertSpace ι) (m : List (Gen ι)) (k : Nat) (d : Set Nat) : Prop := ∃ t, ValidState hs t ∧ matEl hs m t k ≠ 0 ∧ t ∉ d

variable (hout : ∀ w : W, LawfulSV.inv w → ∀ n, n ∉ LawfulSV.dom w → ∀ a : T, StateVec.updateAdd w n a = .error .outOfRange)
include hout

theorem applyTerm_out (hc : Constructed hs) (hpre : PredefinedSpaces hs) {m : List (Gen ι)} (hm : CanonicalMonomial m)
    {ma : MonomialAction} (hma : MonomialAction.make m hs = .ok ma) {k : Nat} (hk : ValidState hs k) (a : T) (c : S) (w : W)
    (hw : LawfulSV.inv w) (ht : LeadsOut hs m k (LawfulSV.dom w)) : applyTerm k a ma c w = .error .outOfRange := by
  have h := monomial_act hc hpre hm hma hk (1 : S)
  unfold ActsAs at h
  obtain ⟨t, t1, t2, t3⟩ := ht
  unfold matEl at t2
  cases hact : monAct (bosonDims hs) m (conf hs k) with
  | none => rw [hact] at t2; exact absurd rfl t2
  | some p =>
    obtain ⟨n, x⟩ := p
    rw [hact] at h t2
    simp only at t2
    obtain ⟨u, h1, h2, h3, h4⟩ := h
    have hE : Encodes hs k n u := ⟨h3, h4⟩
    split at t2
    · next hE' =>
      have := encodes_unique hc hpre t1 h2 hE' hE
      subst this
      simp only [applyTerm, h1]
      exact hout w hw _ t3 _
    · exact absurd rfl t2

theorem applyTerms_out (hc : Constructed hs) (hpre : PredefinedSpaces hs) {acts : List (MonomialAction × S)}
    {terms : List (List (Gen ι) × S)} (hmade : Made hs acts terms) (hm : ∀ p ∈ terms, CanonicalMonomial p.1) {k : Nat}
    (hk : ValidState hs k) (a : T) (w : W) (hw : LawfulSV.inv w) (ht : ∃ p ∈ terms, LeadsOut hs p.1 k (LawfulSV.dom w)) :
    applyTerms k a acts w = .error .outOfRange := by
  induction hmade generalizing w with
  | nil => obtain ⟨p, hp, _⟩ := ht; cases hp
  | @cons x p acts terms hxp hmade ih =>
    obtain ⟨ma, c⟩ := x
    obtain ⟨m, c'⟩ := p
    obtain ⟨hma, hcc⟩ := hxp
    simp only at hma hcc
    subst hcc
    by_cases hfirst : LeadsOut hs m k (LawfulSV.dom w)
    · simp only [applyTerms, applyTerm_out hout hc hpre (hm (m, c) (by simp)) hma hk a c w hw hfirst]
    · obtain ⟨w1, e1, e2, e3, e4⟩ := applyTerm_spec hc hpre (hm (m, c) (by simp)) hma hk a c w hw
        (fun t h1 h2 => by by_contra h3; exact hfirst ⟨t, h1, h2, h3⟩)
      simp only [applyTerms, e1]
      obtain ⟨p, hp, hl⟩ := ht
      refine ih (fun p hp => hm p (by simp [hp])) w1 e2 ?_
      rcases List.mem_cons.1 hp with rfl | hp
      · exact absurd hl hfirst
      · exact ⟨p, hp, by rw [e3]; exact hl⟩

theorem applyAll_out (hc : Constructed hs) (hpre : PredefinedSpaces hs) {acts : List (MonomialAction × S)}
    {terms : List (List (Gen ι) × S)} (hmade : Made hs acts terms) (hm : ∀ p ∈ terms, CanonicalMonomial p.1)
    (l : List (Nat × T)) (hl : ∀ q ∈ l, ValidState hs q.1) (w : W) (hw : LawfulSV.inv w)
    (ht : ∃ q ∈ l, ∃ p ∈ terms, LeadsOut hs p.1 q.1 (LawfulSV.dom w)) : applyAll acts l w = .error .outOfRange := by
  induction l generalizing w with
  | nil => obtain ⟨q, hq, _⟩ := ht; cases hq
  | cons q l ih =>
    obtain ⟨k, a⟩ := q
    by_cases hfirst : ∃ p ∈ terms, LeadsOut hs p.1 k (LawfulSV.dom w)
    · simp only [applyAll, applyTerms_out hout hc hpre hmade hm (hl (k, a) (by simp)) a w hw hfirst]
    · obtain ⟨w1, e1, e2, e3, e4⟩ := applyTerms_spec hc hpre hmade hm (hl (k, a) (by simp)) a w hw
        (fun p hp t h1 h2 => by by_contra h3; exact hfirst ⟨p, hp, t, h1, h2, h3⟩)
      simp only [applyAll, e1]
      obtain ⟨q, hq, p, hp, hlo⟩ := ht
      refine ih (fun q hq => hl q (by simp [hq])) w1 e2 ?_
      rcases List.mem_cons.1 hq with rfl | hq
      · exact absurd ⟨p, hp, hlo⟩ hfirst
      · exact ⟨q, hq, p, hp, by rw [e3]; exact hlo⟩

/-- `op(src, dst)` throws if some term leads from a visited state out of the range of `dst`. -/
theorem applyTo_out (hc : Constructed hs) (hpre : PredefinedSpaces hs) {e : Expr (Gen ι) S} {op : LOperator S}
    (hop : LOperator.make e hs = .ok op) (he : ∀ p ∈ e.terms, CanonicalMonomial p.1) (v : V) (w : W)
    (hv : LawfulSV.inv v) (hw : LawfulSV.inv w) (hdom : ∀ k ∈ LawfulSV.visited v, ValidState hs k)
    (ht : ∃ k ∈ LawfulSV.visited v, ∃ p ∈ e.terms, LeadsOut hs p.1 k (LawfulSV.dom w)) : op.applyTo v w = .error .outOfRange := by
  obtain ⟨z1, z2, _⟩ := LawfulSV.zero w hw
  obtain ⟨l, h1, h2, h3, h4⟩ := LawfulSV.each v hv
  obtain ⟨k, hk, p, hp, hlo⟩ := ht
  obtain ⟨q, hq, rfl⟩ := List.mem_map.1 ((h3 k).2 hk)
  simp only [LOperator.applyTo, LOperator.actImpl, h1]
  refine applyAll_out hout hc hpre (make_made hop) he l (fun q hq => hdom _ ((h3 _).1 (List.mem_map.2 ⟨q, hq, rfl⟩))) _ z1 ?_
  exact ⟨q, hq, p, hp, by rw [z2]; exact hlo⟩

end LC
