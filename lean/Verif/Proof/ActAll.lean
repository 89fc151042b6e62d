import Verif.Proof.ActFermion
import Verif.Proof.ActSpin
import Verif.Proof.Canonical
/-
Monomials with fermions, bosons and spins.
-/
set_option linter.unusedSectionVars false
set_option linter.unusedSimpArgs false
namespace LC
open HilbertSpace
variable {ι S : Type _} [LinearOrder ι] [CommRing S] [Algebra ℝ S] {hs : HilbertSpace ι} {bd : ι → ℕ∞}

theorem findSubrange_append (a : Int) (l r : List (Gen ι)) (hl : ∀ g ∈ l, g.algebraId = a) (hr : ∀ g ∈ r, a < g.algebraId) :
    findSubrange a (l ++ r) = .ok (l, r) := by
  induction l with
  | nil =>
    cases r with
    | nil => rfl
    | cons g r =>
      have := hr g (by simp)
      rw [List.nil_append, findSubrange, if_neg (by omega), if_neg (by omega)]
  | cons g l ih =>
    have := hl g (by simp)
    rw [List.cons_append, findSubrange, if_neg (by omega), if_pos this, ih (fun x hx => hl x (by simp [hx]))]

theorem canonicalFermions_algebra {m : List (Gen ι)} (h : CanonicalFermions m) : ∀ g ∈ m, g.algebraId = -3 := by
  obtain ⟨p, q, rfl, _, _⟩ := h
  intro g hg
  rcases List.mem_append.1 hg with hg | hg <;>
  · obtain ⟨i, _, rfl⟩ := List.mem_map.1 hg
    rfl

theorem monAct_reorder {f b s : List (Gen ι)} (hf : ∀ g ∈ f, g.algebraId = -3) (hb : ∀ g ∈ b, g.algebraId = -2)
    (hs : ∀ g ∈ s, g.algebraId = -1) (n : Config ι) : monAct bd ((s ++ b) ++ f) n = monAct bd (f ++ b ++ s) n := by
  rw [monAct_comm (m₁ := s ++ b) (m₂ := f)]
  · rw [List.append_assoc, monAct_append, monAct_append (m₁ := f)]
    rw [monAct_comm (m₁ := s) (m₂ := b)]
    intro g hg k hk
    rw [hs g hg, hb k hk]; decide
  · intro g hg k hk
    rw [hf k hk]
    rcases List.mem_append.1 hg with h | h
    · rw [hs g h]; decide
    · rw [hb g h]; decide

/-- Mixed monomials act as products of their generators. -/
theorem monomial_act (hc : Constructed hs) (hpre : PredefinedSpaces hs) {m : List (Gen ι)} (hm : CanonicalMonomial m)
    {a : MonomialAction} (h : MonomialAction.make m hs = .ok a) {s : Nat} (hv : ValidState hs s) (c : S) :
    ActsAs hs s c (monAct (bosonDims hs) m (conf hs s)) (a.act s c) := by
  obtain ⟨f, b, sp, rfl, hf, hb, hsp⟩ := hm
  have hfa := canonicalFermions_algebra hf
  unfold MonomialAction.make at h
  rw [List.append_assoc, findSubrange_append (-3) f (b ++ sp) hfa (by
    intro g hg
    rcases List.mem_append.1 hg with h | h
    · rw [hb g h]; decide
    · rw [hsp g h]; decide)] at h
  simp only at h
  split at h
  · simp at h
  · next fa hfm =>
    rw [findSubrange_append (-2) b sp hb (by intro g hg; rw [hsp g hg]; decide)] at h
    simp only at h
    split at h
    · simp at h
    · next ba hbm =>
      split at h
      · simp at h
      · next sa hsm =>
        cases h
        rw [← monAct_reorder hfa hb hsp]
        exact ActsAs.comp (fermion_act hc hpre hf hfm hv c) fun t c' ht =>
          ActsAs.comp (boson_act hc hbm ht c') fun u c'' hu => spin_act hc hpre hsm hu c''

theorem fermionAction_make_ok (hc : Constructed hs) (hpre : PredefinedSpaces hs) {m : List (Gen ι)} (hm : CanonicalFermions m)
    (h : ∀ g ∈ m, hs.has g.mode.space = true) : ∃ a, FermionAction.make m hs = .ok a := by
  obtain ⟨p, q, rfl, hp, hq⟩ := hm
  have hP : ∀ i ∈ p, hs.has (ESpace.fermion i) = true := fun i hi =>
    h (.fermion true i) (List.mem_append_left _ (List.mem_map.2 ⟨i, hi, rfl⟩))
  have hQ : ∀ i ∈ q, hs.has (ESpace.fermion i) = true := fun i hi =>
    h (.fermion false i) (List.mem_append_right _ (List.mem_map.2 ⟨i, hi, rfl⟩))
  unfold FermionAction.make
  split
  · exact ⟨_, rfl⟩
  · next he =>
    rw [fermionLoop_create hc hpre p _ _ hP, fermionLoop_annih hc hpre q _ hQ]
    obtain ⟨r0, r1, hg⟩ : ∃ r0 r1, FGeom hs r0 r1 := by
      cases p with
      | cons x p => exact exists_fgeom hc hpre (hP x (by simp))
      | nil =>
        cases q with
        | cons x q => exact exists_fgeom hc hpre (hQ x (by simp))
        | nil => simp at he
    rw [hg.range]
    exact ⟨_, rfl⟩

theorem bosonLoop_ok (hc : Constructed hs) (l : List (Gen ι)) (power size : Nat) (us : List BosonUpdate)
    (hl : ∀ g ∈ l, g.algebraId = -2) (h : ∀ g ∈ l, hs.has g.mode.space = true) : ∃ a, bosonLoop hs l power size us = .ok a := by
  induction l generalizing power size us with
  | nil => exact ⟨_, rfl⟩
  | cons g l ih =>
    cases g with
    | fermion d i => have := hl _ (List.mem_cons_self ..); simp [Gen.algebraId] at this
    | spin n c i => have := hl _ (List.mem_cons_self ..); simp [Gen.algebraId] at this
    | boson d i =>
      have ih' := fun a b c => ih a b c (fun x hx => hl x (by simp [hx])) (fun x hx => h x (by simp [hx]))
      have hh : hs.has (Mode.boson i).space = true := h (.boson d i) (by simp)
      obtain ⟨f, nb, dd, hloc⟩ := loc_of_has hc hh
      have e1 := hloc.range
      have e2 := hloc.dimOf
      simp only [Mode.space] at e1 e2 hh
      rw [bosonLoop]
      split
      · rw [hh, e1, e2]
        simp only [Bool.not_true, Bool.false_eq_true, if_false]
        split
        · exact ⟨_, rfl⟩
        · exact ih' _ _ _
      · exact ih' _ _ _

theorem spinLoop_ok (hc : Constructed hs) (l : List (Gen ι)) (power size : Nat) (us : List SpinUpdate)
    (hl : ∀ g ∈ l, g.algebraId = -1) (h : ∀ g ∈ l, hs.has g.mode.space = true) : ∃ a, spinLoop hs l power size us = .ok a := by
  induction l generalizing power size us with
  | nil => exact ⟨_, rfl⟩
  | cons g l ih =>
    cases g with
    | fermion d i => have := hl _ (List.mem_cons_self ..); simp [Gen.algebraId] at this
    | boson d i => have := hl _ (List.mem_cons_self ..); simp [Gen.algebraId] at this
    | spin n c i =>
      have ih' := fun a b c => ih a b c (fun x hx => hl x (by simp [hx])) (fun x hx => h x (by simp [hx]))
      have hh : hs.has (Mode.spin n i).space = true := h (.spin n c i) (by simp)
      obtain ⟨f, nb, dd, hloc⟩ := loc_of_has hc hh
      have e1 := hloc.range
      simp only [Mode.space] at e1 hh
      rw [spinLoop]
      split
      · rw [hh, e1]
        simp only [Bool.not_true, Bool.false_eq_true, if_false]
        exact ih' _ _ _
      · exact ih' _ _ _

/-- The constructor succeeds if the elementary spaces of all generators are in the Hilbert space. -/
theorem monomialAction_make_ok (hc : Constructed hs) (hpre : PredefinedSpaces hs) {m : List (Gen ι)} (hm : CanonicalMonomial m)
    (h : ∀ g ∈ m, hs.has g.mode.space = true) : ∃ a, MonomialAction.make m hs = .ok a := by
  obtain ⟨f, b, sp, rfl, hf, hb, hsp⟩ := hm
  have hfa := canonicalFermions_algebra hf
  unfold MonomialAction.make
  rw [List.append_assoc, findSubrange_append (-3) f (b ++ sp) hfa (by
    intro g hg
    rcases List.mem_append.1 hg with h | h
    · rw [hb g h]; decide
    · rw [hsp g h]; decide)]
  obtain ⟨fa, hfm⟩ := fermionAction_make_ok hc hpre hf (fun g hg => h g (by simp [hg]))
  obtain ⟨ba, hbm⟩ := bosonLoop_ok hc b 1 0 [] hb (fun g hg => h g (by simp [hg]))
  obtain ⟨sa, hsm⟩ := spinLoop_ok hc sp 1 0 [] hsp (fun g hg => h g (by simp [hg]))
  refine ⟨⟨fa, ba, sa⟩, ?_⟩
  simp only [hfm]
  rw [findSubrange_append (-2) b sp hb (by intro g hg; rw [hsp g hg]; decide)]
  simp only [BosonAction.make, SpinAction.make, hbm, hsm]

/-! ### Stored monomials are canonical -/

theorem sorted_split (m : List (Gen ι)) (h : m.Pairwise fun a b => Gen.gtOp a b = false) :
    ∃ f b s, m = f ++ b ++ s ∧ (∀ g ∈ f, g.algebraId = -3) ∧ (∀ g ∈ b, g.algebraId = -2) ∧ (∀ g ∈ s, g.algebraId = -1) := by
  induction m with
  | nil => exact ⟨[], [], [], by simp, by simp, by simp, by simp⟩
  | cons x m ih =>
    rw [List.pairwise_cons] at h
    obtain ⟨f, b, s, rfl, hf, hb, hs⟩ := ih h.2
    have hle : ∀ g ∈ f ++ b ++ s, x.algebraId ≤ g.algebraId := by
      intro g hg
      have := h.1 g hg
      unfold Gen.gtOp at this
      split at this
      · next hne =>
        simp at this; omega
      · next hne => simp at hne; omega
    cases x with
    | fermion d i => exact ⟨.fermion d i :: f, b, s, by simp, by simpa [Gen.algebraId] using hf, hb, hs⟩
    | boson d i =>
      have : f = [] := by
        cases f with
        | nil => rfl
        | cons g f => have h1 := hf g (by simp); have h2 := hle g (by simp); rw [h1] at h2; simp [Gen.algebraId] at h2
      subst this
      exact ⟨[], .boson d i :: b, s, by simp, by simp, by simpa [Gen.algebraId] using hb, hs⟩
    | spin n c i =>
      have : f = [] := by
        cases f with
        | nil => rfl
        | cons g f => have h1 := hf g (by simp); have h2 := hle g (by simp); rw [h1] at h2; simp [Gen.algebraId] at h2
      subst this
      have : b = [] := by
        cases b with
        | nil => rfl
        | cons g b => have h1 := hb g (by simp); have h2 := hle g (by simp); rw [h1] at h2; simp [Gen.algebraId] at h2
      subst this
      exact ⟨[], [], .spin n c i :: s, by simp, by simp, by simp, by simpa [Gen.algebraId] using hs⟩

theorem fermions_split (m : List (Gen ι)) (ha : ∀ g ∈ m, g.algebraId = -3) (h : m.Pairwise fun a b => Gen.gtOp a b = false)
    (hn : m.Nodup) : CanonicalFermions m := by
  induction m with
  | nil => exact ⟨[], [], by simp, by simp, by simp⟩
  | cons x m ih =>
    rw [List.pairwise_cons] at h
    rw [List.nodup_cons] at hn
    obtain ⟨p, q, rfl, hp, hq⟩ := ih (fun g hg => ha g (by simp [hg])) h.2 hn.2
    cases x with
    | boson d i => have := ha _ (List.mem_cons_self ..); simp [Gen.algebraId] at this
    | spin n c i => have := ha _ (List.mem_cons_self ..); simp [Gen.algebraId] at this
    | fermion d i =>
      cases d with
      | true =>
        refine ⟨i :: p, q, by simp, ?_, hq⟩
        rw [List.pairwise_cons]
        refine ⟨fun j hj => ?_, hp⟩
        have h1 := h.1 (.fermion true j) (by simp [hj])
        simp [Gen.gtOp, Gen.greater, Gen.algebraId] at h1
        exact lt_of_le_of_ne h1 fun e => hn.1 (by subst e; simp [hj])
      | false =>
        have hpn : p = [] := by
          cases p with
          | nil => rfl
          | cons j p =>
            have h1 := h.1 (.fermion true j) (by simp)
            simp [Gen.gtOp, Gen.greater, Gen.algebraId] at h1
        subst hpn
        refine ⟨[], i :: q, by simp, by simp, ?_⟩
        rw [List.pairwise_cons]
        refine ⟨fun j hj => ?_, hq⟩
        have h1 := h.1 (.fermion false j) (by simp [hj])
        simp [Gen.gtOp, Gen.greater, Gen.algebraId] at h1
        exact lt_of_le_of_ne h1 fun e => hn.1 (by subst e; simp [hj])

theorem canonicalMonomial_of_chain {m : List (Gen ι)} (h : m.IsChain OKPair) : CanonicalMonomial m := by
  have hp : m.Pairwise fun a b => Gen.gtOp a b = false := pairwise_of_chain h
  obtain ⟨f, b, s, rfl, hf, hb, hs⟩ := sorted_split m hp
  refine ⟨f, b, s, rfl, ?_, hb, hs⟩
  have hfc : f.IsChain OKPair := (List.isChain_append.1 (List.append_assoc .. ▸ h)).1
  have hfp : f.Pairwise fun a b => Gen.gtOp a b = false := pairwise_of_chain hfc
  apply fermions_split f hf hfp
  clear hp hs hb
  induction f with
  | nil => simp
  | cons x f ih =>
    rw [List.pairwise_cons] at hfp
    rw [List.nodup_cons]
    have hf' := fun g hg => hf g (List.mem_cons_of_mem x hg)
    refine ⟨fun hx => ?_, ih ?_ hf' hfc.tail hfp.2⟩
    · cases f with
      | nil => simp at hx
      | cons y f =>
        have hxy := (List.isChain_cons_cons.1 hfc).1
        have hyx : GenOps.gt y x = false := by
          rcases List.mem_cons.1 hx with rfl | hx
          · exact ngt_refl _
          · exact (List.pairwise_cons.1 hfp.2).1 x hx
        have e : x = y := ngt_antisymm hxy.1 hyx
        subst e
        have h1 := hxy.2
        cases x with
        | boson d i => have := hf _ (List.mem_cons_self ..); simp [Gen.algebraId] at this
        | spin n c i => have := hf _ (List.mem_cons_self ..); simp [Gen.algebraId] at this
        | fermion d i => simp [GenOps.simplifyProd, Gen.simplifyProd, Gen.eqOp, Gen.equal] at h1
    · rw [List.cons_append] at h; exact h.tail

end LC
