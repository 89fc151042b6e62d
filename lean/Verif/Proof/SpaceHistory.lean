import Verif.Spec.SpaceHistory
import Verif.Proof.HSBuild
/-
Proofs about histories of Hilbert space variables.
-/
set_option linter.unusedSectionVars false
set_option linter.unusedSimpArgs false
namespace LC
open HilbertSpace
variable {ι : Type _} [LinearOrder ι]

theorem buildable_iff (l : List (ESpace ι)) : Buildable l ↔ Acceptable l := by
  unfold Buildable Acceptable
  refine and_congr ?_ Iff.rfl
  rw [List.Nodup, List.pairwise_map]
  have h : ∀ a b : ESpace ι, (a.eqOp b = false) ↔ a.key ≠ b.key := fun a b => by
    rw [Ne, ← ESpace.eqOp_iff]; simp
  simp only [h]

/-- `add()` ignores the old algebra ranges. -/
theorem add_withAlg (hs : HilbertSpace ι) (alg : List (Int × BitRange)) (es : ESpace ι) :
    ({ hs with algRanges := alg } : HilbertSpace ι).add es =
      if (emplaceSpace es hs.spaces).isNone then ({ hs with algRanges := alg }, some .exists_) else hs.add es := by
  unfold HilbertSpace.add
  cases he : emplaceSpace es hs.spaces with
  | none => simp [he]
  | some sp => simp only [he, recompute_eq, Option.isNone_some, Bool.false_eq_true, if_false]

/-- What the memory holds for a value the user expects. -/
def Holds (x : Option (HilbertSpace ι)) : SpaceValue ι → Prop
  | .dead => x = none
  | .unspecified => x.isSome
  | .product l alg => ∃ m a, m.Perm l ∧ Fits m ∧ x = some { canon m with algRanges := a } ∧
      (alg = true → a = (canon m).algRanges)

theorem holds_build (l : List (ESpace ι)) (r : Except HSError (HilbertSpace ι))
    (h : (Acceptable l → ∃ m, m.Perm l ∧ Fits m ∧ r = .ok (canon m)) ∧ (¬ Acceptable l → ∃ e, r = .error e)) :
    Holds (okOrDead r) (.build l) := by
  unfold SpaceValue.build
  by_cases hb : Buildable l
  · rw [if_pos hb]
    obtain ⟨m, h1, h2, h3⟩ := h.1 ((buildable_iff l).1 hb)
    exact ⟨m, _, h1, h2, by rw [h3]; rfl, fun _ => rfl⟩
  · rw [if_neg hb]
    obtain ⟨e, he⟩ := h.2 fun hc => hb ((buildable_iff l).2 hc)
    show okOrDead r = none
    rw [he]; rfl

theorem dead_iff {x : Option (HilbertSpace ι)} {y : SpaceValue ι} (h : Holds x y) : y = .dead ↔ x = none := by
  cases y with
  | dead => simpa [Holds] using h
  | unspecified => simp only [Holds] at h; cases x <;> simp_all
  | product l alg =>
    obtain ⟨m, a, _, _, h3, _⟩ := h
    simp [h3]

/-- The outcome and the effect of `add()` on an object holding a product. -/
theorem holds_add {x : Option (HilbertSpace ι)} {y : SpaceValue ι} (h : Holds x y) (es : ESpace ι) (hes : es.Wf) :
    Holds (x.map fun hs => (hs.add es).1) (y.add es) := by
  cases y with
  | dead => simp only [Holds] at h; subst h; rfl
  | unspecified => simp only [Holds, SpaceValue.add] at h ⊢; cases x <;> simp_all
  | product l alg =>
    obtain ⟨m, a, h1, h2, h3, h4⟩ := h
    subst h3
    have hmem : ∀ (p : ESpace ι → Prop), (∃ k ∈ l, p k) ↔ ∃ k ∈ m, p k := fun p => by
      constructor
      · rintro ⟨k, hk, hp⟩; exact ⟨k, h1.symm.subset hk, hp⟩
      · rintro ⟨k, hk, hp⟩; exact ⟨k, h1.subset hk, hp⟩
    have hsort : SortedES ((canon m).spaces.map (·.1)) := by rw [canon_spaces, layout_fst]; exact h2.sorted
    have hiff := emplaceSpace_isSome_iff (es := es) hsort
    rw [canon_spaces, layout_fst] at hiff
    have hbits : (l.map ESpace.nBits).sum = bitSum m := (bitSum_perm h1).symm
    rcases add_canon h2 es hes with ⟨⟨k, hk, hke⟩, hadd⟩ | ⟨hne, l', hp, hs, hadd⟩
    · have hc : ∃ k ∈ l, k.eqOp es = true := (hmem _).2 ⟨k, hk, (ESpace.eqOp_iff k es).2 hke⟩
      have hn : (emplaceSpace es (canon m).spaces).isNone = true := by
        rw [canon_spaces]
        by_contra hc'
        have : (emplaceSpace es (layout 0 m)).isSome = true := by
          cases hx : emplaceSpace es (layout 0 m) <;> simp_all
        exact (hiff.1 this) k hk hke
      simp only [SpaceValue.add, if_pos hc, Option.map_some, add_withAlg, if_pos hn]
      exact ⟨m, a, h1, h2, rfl, h4⟩
    · have hc : ¬ ∃ k ∈ l, k.eqOp es = true := by
        rw [hmem]; rintro ⟨k, hk, hke⟩; exact hne k hk ((ESpace.eqOp_iff k es).1 hke)
      have hn : ¬ (emplaceSpace es (canon m).spaces).isNone = true := by
        rw [canon_spaces]
        have := hiff.2 hne
        cases hx : emplaceSpace es (layout 0 m) <;> simp_all
      simp only [SpaceValue.add, if_neg hc, Option.map_some, add_withAlg, if_neg hn, hbits]
      rw [bitSum_cons] at hadd
      by_cases hb : es.nBits + bitSum m ≤ 63
      · rw [if_neg (by omega)] at hadd
        rw [if_pos hb, hadd]
        refine ⟨l', _, hp.trans (h1.cons es), ⟨hs, ?_, by rw [bitSum_perm hp, bitSum_cons]; exact hb⟩, rfl, fun _ => rfl⟩
        intro e he
        rcases List.mem_cons.1 (hp.subset he) with rfl | he
        · exact hes
        · exact h2.wf e he
      · rw [if_neg hb]
        rfl

theorem holds_copy {x : HilbertSpace ι} {y : SpaceValue ι} (h : Holds (some x) y) (z : HilbertSpace ι) (alg)
    (hz : z = { x with algRanges := alg }) : Holds (some z) y.copied := by
  cases y with
  | dead => simp [Holds] at h
  | unspecified => rfl
  | product l b =>
    obtain ⟨m, a, h1, h2, h3, h4⟩ := h
    refine ⟨m, alg, h1, h2, ?_, by simp⟩
    rw [hz, Option.some.inj h3]

theorem SpaceMem.put_same (m : SpaceMem ι) (v : Nat) (x : Option (HilbertSpace ι)) : m.put v x v = x := by
  simp [SpaceMem.put]
theorem SpaceMem.put_other (m : SpaceMem ι) {v u : Nat} (x : Option (HilbertSpace ι)) (h : u ≠ v) : m.put v x u = m u := by
  simp [SpaceMem.put, h]

/-- Copy assignment between different objects. -/
theorem copyAssignOp_ne (m : SpaceMem ι) {v w : Nat} (h : v ≠ w) {a b : HilbertSpace ι} (ha : m v = some a) (hb : m w = some b) :
    m.copyAssignOp v w = m.put v (some (a.copyAssign b)) := by
  unfold SpaceMem.copyAssignOp SpaceMem.assignEnd SpaceMem.clearSpaces SpaceMem.copySpaces SpaceMem.assignDim
    SpaceMem.assignForeach SpaceMem.modify
  simp only [hb, ha, Option.map_some, SpaceMem.put_same, SpaceMem.put_other _ _ h.symm]
  funext u
  by_cases hu : u = v
  · subst hu; simp [SpaceMem.put, HilbertSpace.copyAssign]
  · simp [SpaceMem.put, hu]

/-- Self-assignment. -/
theorem copyAssignOp_self (m : SpaceMem ι) {v : Nat} {a : HilbertSpace ι} (ha : m v = some a) :
    m.copyAssignOp v v = m.put v (some { a with spaces := [] }) := by
  unfold SpaceMem.copyAssignOp SpaceMem.assignEnd SpaceMem.clearSpaces SpaceMem.copySpaces SpaceMem.assignDim
    SpaceMem.assignForeach SpaceMem.modify
  simp only [ha, Option.map_some, SpaceMem.put_same]
  funext u
  by_cases hu : u = v
  · subst hu; simp [SpaceMem.put]
  · simp [SpaceMem.put, hu]

theorem holds_update {m : SpaceMem ι} {t : Nat → SpaceValue ι} (h : ∀ u, Holds (m u) (t u)) (v : Nat)
    {x : Option (HilbertSpace ι)} {y : SpaceValue ι} (hx : Holds x y) : ∀ u, Holds (m.put v x u) (Function.update t v y u) := by
  intro u
  by_cases hu : u = v
  · subst hu; simpa [SpaceMem.put] using hx
  · simpa [SpaceMem.put, hu] using h u

theorem holds_moveTo {m : SpaceMem ι} {t : Nat → SpaceValue ι} (h : ∀ u, Holds (m u) (t u)) (v w : Nat) (hw : t w ≠ .dead) :
    ∀ u, Holds (m.moveTo v w u)
      ((if v = w then Function.update t v .unspecified else Function.update (Function.update t w .unspecified) v (t w)) u) := by
  have hlw : ∃ b, m w = some b := by
    cases hmw : m w with
    | none => exact (hw ((dead_iff (h w)).2 hmw)).elim
    | some b => exact ⟨b, rfl⟩
  obtain ⟨b, hb⟩ := hlw
  unfold SpaceMem.moveTo
  rw [hb]
  simp only
  by_cases hvw : v = w
  · rw [if_pos hvw, if_pos hvw]
    intro u
    by_cases hu : u = v
    · subst hu; subst hvw; simp [Holds, hb]
    · simpa [hu] using h u
  · rw [if_neg hvw, if_neg hvw]
    have h1 : ∀ u, Holds (m.put w (some (SpaceMem.movedFrom b)) u) (Function.update t w .unspecified u) :=
      holds_update h w (by rfl)
    exact holds_update h1 v (by rw [← hb]; exact h w)

theorem holds_step {m : SpaceMem ι} {t : Nat → SpaceValue ι} (h : ∀ u, Holds (m u) (t u)) (op : SpaceOp ι) (hop : op.Wf) :
    ∀ u, Holds (op.run m u) (op.expect t u) := by
  have live : ∀ v, t v ≠ .dead → ∃ b, m v = some b := fun v hv => by
    cases hmw : m v with
    | none => exact (hv ((dead_iff (h v)).2 hmw)).elim
    | some b => exact ⟨b, rfl⟩
  have dead : ∀ v, t v = .dead → m v = none := fun v hv => (dead_iff (h v)).1 hv
  cases op with
  | default v =>
    refine holds_update h v ⟨[], [], List.Perm.refl _, fits_nil, ?_, ?_⟩
    · rw [canon_nil]; rfl
    · intro _; rw [canon_nil]; rfl
  | construct v l => exact holds_update h v (holds_build l _ (ofArgs_spec l hop))
  | constructPtrs v l => exact holds_update h v (holds_build l _ (ofPtrs_spec l hop))
  | add v es => exact holds_update h v (holds_add (h v) es hop)
  | copy v w =>
    simp only [SpaceOp.run, SpaceOp.expect]
    by_cases hw : t w = .dead
    · rw [if_pos hw, dead w hw]; exact h
    · obtain ⟨b, hb⟩ := live w hw
      rw [if_neg hw, hb]
      by_cases hvw : v = w
      · rw [if_pos hvw]; exact holds_update h v (by rfl)
      · rw [if_neg hvw]
        exact holds_update h v (holds_copy (by rw [← hb]; exact h w) _ [] rfl)
  | assign v w =>
    simp only [SpaceOp.run, SpaceOp.expect]
    by_cases hv : t v = .dead
    · rw [if_pos (Or.inl hv), dead v hv]; exact h
    · obtain ⟨a, ha⟩ := live v hv
      by_cases hw : t w = .dead
      · rw [if_pos (Or.inr hw)]
        rw [dead w hw]; simp only [Option.isSome_none, Bool.and_false, Bool.false_eq_true, if_false]; exact h
      · obtain ⟨b, hb⟩ := live w hw
        rw [if_neg (not_or.2 ⟨hv, hw⟩), if_pos (by rw [ha, hb]; rfl)]
        by_cases hvw : v = w
        · rw [if_pos hvw]; subst hvw; rw [copyAssignOp_self m ha]; exact holds_update h v (by rfl)
        · rw [if_neg hvw, copyAssignOp_ne m hvw ha hb]
          exact holds_update h v (holds_copy (by rw [← hb]; exact h w) _ a.algRanges rfl)
  | move v w =>
    simp only [SpaceOp.run, SpaceOp.expect]
    by_cases hw : t w = .dead
    · rw [if_pos hw]
      have : m.moveTo v w = m := by unfold SpaceMem.moveTo; rw [dead w hw]
      rw [this]; exact h
    · rw [if_neg hw]; exact holds_moveTo h v w hw
  | moveAssign v w =>
    simp only [SpaceOp.run, SpaceOp.expect]
    by_cases hv : t v = .dead
    · rw [if_pos (Or.inl hv), dead v hv]; exact h
    · obtain ⟨a, ha⟩ := live v hv
      rw [ha]; simp only [Option.isSome_some, if_true]
      by_cases hw : t w = .dead
      · rw [if_pos (Or.inr hw)]
        have : m.moveTo v w = m := by unfold SpaceMem.moveTo; rw [dead w hw]
        rw [this]; exact h
      · rw [if_neg (by simp [hv, hw])]; exact holds_moveTo h v w hw
  | destroy v => exact holds_update h v (by rfl)

theorem holds_foldl (ops : List (SpaceOp ι)) (hops : ∀ op ∈ ops, op.Wf) {m : SpaceMem ι} {t : Nat → SpaceValue ι}
    (h : ∀ u, Holds (m u) (t u)) : ∀ u, Holds (ops.foldl SpaceOp.run m u) (ops.foldl SpaceOp.expect t u) := by
  induction ops generalizing m t with
  | nil => exact h
  | cons op ops ih => exact ih (fun o ho => hops o (by simp [ho])) (holds_step h op (hops op (by simp)))

theorem holds_all (ops : List (SpaceOp ι)) (hops : ∀ op ∈ ops, op.Wf) (u : Nat) :
    Holds (SpaceOp.runAll ops u) (SpaceOp.expectAll ops u) :=
  holds_foldl ops hops (m := fun _ => none) (t := fun _ => .dead) (fun _ => rfl) u

theorem sameAnswers_canon (m : List (ESpace ι)) (a : List (Int × BitRange)) (alg : Bool)
    (h : alg = true → a = (canon m).algRanges) : SameAnswers { canon m with algRanges := a } (canon m) alg where
  dim := rfl
  vecSize := rfl
  totalNBits := rfl
  isSparse := rfl
  foreach := rfl
  elementarySpaces := rfl
  size := rfl
  has _ := rfl
  index _ := rfl
  dimOf _ := rfl
  bitRange _ := rfl
  basisStateIndex _ _ := rfl
  eqLeft _ := rfl
  eqRight _ := rfl
  hasAlgebra hb i := by rw [h hb]
  algebraBitRange hb i := by rw [h hb]

end LC
