import Mathlib.Algebra.Order.BigOperators.Group.List
import Mathlib.Tactic.Ring
import Verif.Proof.HSOrder
import Verif.Proof.Ranking
/-
Every Hilbert space a program can build is determined by its sorted list of elementary spaces.
-/
set_option linter.unusedSectionVars false
set_option linter.unusedSimpArgs false
namespace LC
variable {ι : Type _} [LinearOrder ι]
namespace HilbertSpace

/-- Total number of bits. -/
def bitSum (l : List (ESpace ι)) : Nat := (l.map ESpace.nBits).sum
/-- Total dimension. -/
def dimProd (l : List (ESpace ι)) : Nat := (l.map ESpace.dim).prod

@[simp] theorem bitSum_nil : bitSum ([] : List (ESpace ι)) = 0 := rfl
@[simp] theorem bitSum_cons (es : ESpace ι) (l : List (ESpace ι)) : bitSum (es :: l) = es.nBits + bitSum l := by
  simp [bitSum]
@[simp] theorem bitSum_append (l m : List (ESpace ι)) : bitSum (l ++ m) = bitSum l + bitSum m := by
  simp [bitSum]
@[simp] theorem dimProd_nil : dimProd ([] : List (ESpace ι)) = 1 := rfl
@[simp] theorem dimProd_cons (es : ESpace ι) (l : List (ESpace ι)) : dimProd (es :: l) = es.dim * dimProd l := by
  simp [dimProd]
theorem bitSum_perm {l m : List (ESpace ι)} (h : l.Perm m) : bitSum l = bitSum m := (h.map _).sum_eq
theorem dimProd_perm {l m : List (ESpace ι)} (h : l.Perm m) : dimProd l = dimProd m := (h.map _).prod_eq

/-- The elementary spaces with their bit ranges, from bit `b` on. -/
def layout : Nat → List (ESpace ι) → List (ESpace ι × BitRange)
  | _, [] => []
  | b, es :: l => (es, ⟨b, (b : Int) + es.nBits - 1⟩) :: layout (b + es.nBits) l

theorem layout_fst (b : Nat) (l : List (ESpace ι)) : (layout b l).map (·.1) = l := by
  induction l generalizing b with
  | nil => rfl
  | cons es l ih => simp [layout, ih]

theorem mem_layout {b : Nat} {l : List (ESpace ι)} {p : ESpace ι × BitRange} :
    p ∈ layout b l ↔ ∃ pre post, l = pre ++ p.1 :: post ∧
      p.2 = ⟨(b + bitSum pre : Nat), ((b + bitSum pre : Nat) : Int) + p.1.nBits - 1⟩ := by
  induction l generalizing b with
  | nil => simp [layout]
  | cons es l ih =>
    rw [layout, List.mem_cons, ih]
    constructor
    · rintro (rfl | ⟨pre, post, rfl, h⟩)
      · exact ⟨[], l, by simp, by simp⟩
      · exact ⟨es :: pre, post, by simp, by rw [h]; simp [Nat.add_assoc]⟩
    · rintro ⟨pre, post, h1, h2⟩
      cases pre with
      | nil =>
        left
        simp at h1 h2
        obtain ⟨rfl, rfl⟩ := h1
        ext1
        · rfl
        · simp [h2]
      | cons q pre =>
        right
        simp at h1
        obtain ⟨rfl, rfl⟩ := h1
        exact ⟨pre, post, rfl, by rw [h2]; simp [Nat.add_assoc]⟩

/-- Algebra ranges of a layout. -/
def algOf (sp : List (ESpace ι × BitRange)) (alg : List (Int × BitRange)) : List (Int × BitRange) :=
  sp.foldl (fun alg p => updateAlg p.1.algebraId p.2 alg) alg

theorem recomputeLoop_eq (sp : List (ESpace ι × BitRange)) (alg : List (Int × BitRange)) (b : Nat) :
    recomputeLoop sp alg ((b : Int) - 1) = (layout b (sp.map (·.1)), algOf (layout b (sp.map (·.1))) alg,
      ((b + bitSum (sp.map (·.1)) : Nat) : Int) - 1) := by
  induction sp generalizing alg b with
  | nil => simp [recomputeLoop, layout, algOf]
  | cons p t ih =>
    obtain ⟨es, r⟩ := p
    rw [recomputeLoop]
    have e : (b : Int) - 1 + es.nBits = ((b + es.nBits : Nat) : Int) - 1 := by push_cast; ring
    rw [e, ih]
    simp only [List.map_cons, layout, bitSum_cons, algOf, List.foldl_cons]
    have e1 : (b : Int) - 1 + 1 = b := by ring
    have e2 : ((b + es.nBits : Nat) : Int) - 1 = (b : Int) + es.nBits - 1 := by push_cast; ring
    rw [e1, e2, Nat.add_assoc]

/-- The Hilbert space belonging to a sorted list of elementary spaces. -/
def canon (l : List (ESpace ι)) : HilbertSpace ι :=
  initForeach { spaces := layout 0 l, algRanges := algOf (layout 0 l) [], bitRangeEnd := (bitSum l : Int) - 1,
                dim := dimProd l, foreachAlg := none }

theorem canon_spaces (l : List (ESpace ι)) : (canon l).spaces = layout 0 l := rfl
theorem canon_dim (l : List (ESpace ι)) : (canon l).dim = dimProd l := rfl
theorem canon_total (l : List (ESpace ι)) : (canon l).totalNBits = bitSum l := by
  show (bitSum l : Int) - 1 + 1 = bitSum l
  ring
theorem canon_nil : canon ([] : List (ESpace ι)) = empty := by
  simp [canon, initForeach, layout, algOf, empty, mergeSizes]

/-- A list of elementary spaces that fits. -/
structure Fits (l : List (ESpace ι)) : Prop where
  sorted : SortedES l
  wf : ∀ es ∈ l, es.Wf
  bits : bitSum l ≤ 63

theorem dimProd_le (l : List (ESpace ι)) (h : ∀ es ∈ l, es.Wf) : dimProd l ≤ 2 ^ bitSum l := by
  induction l with
  | nil => simp
  | cons es l ih =>
    rw [dimProd_cons, bitSum_cons, pow_add]
    exact Nat.mul_le_mul (h es (by simp)).dim_le (ih fun e he => h e (by simp [he]))

theorem dimProd_pos (l : List (ESpace ι)) (h : ∀ es ∈ l, es.Wf) : 0 < dimProd l := by
  induction l with
  | nil => simp
  | cons es l ih =>
    rw [dimProd_cons]
    exact Nat.mul_pos (h es (by simp)).dim_pos (ih fun e he => h e (by simp [he]))

theorem dimProd_lt (l : List (ESpace ι)) (h : ∀ es ∈ l, es.Wf) (hb : bitSum l ≤ 63) : dimProd l < W64 :=
  lt_of_le_of_lt (dimProd_le l h) (Nat.pow_lt_pow_right (by decide) (by omega))

theorem mul64_dim {d e : Nat} (h : d * e < W64) : mul64 d e = d * e := Nat.mod_eq_of_lt h

/-- `recompute` in closed form. -/
theorem recompute_eq (hs : HilbertSpace ι) :
    recompute hs = ({ hs with spaces := layout 0 (hs.spaces.map (·.1)),
                              algRanges := algOf (layout 0 (hs.spaces.map (·.1))) [],
                              bitRangeEnd := (bitSum (hs.spaces.map (·.1)) : Int) - 1 },
      if 63 < bitSum (hs.spaces.map (·.1)) then some (.tooBig (bitSum (hs.spaces.map (·.1)))) else none) := by
  have h := recomputeLoop_eq hs.spaces [] 0
  simp only [Nat.cast_zero, Int.zero_sub, Nat.zero_add] at h
  unfold recompute
  simp only [h]
  congr 1
  by_cases hc : 63 < bitSum (hs.spaces.map (·.1))
  · rw [if_pos (by omega), if_pos hc]; congr 1; congr 1; ring
  · rw [if_neg (by omega), if_neg hc]

theorem initForeach_congr {a b : HilbertSpace ι} (h1 : a.spaces = b.spaces) (h2 : a.algRanges = b.algRanges)
    (h3 : a.bitRangeEnd = b.bitRangeEnd) (h4 : a.dim = b.dim) : initForeach a = initForeach b := by
  unfold initForeach
  rw [h1, h2, h3, h4]

/-- `add()`. -/
theorem add_canon {l : List (ESpace ι)} (h : Fits l) (es : ESpace ι) (hes : es.Wf) :
    (∃ k ∈ l, k.key = es.key) ∧ (canon l).add es = (canon l, some .exists_) ∨
    (∀ k ∈ l, k.key ≠ es.key) ∧ ∃ l', l'.Perm (es :: l) ∧ SortedES l' ∧
      (if 63 < bitSum (es :: l) then (∃ hs', (canon l).add es = (hs', some (.tooBig (bitSum (es :: l)))))
        else (canon l).add es = (canon l', none)) := by
  have hsort : SortedES ((canon l).spaces.map (·.1)) := by rw [canon_spaces, layout_fst]; exact h.sorted
  cases he : emplaceSpace es (canon l).spaces with
  | none =>
    left
    have := emplaceSpace_none he
    rw [canon_spaces, layout_fst] at this
    refine ⟨this, ?_⟩
    unfold add; rw [he]
  | some sp =>
    right
    obtain ⟨h1, h2, h3⟩ := emplaceSpace_some hsort he
    rw [canon_spaces, layout_fst] at h2 h3
    refine ⟨h3, sp.map (·.1), h2, h1, ?_⟩
    have hb := bitSum_perm h2
    unfold add
    rw [he]
    simp only [recompute_eq, hb]
    split
    · next hc => simp only; exact ⟨_, rfl⟩
    · next hc =>
      simp only
      unfold canon
      refine Prod.ext ?_ rfl
      simp only
      apply initForeach_congr
      · rfl
      · rfl
      · simp only [hb]
      · show mul64 (dimProd l) es.dim = _
        rw [dimProd_perm h2, dimProd_cons, Nat.mul_comm es.dim]
        apply mul64_dim
        have hlt := dimProd_lt (es :: l) (by
          intro e hm; rcases List.mem_cons.1 hm with rfl | hm
          · exact hes
          · exact h.wf e hm) (by omega)
        rwa [dimProd_cons, Nat.mul_comm] at hlt

/-- Outcome of the constructors: a list of spaces is accepted iff the keys are distinct and at most 63 bits are needed. -/
def Acceptable (l : List (ESpace ι)) : Prop := (l.map ESpace.key).Nodup ∧ bitSum l ≤ 63

theorem acceptable_perm {l m : List (ESpace ι)} (h : l.Perm m) : Acceptable l ↔ Acceptable m := by
  unfold Acceptable
  rw [(h.map ESpace.key).nodup_iff, bitSum_perm h]

theorem ofArgsFrom_canon {l : List (ESpace ι)} (h : Fits l) (m : List (ESpace ι)) (hm : ∀ es ∈ m, es.Wf) :
    (Acceptable (m ++ l) → ∃ l', l'.Perm (m ++ l) ∧ Fits l' ∧ ofArgsFrom (canon l) m = .ok (canon l')) ∧
    (¬ Acceptable (m ++ l) → ∃ e, ofArgsFrom (canon l) m = .error e) := by
  induction m generalizing l with
  | nil =>
    refine ⟨fun _ => ⟨l, List.Perm.refl _, h, rfl⟩, fun hc => (hc ⟨?_, h.bits⟩).elim⟩
    exact h.sorted.nodup
  | cons es m ih =>
    have hes := hm es (by simp)
    have hm' : ∀ e ∈ m, e.Wf := fun e he => hm e (by simp [he])
    rw [ofArgsFrom]
    rcases add_canon h es hes with ⟨⟨k, hk, hke⟩, hadd⟩ | ⟨hne, l', hp, hs, hadd⟩
    · rw [hadd]
      refine ⟨fun ha => ?_, fun _ => ⟨_, rfl⟩⟩
      exfalso
      have := ha.1
      simp only [List.cons_append, List.map_cons, List.nodup_cons, List.map_append, List.mem_append] at this
      exact this.1 (Or.inr (List.mem_map.2 ⟨k, hk, hke⟩))
    · split at hadd
      · next hc =>
        obtain ⟨hs', hadd⟩ := hadd
        rw [hadd]
        refine ⟨fun ha => ?_, fun _ => ⟨_, rfl⟩⟩
        have := ha.2
        simp only [List.cons_append, bitSum_cons, bitSum_append] at this hc
        omega
      · next hc =>
        rw [hadd]
        have hf : Fits l' := by
          refine ⟨hs, ?_, by rw [bitSum_perm hp]; omega⟩
          intro e he
          rcases List.mem_cons.1 (hp.subset he) with rfl | he
          · exact hes
          · exact h.wf e he
        have hpp : (m ++ l').Perm (es :: m ++ l) := by
          refine (hp.append_left m).trans ?_
          simp only [List.cons_append]
          exact List.perm_middle
        obtain ⟨h1, h2⟩ := ih hf hm'
        rw [acceptable_perm hpp] at h1 h2
        refine ⟨fun ha => ?_, h2⟩
        obtain ⟨l'', hp'', hf'', he''⟩ := h1 ha
        exact ⟨l'', hp''.trans hpp, hf'', he''⟩

theorem fits_nil : Fits ([] : List (ESpace ι)) := ⟨List.Pairwise.nil, by simp, by simp⟩

/-- The constructor from individual spaces. -/
theorem ofArgs_spec (m : List (ESpace ι)) (hm : ∀ es ∈ m, es.Wf) :
    (Acceptable m → ∃ l, l.Perm m ∧ Fits l ∧ ofArgs m = .ok (canon l)) ∧
    (¬ Acceptable m → ∃ e, ofArgs m = .error e) := by
  have := ofArgsFrom_canon (fits_nil (ι := ι)) m hm
  rw [canon_nil, List.append_nil] at this
  exact this

theorem foldl_mul64 (l : List Nat) (d : Nat) : l.foldl mul64 d % W64 = (d * l.prod) % W64 := by
  induction l generalizing d with
  | nil => simp
  | cons x l ih =>
    rw [List.foldl_cons, ih, List.prod_cons, mul64, Nat.mod_mul_mod, Nat.mul_assoc]

theorem ofPtrsLoop_spec (m : List (ESpace ι)) (hs : HilbertSpace ι) (hsort : SortedES (hs.spaces.map (·.1))) :
    (((m ++ hs.spaces.map (·.1)).map ESpace.key).Nodup → ∃ hs', ofPtrsLoop hs m = .ok hs' ∧
      SortedES (hs'.spaces.map (·.1)) ∧ (hs'.spaces.map (·.1)).Perm (m ++ hs.spaces.map (·.1)) ∧
      hs'.dim = (m.map ESpace.dim).foldl mul64 hs.dim) ∧
    (¬ ((m ++ hs.spaces.map (·.1)).map ESpace.key).Nodup → ∃ e, ofPtrsLoop hs m = .error e) := by
  induction m generalizing hs with
  | nil =>
    refine ⟨fun _ => ⟨hs, rfl, hsort, List.Perm.refl _, rfl⟩, fun hc => (hc hsort.nodup).elim⟩
  | cons es m ih =>
    rw [ofPtrsLoop]
    cases he : emplaceSpace es hs.spaces with
    | none =>
      refine ⟨fun ha => ?_, fun _ => ⟨_, rfl⟩⟩
      exfalso
      obtain ⟨k, hk, hke⟩ := emplaceSpace_none he
      simp only [List.cons_append, List.map_cons, List.nodup_cons, List.map_append, List.mem_append] at ha
      exact ha.1 (Or.inr (List.mem_map.2 ⟨k, hk, hke⟩))
    | some sp =>
      obtain ⟨h1, h2, h3⟩ := emplaceSpace_some hsort he
      obtain ⟨h4, h5⟩ := ih { hs with spaces := sp, dim := mul64 hs.dim es.dim } h1
      have hpp : (m ++ sp.map (·.1)).Perm (es :: m ++ hs.spaces.map (·.1)) := by
        refine (h2.append_left m).trans ?_
        simp only [List.cons_append]
        exact List.perm_middle
      simp only at h4 h5
      rw [(hpp.map ESpace.key).nodup_iff] at h4 h5
      refine ⟨fun ha => ?_, h5⟩
      obtain ⟨hs', e1, e2, e3, e4⟩ := h4 ha
      exact ⟨hs', e1, e2, e3.trans hpp, by rw [e4]; rfl⟩

theorem foldl_mul64_lt (l : List Nat) (d : Nat) (hd : d < W64) : l.foldl mul64 d < W64 := by
  induction l generalizing d with
  | nil => simpa
  | cons x l ih => exact ih _ (Nat.mod_lt _ (by decide))

theorem foldl_mul64_eq {l : List Nat} (h : l.prod < W64) : l.foldl mul64 1 = l.prod := by
  have h1 := foldl_mul64 l 1
  rw [Nat.one_mul, Nat.mod_eq_of_lt h, Nat.mod_eq_of_lt (foldl_mul64_lt l 1 (by decide))] at h1
  exact h1

/-- The constructor from a vector of pointers. -/
theorem ofPtrs_spec (m : List (ESpace ι)) (hm : ∀ es ∈ m, es.Wf) :
    (Acceptable m → ∃ l, l.Perm m ∧ Fits l ∧ ofPtrs m = .ok (canon l)) ∧
    (¬ Acceptable m → ∃ e, ofPtrs m = .error e) := by
  have h := ofPtrsLoop_spec m empty (by simp [empty, SortedES])
  have e0 : (empty : HilbertSpace ι).spaces.map (·.1) = [] := rfl
  rw [e0, List.append_nil] at h
  unfold ofPtrs
  by_cases hn : (m.map ESpace.key).Nodup
  · obtain ⟨hs', h1, h2, h3, h4⟩ := h.1 hn
    rw [h1]
    simp only [recompute_eq, bitSum_perm h3]
    by_cases hb : 63 < bitSum m
    · rw [if_pos hb]
      refine ⟨fun ha => ?_, fun _ => ⟨_, rfl⟩⟩
      have := ha.2; omega
    · rw [if_neg hb]
      refine ⟨fun ha => ?_, fun hc => (hc ⟨hn, by omega⟩).elim⟩
      refine ⟨hs'.spaces.map (·.1), h3, ⟨h2, fun es he => hm es (h3.subset he), by rw [bitSum_perm h3]; omega⟩, ?_⟩
      simp only
      congr 1
      unfold canon
      apply initForeach_congr
      · rfl
      · rfl
      · simp only [bitSum_perm h3]
      · simp only
        rw [h4, dimProd_perm h3]
        exact foldl_mul64_eq (dimProd_lt m hm (by omega))
  · obtain ⟨e, he⟩ := h.2 hn
    rw [he]
    exact ⟨fun ha => (hn ha.1).elim, fun _ => ⟨e, rfl⟩⟩

/-- The list of spaces collected from an expression. -/
theorem collect_spec (constr : Gen ι → Option (ESpace ι)) (gs : List (Gen ι)) (sp : List (ESpace ι × BitRange))
    (hsort : SortedES (sp.map (·.1))) :
    ((∀ g ∈ gs, (constr g).isSome) → ∃ sp', collect constr gs sp = .ok sp' ∧ SortedES (sp'.map (·.1)) ∧
      (∀ es ∈ sp'.map (·.1), es ∈ sp.map (·.1) ∨ ∃ g ∈ gs, constr g = some es) ∧
      (∀ k, (∃ es ∈ sp'.map (·.1), es.key = k) ↔ (∃ es ∈ sp.map (·.1), es.key = k) ∨
        ∃ g ∈ gs, ∃ es, constr g = some es ∧ es.key = k)) ∧
    ((∃ g ∈ gs, constr g = none) → collect constr gs sp = .error .esConstruction) := by
  induction gs generalizing sp with
  | nil => exact ⟨fun _ => ⟨sp, rfl, hsort, by simp, by simp⟩, by simp⟩
  | cons g gs ih =>
    rw [collect]
    cases hg : constr g with
    | none =>
      refine ⟨fun h => ?_, fun _ => rfl⟩
      have := h g (by simp)
      rw [hg] at this; simp at this
    | some es =>
      simp only
      have key : SortedES (((emplaceSpace es sp).getD sp).map (·.1)) ∧
          (∀ e ∈ ((emplaceSpace es sp).getD sp).map (·.1), e ∈ sp.map (·.1) ∨ e = es) ∧
          (∀ k, (∃ e ∈ ((emplaceSpace es sp).getD sp).map (·.1), e.key = k) ↔ (∃ e ∈ sp.map (·.1), e.key = k) ∨ es.key = k) := by
        cases he : emplaceSpace es sp with
        | none =>
          rw [Option.getD_none]
          refine ⟨hsort, fun e h => Or.inl h, fun k => ⟨Or.inl, ?_⟩⟩
          rintro (h | h)
          · exact h
          · obtain ⟨q, hq, hqe⟩ := emplaceSpace_none he
            exact ⟨q, hq, hqe.trans h⟩
        | some sp' =>
          rw [Option.getD_some]
          obtain ⟨h1, h2, h3⟩ := emplaceSpace_some hsort he
          refine ⟨h1, fun e h => ?_, fun k => ?_⟩
          · rcases List.mem_cons.1 (h2.subset h) with h | h
            · exact Or.inr h
            · exact Or.inl h
          · constructor
            · rintro ⟨e, h, hk⟩
              rcases List.mem_cons.1 (h2.subset h) with rfl | h
              · exact Or.inr hk
              · exact Or.inl ⟨e, h, hk⟩
            · rintro (⟨e, h, hk⟩ | h)
              · exact ⟨e, h2.symm.subset (List.mem_cons_of_mem _ h), hk⟩
              · exact ⟨es, h2.symm.subset List.mem_cons_self, h⟩
      obtain ⟨k1, k2, k3⟩ := key
      obtain ⟨h4, h5⟩ := ih _ k1
      constructor
      · intro h
        obtain ⟨sp', e1, e2, e3, e4⟩ := h4 fun g' hg' => h g' (by simp [hg'])
        refine ⟨sp', e1, e2, fun e he => ?_, fun k => ?_⟩
        · rcases e3 e he with h' | ⟨g', hg', h'⟩
          · rcases k2 e h' with h'' | rfl
            · exact Or.inl h''
            · exact Or.inr ⟨g, by simp, hg⟩
          · exact Or.inr ⟨g', by simp [hg'], h'⟩
        · rw [e4, k3]
          constructor
          · rintro ((h' | h') | ⟨g', hg', h'⟩)
            · exact Or.inl h'
            · exact Or.inr ⟨g, by simp, es, hg, h'⟩
            · exact Or.inr ⟨g', by simp [hg'], h'⟩
          · rintro (h' | ⟨g', hg', es', h', hk⟩)
            · exact Or.inl (Or.inl h')
            · rcases List.mem_cons.1 hg' with rfl | hg'
              · rw [hg] at h'; cases h'; exact Or.inl (Or.inr hk)
              · exact Or.inr ⟨g', hg', es', h', hk⟩
      · rintro ⟨g', hg', h'⟩
        rcases List.mem_cons.1 hg' with rfl | hg'
        · rw [hg] at h'; cases h'
        · exact h5 ⟨g', hg', h'⟩

/-- The constructor from an expression. -/
theorem ofMonomials_spec (constr : Gen ι → Option (ESpace ι)) (ms : List (List (Gen ι)))
    (hc : ∀ g ∈ ms.flatten, ∀ es, constr g = some es → es.Wf) :
    (∀ hs, ofMonomials constr ms = .ok hs → ∃ l, Fits l ∧ hs = canon l ∧
      (∀ es ∈ l, ∃ g ∈ ms.flatten, constr g = some es) ∧
      (∀ g ∈ ms.flatten, ∃ es es', constr g = some es ∧ es' ∈ l ∧ es'.key = es.key)) ∧
    ((∀ g ∈ ms.flatten, (constr g).isSome) → ∃ l, SortedES l ∧
      (∀ es ∈ l, ∃ g ∈ ms.flatten, constr g = some es) ∧
      (∀ g ∈ ms.flatten, ∃ es es', constr g = some es ∧ es' ∈ l ∧ es'.key = es.key) ∧
      (if 63 < bitSum l then ofMonomials constr ms = .error (.tooBig (bitSum l)) else ofMonomials constr ms = .ok (canon l))) ∧
    ((∃ g ∈ ms.flatten, constr g = none) → ofMonomials constr ms = .error .esConstruction) := by
  have h := collect_spec constr ms.flatten [] (by simp [SortedES])
  have hB : (∀ g ∈ ms.flatten, (constr g).isSome) → ∃ l, SortedES l ∧
      (∀ es ∈ l, ∃ g ∈ ms.flatten, constr g = some es) ∧
      (∀ g ∈ ms.flatten, ∃ es es', constr g = some es ∧ es' ∈ l ∧ es'.key = es.key) ∧
      (if 63 < bitSum l then ofMonomials constr ms = .error (.tooBig (bitSum l)) else ofMonomials constr ms = .ok (canon l)) := by
    intro ha
    obtain ⟨sp, h1, h2, h3, h4⟩ := h.1 ha
    have h3' : ∀ es ∈ sp.map (·.1), ∃ g ∈ ms.flatten, constr g = some es := by
      intro es he
      rcases h3 es he with h' | h'
      · simp at h'
      · exact h'
    refine ⟨sp.map (·.1), h2, h3', fun g hg => ?_, ?_⟩
    · obtain ⟨es, hes⟩ := Option.isSome_iff_exists.1 (ha g hg)
      obtain ⟨es', he', hk⟩ := (h4 es.key).2 (Or.inr ⟨g, hg, es, hes, rfl⟩)
      exact ⟨es, es', hes, he', hk⟩
    · unfold ofMonomials
      rw [h1]
      simp only [recompute_eq]
      split
      · rfl
      · next hb =>
        simp only
        congr 1
        unfold canon
        apply initForeach_congr
        · rfl
        · rfl
        · rfl
        · simp only
          have hw : ∀ es ∈ sp.map (·.1), es.Wf := fun es he => by
            obtain ⟨g, hgm, hg⟩ := h3' es he
            exact hc g hgm es hg
          have e1 : (layout 0 (sp.map (·.1))).map (·.1.dim) = (sp.map (·.1)).map ESpace.dim := by
            conv_rhs => rw [← layout_fst 0 (sp.map (·.1))]
            rw [List.map_map]; rfl
          have hlt := dimProd_lt _ hw (by omega)
          rw [e1, foldl_mul64_eq hlt]
          show mul64 1 (dimProd (sp.map (·.1))) = dimProd (sp.map (·.1))
          rw [mul64, Nat.one_mul, Nat.mod_eq_of_lt hlt]
  have hC : (∃ g ∈ ms.flatten, constr g = none) → ofMonomials constr ms = .error .esConstruction := by
    intro hn
    unfold ofMonomials
    rw [h.2 hn]
  refine ⟨?_, hB, hC⟩
  intro hs hok
  by_cases ha : ∀ g ∈ ms.flatten, (constr g).isSome
  · obtain ⟨l, h1, h2, h3, h4⟩ := hB ha
    split at h4
    · rw [h4] at hok; cases hok
    · next hb =>
      rw [h4] at hok
      cases hok
      refine ⟨l, ⟨h1, fun es he => ?_, by omega⟩, rfl, h2, h3⟩
      obtain ⟨g, _, hg⟩ := h2 es he
      exact hc g ‹_› es hg
  · push Not at ha
    obtain ⟨g, hg, hgn⟩ := ha
    rw [hC ⟨g, hg, by simpa using hgn⟩] at hok
    cases hok

end HilbertSpace

open HilbertSpace in
/-- Every Hilbert space a program can hold is the canonical one of its elementary spaces. -/
theorem Constructed.canon {hs : HilbertSpace ι} (h : Constructed hs) : ∃ l, Fits l ∧ hs = canon l := by
  induction h with
  | empty => exact ⟨[], fits_nil, canon_nil.symm⟩
  | @ofArgs l hs hw h =>
    by_cases ha : Acceptable l
    · obtain ⟨m, _, hf, he⟩ := (ofArgs_spec l hw).1 ha
      rw [h] at he; cases he
      exact ⟨m, hf, rfl⟩
    · obtain ⟨e, he⟩ := (ofArgs_spec l hw).2 ha
      rw [h] at he; cases he
  | @ofPtrs l hs hw h =>
    by_cases ha : Acceptable l
    · obtain ⟨m, _, hf, he⟩ := (ofPtrs_spec l hw).1 ha
      rw [h] at he; cases he
      exact ⟨m, hf, rfl⟩
    · obtain ⟨e, he⟩ := (ofPtrs_spec l hw).2 ha
      rw [h] at he; cases he
  | @ofMonomials constr ms hs hc h =>
    obtain ⟨l, hf, he, _⟩ := (ofMonomials_spec constr ms hc).1 hs h
    exact ⟨l, hf, he⟩
  | @add hs hs' es _ hes h ih =>
    obtain ⟨l, hf, rfl⟩ := ih
    rcases add_canon hf es hes with ⟨_, hadd⟩ | ⟨_, l', hp, hs, hadd⟩
    · rw [hadd] at h; simp at h
    · split at hadd
      · obtain ⟨hs', hadd⟩ := hadd
        rw [hadd] at h; simp at h
      · next hb =>
        rw [hadd] at h
        simp at h
        refine ⟨l', ⟨hs, fun e he => ?_, by rw [bitSum_perm hp]; omega⟩, h.symm⟩
        rcases List.mem_cons.1 (hp.subset he) with rfl | he
        · exact hes
        · exact hf.wf e he
  | @addExists hs hs' es _ h ih =>
    obtain ⟨l, hf, rfl⟩ := ih
    refine ⟨l, hf, ?_⟩
    unfold HilbertSpace.add at h
    split at h
    · simp at h; exact h.symm
    · split at h
      · next hr =>
        rw [recompute_eq] at hr
        simp only [Prod.mk.injEq] at hr h
        have h2 := hr.2
        rw [h.2] at h2
        split at h2 <;> simp at h2
      · simp at h

end LC
