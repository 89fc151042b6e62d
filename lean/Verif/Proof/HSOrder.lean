import Mathlib.Data.Prod.Lex
import Mathlib.Data.List.Sort
import Verif.Spec.HilbertSpace
/-
Elementary spaces are kept sorted by (algebra ID, multiplicity, indices).
-/
set_option linter.unusedSectionVars false
set_option linter.unusedSimpArgs false
namespace LC
variable {ι : Type _} [LinearOrder ι]

namespace ESpace

/-- Ordering key of an elementary space. -/
def key (es : ESpace ι) : Int ×ₗ (Nat ×ₗ ι) := toLex (es.algebraId, toLex (es.mult, es.indices))

theorem ltOp_iff (a b : ESpace ι) : a.ltOp b = true ↔ a.key < b.key := by
  unfold ltOp less key
  rw [Prod.Lex.lt_iff]
  simp only [ofLex_toLex]
  rw [Prod.Lex.lt_iff]
  simp only [ofLex_toLex]
  by_cases h1 : a.algebraId = b.algebraId
  · by_cases h2 : a.mult = b.mult
    · simp [h1, h2]
    · simp [h1, h2]
  · simp [h1]

theorem eqOp_iff (a b : ESpace ι) : a.eqOp b = true ↔ a.key = b.key := by
  unfold eqOp equal key
  simp [Prod.ext_iff, toLex_inj]

theorem key_eq_iff (a b : ESpace ι) : a.key = b.key ↔ a.algebraId = b.algebraId ∧ a.mult = b.mult ∧ a.indices = b.indices := by
  simp [key, Prod.ext_iff, toLex_inj]

theorem Wf.dim_le {es : ESpace ι} (h : es.Wf) : es.dim ≤ 2 ^ es.nBits := by
  rw [h.bits]; exact Nat.le_pow_clog (by decide) _

theorem Wf.lt_dim {es : ESpace ι} (h : es.Wf) (h1 : es.nBits ≠ 0) : 2 ^ (es.nBits - 1) < es.dim := by
  rw [h.bits] at h1 ⊢
  have : 1 < es.dim := by
    by_contra hc
    exact h1 (Nat.clog_of_right_le_one (by omega) _)
  exact Nat.pow_pred_clog_lt_self (by decide) this

end ESpace

/-- Strictly increasing keys. -/
def SortedES (l : List (ESpace ι)) : Prop := l.Pairwise fun a b => a.key < b.key

theorem SortedES.nodup {l : List (ESpace ι)} (h : SortedES l) : (l.map ESpace.key).Nodup := by
  rw [List.Nodup, List.pairwise_map]
  exact h.imp fun h => h.ne

theorem sortedES_perm_unique {l m : List (ESpace ι)} (hl : SortedES l) (hm : SortedES m) (hp : l.Perm m) : l = m :=
  hp.eq_of_pairwise (fun _ _ _ _ h1 h2 => (lt_asymm h1 h2).elim) hl hm

namespace HilbertSpace

theorem emplaceSpace_none {es : ESpace ι} {sp : List (ESpace ι × BitRange)} (h : emplaceSpace es sp = none) :
    ∃ k ∈ sp.map (·.1), k.key = es.key := by
  induction sp with
  | nil => simp [emplaceSpace] at h
  | cons p t ih =>
    obtain ⟨k, r⟩ := p
    rw [emplaceSpace] at h
    split at h
    · obtain ⟨k', hk', he⟩ := ih (by simpa using h)
      exact ⟨k', by simp at hk' ⊢; exact Or.inr hk', he⟩
    · next h1 =>
      split at h
      · simp at h
      · next h2 =>
        rw [ESpace.ltOp_iff] at h1 h2
        exact ⟨k, by simp, le_antisymm (not_lt.1 h2) (not_lt.1 h1)⟩

theorem emplaceSpace_some {es : ESpace ι} {sp sp' : List (ESpace ι × BitRange)} (hs : SortedES (sp.map (·.1)))
    (h : emplaceSpace es sp = some sp') :
    SortedES (sp'.map (·.1)) ∧ (sp'.map (·.1)).Perm (es :: sp.map (·.1)) ∧ ∀ k ∈ sp.map (·.1), k.key ≠ es.key := by
  induction sp generalizing sp' with
  | nil => simp [emplaceSpace] at h; subst h; simp [SortedES]
  | cons p t ih =>
    obtain ⟨k, r⟩ := p
    rw [emplaceSpace] at h
    simp only [List.map_cons, SortedES, List.pairwise_cons] at hs
    split at h
    · next h1 =>
      rw [ESpace.ltOp_iff] at h1
      rw [Option.map_eq_some_iff] at h
      obtain ⟨q, hq, rfl⟩ := h
      obtain ⟨h3, h4, h5⟩ := ih hs.2 hq
      refine ⟨?_, ?_, ?_⟩
      · simp only [List.map_cons, SortedES, List.pairwise_cons]
        refine ⟨fun b hb => ?_, h3⟩
        rcases List.mem_cons.1 (h4.subset hb) with rfl | hb
        · exact h1
        · exact hs.1 b hb
      · simp only [List.map_cons]
        exact (h4.cons k).trans (List.Perm.swap _ _ _)
      · intro b hb
        rcases List.mem_cons.1 hb with rfl | hb
        · exact h1.ne
        · exact h5 b hb
    · next h1 =>
      split at h
      · next h2 =>
        rw [ESpace.ltOp_iff] at h1 h2
        simp at h; subst h
        refine ⟨?_, by simp, ?_⟩
        · simp only [List.map_cons, SortedES, List.pairwise_cons]
          refine ⟨fun b hb => ?_, hs⟩
          rcases List.mem_cons.1 hb with rfl | hb
          · exact h2
          · exact h2.trans (hs.1 b hb)
        · intro b hb
          rcases List.mem_cons.1 hb with rfl | hb
          · exact h2.ne'
          · exact (h2.trans (hs.1 b hb)).ne'
      · simp at h

theorem emplaceSpace_isSome_iff {es : ESpace ι} {sp : List (ESpace ι × BitRange)} (hs : SortedES (sp.map (·.1))) :
    (emplaceSpace es sp).isSome ↔ ∀ k ∈ sp.map (·.1), k.key ≠ es.key := by
  constructor
  · intro h
    obtain ⟨sp', h'⟩ := Option.isSome_iff_exists.1 h
    exact (emplaceSpace_some hs h').2.2
  · intro h
    by_contra hc
    obtain ⟨k, hk, he⟩ := emplaceSpace_none (Option.not_isSome_iff_eq_none.1 hc)
    exact h k hk he

theorem findSpace_some {es : ESpace ι} {sp : List (ESpace ι × BitRange)} {k : ESpace ι × BitRange}
    (h : findSpace es sp = some k) : k ∈ sp ∧ k.1.key = es.key := by
  induction sp with
  | nil => simp [findSpace] at h
  | cons p t ih =>
    obtain ⟨q, r⟩ := p
    rw [findSpace] at h
    split at h
    · exact ⟨List.mem_cons_of_mem _ (ih h).1, (ih h).2⟩
    · next h1 =>
      split at h
      · simp at h
      · next h2 =>
        rw [ESpace.ltOp_iff] at h1 h2
        simp at h; subst h
        exact ⟨by simp, le_antisymm (not_lt.1 h2) (not_lt.1 h1)⟩

theorem findSpace_of_mem {es : ESpace ι} {sp : List (ESpace ι × BitRange)} (hs : SortedES (sp.map (·.1)))
    {k : ESpace ι × BitRange} (hk : k ∈ sp) (he : k.1.key = es.key) : findSpace es sp = some k := by
  induction sp with
  | nil => simp at hk
  | cons p t ih =>
    obtain ⟨q, r⟩ := p
    simp only [List.map_cons, SortedES, List.pairwise_cons] at hs
    rw [findSpace]
    rcases List.mem_cons.1 hk with rfl | hk
    · have h1 : ¬ (q.ltOp es = true) := by rw [ESpace.ltOp_iff]; simp only at he; rw [he]; exact lt_irrefl _
      have h2 : ¬ (es.ltOp q = true) := by rw [ESpace.ltOp_iff]; simp only at he; rw [he]; exact lt_irrefl _
      simp [h1, h2]
    · have h1 : q.ltOp es = true := by
        rw [ESpace.ltOp_iff, ← he]
        exact hs.1 _ (List.mem_map_of_mem hk)
      rw [if_pos h1]
      exact ih hs.2 hk

end HilbertSpace
end LC
