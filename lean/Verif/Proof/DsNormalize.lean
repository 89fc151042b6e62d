import Verif.Proof.DsHistory
/- `normalize_sets()` on objects in which every parent is a representative. -/
namespace LC
open DisjointSets

namespace DisjointSets

/-- The smallest member of the class. -/
theorem exists_min (R : Nat → Nat) (n : Nat) : ∃ M : Nat → Nat, ∀ x < n, M x < n ∧ R (M x) = R x ∧ ∀ y < n, R y = R x → M x ≤ y := by
  classical
  have : ∀ x, ∃ m, x < n → m < n ∧ R m = R x ∧ ∀ y < n, R y = R x → m ≤ y := by
    intro x
    by_cases hx : x < n
    · have hex : ∃ m, m < n ∧ R m = R x := ⟨x, hx, rfl⟩
      refine ⟨Nat.find hex, fun _ => ⟨(Nat.find_spec hex).1, (Nat.find_spec hex).2, fun y hy e => Nat.find_min' hex ⟨hy, e⟩⟩⟩
    · exact ⟨0, fun h => absurd h hx⟩
  choose M hM using this
  exact ⟨M, hM⟩

/-- State of `normalize_sets()` when the positions below `k` have been treated. -/
structure NormInv (n : Nat) (R M : Nat → Nat) (k : Nat) (ps : List Nat) : Prop where
  len : ps.length = n
  done : ∀ y < k, par ps y = M y
  fresh : ∀ y < n, k ≤ y → k ≤ M y → par ps y = R y
  root : ∀ y < n, k ≤ y → M y < k → R y = y → par ps y = M y
  leaf : ∀ y < n, k ≤ y → M y < k → R y ≠ y → par ps y = R y

theorem NormInv.step {n k : Nat} {R M : Nat → Nat} {ps : List Nat} (hR : ∀ x < n, R x < n ∧ R (R x) = R x)
    (hM : ∀ x < n, M x < n ∧ R (M x) = R x ∧ ∀ y < n, R y = R x → M x ≤ y) (hi : NormInv n R M k ps) (hk : k < n) :
    ∃ ps', normalizeStep ps k = some ps' ∧ NormInv n R M (k + 1) ps' := by
  have Meq : ∀ x < n, ∀ y < n, R x = R y → M x = M y := by
    intro x hx y hy e
    have h1 := (hM x hx).2.2 (M y) (hM y hy).1 ((hM y hy).2.1.trans e.symm)
    have h2 := (hM y hy).2.2 (M x) (hM x hx).1 ((hM x hx).2.1.trans e)
    omega
  have hMk : M k ≤ k := (hM k hk).2.2 k hk rfl
  have hMM : M (M k) = M k := Meq _ (hM k hk).1 _ hk (hM k hk).2.1
  have hMR : M (R k) = M k := Meq _ (hR k hk).1 _ hk (hR k hk).2
  have hkl : k < ps.length := by rw [hi.len]; exact hk
  -- the common part: the value `M k` is stored at position `k`
  have setk : M k < k → NormInv n R M (k + 1) (ps.set k (M k)) := by
    intro hlt
    have hp : ∀ y, y ≠ k → par (ps.set k (M k)) y = par ps y := fun y hy => by rw [par_set hkl, if_neg hy]
    have hMne : ∀ y < n, M y ≠ k := by
      intro y hy e
      have h1 : R k = R y := by rw [← e]; exact (hM y hy).2.1
      have := Meq k hk y hy h1
      omega
    refine ⟨by rw [List.length_set, hi.len], fun y hy => ?_, fun y hy h1 h2 => ?_, fun y hy h1 h2 h3 => ?_, fun y hy h1 h2 h3 => ?_⟩
    · by_cases e : y = k
      · subst e; rw [par_set hkl, if_pos rfl]
      · rw [hp y e]; exact hi.done y (by omega)
    · rw [hp y (by omega)]; exact hi.fresh y hy (by omega) (by omega)
    · rw [hp y (by omega)]
      exact hi.root y hy (by omega) (by have := hMne y hy; omega) h3
    · rw [hp y (by omega)]
      exact hi.leaf y hy (by omega) (by have := hMne y hy; omega) h3
  unfold normalizeStep
  rw [par_get hkl]
  simp only
  by_cases hlt : M k < k
  · by_cases hroot : R k = k
    · have e := hi.root k hk le_rfl hlt hroot
      rw [e, par_get (by rw [hi.len]; exact (hM k hk).1)]
      simp only
      rw [if_pos (Or.inl hlt), hi.done _ hlt, hMM]
      exact ⟨_, rfl, setk hlt⟩
    · have e := hi.leaf k hk le_rfl hlt hroot
      rw [e, par_get (by rw [hi.len]; exact (hR k hk).1)]
      simp only
      have hv : par ps (R k) = M k := by
        by_cases hc : R k < k
        · rw [hi.done _ hc, hMR]
        · rw [hi.root (R k) (hR k hk).1 (by omega) (by rw [hMR]; exact hlt) (hR k hk).2, hMR]
      rw [hv, if_pos]
      · exact ⟨_, rfl, setk hlt⟩
      · by_cases hc : R k < k
        · exact Or.inl hc
        · right; omega
  · have hMk' : M k = k := by omega
    have e := hi.fresh k hk le_rfl (by omega)
    have hRl : R k < ps.length := by rw [hi.len]; exact (hR k hk).1
    have hge : k ≤ R k := by
      have := (hM k hk).2.2 (R k) (hR k hk).1 (hR k hk).2
      omega
    have e2 : par ps (R k) = R k := by
      rw [hi.fresh (R k) (hR k hk).1 hge (by omega), (hR k hk).2]
    rw [e, par_get hRl]
    simp only
    rw [e2, if_neg (by omega)]
    refine ⟨_, rfl, ?_⟩
    have hpar : ∀ y, par ((ps.set (R k) k).set k k) y = if y = k ∨ y = R k then k else par ps y := by
      intro y
      rw [par_set (by rw [List.length_set]; exact hkl), par_set hRl]
      by_cases h1 : y = k
      · rw [if_pos h1, if_pos (Or.inl h1)]
      · rw [if_neg h1]
        by_cases h2 : y = R k
        · rw [if_pos h2, if_pos (Or.inr h2)]
        · rw [if_neg h2, if_neg (by tauto)]
    refine ⟨by rw [List.length_set, List.length_set, hi.len], fun y hy => ?_, fun y hy h1 h2 => ?_, fun y hy h1 h2 h3 => ?_, fun y hy h1 h2 h3 => ?_⟩
    · rw [hpar]
      by_cases h1 : y = k
      · rw [if_pos (Or.inl h1), h1, hMk']
      · rw [if_neg (by omega)]; exact hi.done y (by omega)
    · rw [hpar, if_neg]
      · exact hi.fresh y hy (by omega) (by omega)
      · rintro (h | h)
        · omega
        · rw [h, hMR] at h2; omega
    · rw [hpar]
      by_cases h4 : y = R k
      · rw [if_pos (Or.inr h4), h4, hMR, hMk']
      · rw [if_neg (by omega)]
        refine hi.root y hy (by omega) ?_ h3
        by_contra hc
        have : M y = k := by omega
        have h5 : R k = R y := by rw [← this]; exact (hM y hy).2.1
        omega
    · rw [hpar, if_neg]
      · by_cases h5 : M y < k
        · exact hi.leaf y hy (by omega) h5 h3
        · exact hi.fresh y hy (by omega) (by omega)
      · rintro (h | h)
        · omega
        · exact h3 (by rw [h]; exact (hR k hk).2)

theorem NormInv.loop {n : Nat} {R M : Nat → Nat} (hR : ∀ x < n, R x < n ∧ R (R x) = R x)
    (hM : ∀ x < n, M x < n ∧ R (M x) = R x ∧ ∀ y < n, R y = R x → M x ≤ y) (m k : Nat) (hm : k + m = n) {ps : List Nat} (hi : NormInv n R M k ps) :
    ∃ ps', normalizeLoop (List.range' k m) ps = some ps' ∧ NormInv n R M n ps' := by
  induction m generalizing k ps with
  | zero =>
    have : n = k := by omega
    subst this
    exact ⟨ps, rfl, hi⟩
  | succ m ih =>
    obtain ⟨p1, h1, h2⟩ := hi.step hR hM (by omega)
    rw [List.range'_succ, normalizeLoop, h1]
    exact ih (k + 1) (by omega) h2

/-- After `normalize_sets()` the representatives are the smallest members, if every parent was a representative before. -/
theorem Good.normalizeSets_flat {ds ds' : DisjointSets} {R : Nat → Nat} (hg : Good ds R) (hf : ∀ x < ds.size, par ds.parents x = R x)
    (he : ds.normalizeSets = some ds') : ∀ x < ds.size, ∃ r d, ds'.findRoot x = some (r, d) ∧ r < ds.size ∧ R r = R x ∧
      ∀ y < ds.size, R y = R x → r ≤ y := by
  obtain ⟨M, hM⟩ := exists_min R ds.size
  have hR : ∀ x < ds.size, R x < ds.size ∧ R (R x) = R x := fun x hx => ⟨hg.lt hx, hg.RR hx⟩
  obtain ⟨ps', e1, e2⟩ := NormInv.loop hR hM ds.size 0 (by omega) (ps := ds.parents)
    ⟨rfl, by omega, fun y hy _ _ => hf y hy, fun y hy _ h _ => by omega, fun y hy _ h _ => by omega⟩
  rw [← List.range_eq_range'] at e1
  obtain ⟨d', R', a, b, c, e⟩ := hg.normalizeSets
  rw [he, Option.some.injEq] at a
  subst a
  have hps : ds'.parents = ps' := by
    unfold DisjointSets.normalizeSets at he
    rw [e1] at he
    simp only [Option.map_some, Option.some.injEq] at he
    rw [← he]
  intro x hx
  have hx' : x < ds'.size := by rw [c.1]; exact hx
  obtain ⟨d, f1, f2, f3⟩ := b.findRoot hx'
  have hRx : R' x = M x := by
    obtain ⟨h, hr⟩ := b.rep
    have h1 : R' (M x) = M x := by
      have hml : M x < ds'.parents.length := by
        rw [show ds'.parents.length = ds.size from c.1]; exact (hM x hx).1
      apply hr.fix _ hml
      rw [hps, e2.done _ (hM x hx).1]
      have h2 := (hM _ (hM x hx).1)
      have h3 := h2.2.2 (M x) (hM x hx).1 rfl
      have h4 := (hM x hx).2.2 (M (M x)) h2.1 (h2.2.1.trans (hM x hx).2.1)
      omega
    have h2 := hr.par_R x hx'
    rw [hps, e2.done x hx, h1] at h2
    exact h2.symm
  exact ⟨M x, d, by rw [f1, hRx], (hM x hx).1, (hM x hx).2.1, (hM x hx).2.2⟩

theorem Good.findAll {ds : DisjointSets} {R : Nat → Nat} (hg : Good ds R) (l : List Nat) (hl : ∀ x ∈ l, x < ds.size) :
    ∃ ds', DisjointSets.findAll l ds = some ds' ∧ Good ds' R ∧ Same ds ds' ∧ (∀ x ∈ l, par ds'.parents x = R x) ∧
      ∀ y < ds.size, par ds.parents y = R y → par ds'.parents y = R y := by
  induction l generalizing ds with
  | nil => exact ⟨ds, rfl, hg, ⟨rfl, rfl, rfl⟩, by simp, fun _ _ h => h⟩
  | cons x l ih =>
    have hx := hl x List.mem_cons_self
    obtain ⟨d1, a1, a2, a3, a4, a5, a6⟩ := hg.findRoot_full hx
    obtain ⟨d2, b1, b2, b3, b4, b5⟩ := ih a2 (fun j hj => by rw [a3.1]; exact hl j (List.mem_cons_of_mem _ hj))
    refine ⟨d2, ?_, b2, ⟨b3.1.trans a3.1, b3.2.1.trans a3.2.1, b3.2.2.trans a3.2.2⟩, ?_, ?_⟩
    · rw [DisjointSets.findAll, a1]; exact b1
    · intro y hy
      rcases List.mem_cons.1 hy with rfl | hy
      · exact b5 y (by rw [a3.1]; exact hx) a4
      · exact b4 y hy
    · intro y hy e
      refine b5 y (by rw [a3.1]; exact hy) ?_
      rcases a6 y hy with h | h
      · rw [h, e]
      · exact h

end DisjointSets
end LC
