import Mathlib.Tactic.Linarith
import Verif.Proof.FockBasic
import Verif.Proof.LOpBasic
import Verif.Spec.FockSpace
/-
Physical occupation numbers, non-vanishing amplitudes, adjoints.
-/
set_option linter.unusedSectionVars false
set_option linter.unusedSimpArgs false
namespace LC
open HilbertSpace
variable {ι : Type _} [LinearOrder ι] {bd : ι → ℕ∞} {hs : HilbertSpace ι}

theorem Phys.update_fermion {n : Config ι} (h : Phys n) (i : ι) {y : Nat} (hy : y ≤ 1) :
    Phys (Function.update n (.fermion i) y) := by
  refine ⟨fun j => ?_, ?_, fun m j => ?_⟩
  · by_cases e : j = i
    · subst e; simpa using hy
    · rw [Function.update_of_ne (by simpa using e)]; exact h.fermion j
  · refine (h.finite.union (Set.finite_singleton i)).subset fun j hj => ?_
    by_cases e : j = i
    · subst e; exact Or.inr rfl
    · rw [Set.mem_ofPred_eq, Function.update_of_ne (by simpa using e)] at hj
      exact Or.inl hj
  · rw [Function.update_of_ne (by simp)]; exact h.spin m j

theorem Phys.update_boson {n : Config ι} (h : Phys n) (i : ι) (y : Nat) : Phys (Function.update n (.boson i) y) := by
  refine ⟨fun j => ?_, ?_, fun m j => ?_⟩
  · rw [Function.update_of_ne (by simp)]; exact h.fermion j
  · simp only [ne_eq, Function.update_of_ne (show (Mode.fermion _ : Mode ι) ≠ .boson i by simp)]; exact h.finite
  · rw [Function.update_of_ne (by simp)]; exact h.spin m j

theorem Phys.update_spin {n : Config ι} (h : Phys n) (m : Nat) (i : ι) {y : Nat} (hy : y = 0 ∨ y < m) :
    Phys (Function.update n (.spin m i) y) := by
  refine ⟨fun j => ?_, ?_, fun m' j => ?_⟩
  · rw [Function.update_of_ne (by simp)]; exact h.fermion j
  · simp only [ne_eq, Function.update_of_ne (show (Mode.fermion _ : Mode ι) ≠ .spin m i by simp)]; exact h.finite
  · by_cases e : (Mode.spin m' j : Mode ι) = .spin m i
    · cases e; simpa using hy
    · rw [Function.update_of_ne e]; exact h.spin m' j

theorem spin_plus_arg (mult n : Nat) : spinS mult * (spinS mult + 1) - ((n : ℝ) - spinS mult) * ((n : ℝ) - spinS mult + 1)
    = ((mult : ℝ) - 1 - n) * (n + 1) := by
  unfold spinS; ring

theorem spin_minus_arg (mult n : Nat) : spinS mult * (spinS mult + 1) - ((n : ℝ) - spinS mult) * ((n : ℝ) - spinS mult - 1)
    = ((mult : ℝ) - n) * n := by
  unfold spinS; ring

theorem genAct_phys {g : Gen ι} {n n' : Config ι} {x : ℝ} (hn : Phys n) (h : genAct bd g n = some (n', x)) :
    Phys n' ∧ x ≠ 0 := by
  cases g with
  | fermion d i =>
    cases d <;> (simp only [genAct] at h; split at h <;> simp at h; rw [← h.1, ← h.2])
    · exact ⟨hn.update_fermion i (by omega), by simp⟩
    · exact ⟨hn.update_fermion i (by omega), by simp⟩
  | boson d i =>
    cases d <;> (simp only [genAct] at h; split at h <;> simp at h; rw [← h.1, ← h.2])
    · refine ⟨hn.update_boson i _, ?_⟩
      rw [Real.sqrt_ne_zero (by positivity)]
      exact_mod_cast ‹¬ n (.boson i) = 0›
    · refine ⟨hn.update_boson i _, ?_⟩
      rw [Real.sqrt_ne_zero (by positivity)]
      positivity
  | spin m c i =>
    cases c
    · simp only [genAct] at h; split at h <;> simp at h
      rename_i hlt
      rw [← h.1, ← h.2]
      refine ⟨hn.update_spin m i (Or.inr hlt), ?_⟩
      have : ((n (.spin m i) + 1 : Nat) : ℝ) < m := by exact_mod_cast hlt
      push_cast at this
      have h2 : 0 < ((m : ℝ) - 1 - n (.spin m i)) * (n (.spin m i) + 1) :=
        mul_pos (by linarith) (by positivity)
      rw [spin_plus_arg, Real.sqrt_ne_zero h2.le]
      exact h2.ne'
    · simp only [genAct] at h; split at h <;> simp at h
      rename_i hne
      rw [← h.1, ← h.2]
      have hlt : n (.spin m i) < m := (hn.spin m i).resolve_left hne
      refine ⟨hn.update_spin m i (by omega), ?_⟩
      have h1 : ((n (.spin m i) : Nat) : ℝ) < m := by exact_mod_cast hlt
      have h0 : (0 : ℝ) < n (.spin m i) := by exact_mod_cast Nat.pos_of_ne_zero hne
      have h2 : 0 < ((m : ℝ) - n (.spin m i)) * n (.spin m i) := mul_pos (by linarith) h0
      rw [spin_minus_arg, Real.sqrt_ne_zero h2.le]
      exact h2.ne'
    · simp only [genAct] at h; split at h <;> simp at h
      rename_i hne
      rw [← h.1, ← h.2]
      exact ⟨hn, hne⟩

theorem monAct_phys {m : List (Gen ι)} {n n' : Config ι} {x : ℝ} (hn : Phys n) (h : monAct bd m n = some (n', x)) :
    Phys n' ∧ x ≠ 0 := by
  induction m generalizing n' x with
  | nil => simp only [monAct, Option.some.injEq, Prod.mk.injEq] at h; rw [← h.1, ← h.2]; exact ⟨hn, one_ne_zero⟩
  | cons g m ih =>
    rw [monAct] at h
    cases hm : monAct bd m n with
    | none => rw [hm] at h; simp at h
    | some p =>
      rw [hm] at h
      simp only [Option.bind_some] at h
      cases hg : genAct bd g p.1 with
      | none => rw [hg] at h; simp at h
      | some q =>
        rw [hg] at h
        simp only [Option.map_some, Option.some.injEq, Prod.mk.injEq] at h
        obtain ⟨h1, h2⟩ := ih hm
        obtain ⟨h3, h4⟩ := genAct_phys h1 hg
        rw [← h.1, ← h.2]
        exact ⟨h3, mul_ne_zero h4 h2⟩

theorem conf_phys (hc : Constructed hs) (hpre : PredefinedSpaces hs) {s : Nat} (hv : ValidState hs s) : Phys (conf hs s) := by
  refine ⟨fun i => ?_, ?_, fun m i => ?_⟩
  · by_cases hh : hs.has (Mode.fermion i).space = true
    · obtain ⟨f, nb, d, hl⟩ := loc_of_has hc hh
      rw [conf_loc hl]
      have h1 := valid_occ hl hv
      obtain ⟨e, he, hk, hd, hb⟩ := hl.mem
      obtain ⟨p1, _, _⟩ := hpre e (List.mem_map.2 ⟨_, he, rfl⟩)
      have hid : e.algebraId = -3 := by rw [ESpace.key_eq_iff] at hk; exact hk.1
      obtain ⟨j, rfl⟩ := p1 hid
      have : d = 2 := hd.symm
      omega
    · simp only [Bool.not_eq_true] at hh
      show occ hs s _ ≤ 1
      rw [occ_not_has hh]; omega
  · have : {i | conf hs s (.fermion i) ≠ 0} ⊆ {i | (Mode.fermion i : Mode ι).space.key ∈ hs.spaces.map (·.1.key)} := by
      intro i hi
      rw [Set.mem_ofPred_eq] at hi ⊢
      by_cases hh : hs.has (Mode.fermion i).space = true
      · obtain ⟨f, nb, d, hl⟩ := loc_of_has hc hh
        obtain ⟨e, he, hk, _, _⟩ := hl.mem
        exact List.mem_map.2 ⟨_, he, hk⟩
      · simp only [Bool.not_eq_true] at hh
        exact absurd (occ_not_has hh s) hi
    refine Set.Finite.subset ?_ this
    refine Set.Finite.preimage (f := fun i => (Mode.fermion i : Mode ι).space.key) (fun i _ j _ h => ?_)
      (List.finite_toSet (hs.spaces.map (·.1.key)))
    have := Mode.space_inj h
    simpa using this
  · by_cases hh : hs.has (Mode.spin m i).space = true
    · obtain ⟨f, nb, d, hl⟩ := loc_of_has hc hh
      rw [conf_loc hl]
      have h1 := valid_occ hl hv
      obtain ⟨e, he, hk, hd, hb⟩ := hl.mem
      obtain ⟨_, _, p1⟩ := hpre e (List.mem_map.2 ⟨_, he, rfl⟩)
      rw [ESpace.key_eq_iff] at hk
      obtain ⟨m', j, _, rfl⟩ := p1 hk.1
      have hm : (Mode.spin m' j : Mode ι) = .spin m i := Mode.space_inj ((ESpace.key_eq_iff _ _).2 hk)
      cases hm
      have : d = m := hd.symm
      omega
    · simp only [Bool.not_eq_true] at hh
      left
      show occ hs s _ = 0
      rw [occ_not_has hh]

end LC
