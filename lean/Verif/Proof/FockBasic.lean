import Verif.Spec.Fock
import Mathlib.Tactic.Ring
/-
Composition and commutation of the textbook actions.
-/
set_option linter.unusedSectionVars false
set_option linter.unusedSimpArgs false
namespace LC
variable {ι : Type _} [LinearOrder ι] {bd : ι → ℕ∞}

theorem monAct_append (m₁ m₂ : List (Gen ι)) (n : Config ι) :
    monAct bd (m₁ ++ m₂) n = (monAct bd m₂ n).bind fun p => (monAct bd m₁ p.1).map fun q => (q.1, q.2 * p.2) := by
  induction m₁ with
  | nil =>
    rw [List.nil_append]
    cases monAct bd m₂ n <;> simp [monAct]
  | cons g m ih =>
    rw [List.cons_append, monAct, ih]
    cases monAct bd m₂ n with
    | none => rfl
    | some p =>
      simp only [Option.bind_some, monAct]
      cases monAct bd m p.1 with
      | none => rfl
      | some q =>
        simp only [Option.map_some, Option.bind_some]
        cases genAct bd g q.1 with
        | none => rfl
        | some r => simp [mul_assoc]

/-- What a generator does to the modes: nothing except for its own mode. -/
theorem genAct_other {g : Gen ι} {n n' : Config ι} {x : ℝ} (h : genAct bd g n = some (n', x)) {k : Mode ι} (hk : k ≠ g.mode) :
    n' k = n k := by
  cases g with
  | fermion d i => cases d <;> (simp only [genAct] at h; split at h <;> simp at h; rw [← h.1]; exact Function.update_of_ne hk _ _)
  | boson d i => cases d <;> (simp only [genAct] at h; split at h <;> simp at h; rw [← h.1]; exact Function.update_of_ne hk _ _)
  | spin m c i =>
    cases c
    · simp only [genAct] at h; split at h <;> simp at h; rw [← h.1]; exact Function.update_of_ne hk _ _
    · simp only [genAct] at h; split at h <;> simp at h; rw [← h.1]; exact Function.update_of_ne hk _ _
    · simp only [genAct] at h; split at h <;> simp at h; rw [← h.1]

/-- The target of the action as a function of the number in the generator's own mode. -/
noncomputable def own (bd : ι → ℕ∞) : Gen ι → Nat → Option (Nat × ℝ)
  | .fermion true _, n => if n = 0 then some (1, 1) else none
  | .fermion false _, n => if n = 1 then some (0, 1) else none
  | .boson true i, n => if ((n + 1 : Nat) : ℕ∞) < bd i then some (n + 1, Real.sqrt (n + 1)) else none
  | .boson false _, n => if n = 0 then none else some (n - 1, Real.sqrt n)
  | .spin mult .plus _, n =>
    let m : ℝ := n - spinS mult
    if n + 1 < mult then some (n + 1, Real.sqrt (spinS mult * (spinS mult + 1) - m * (m + 1))) else none
  | .spin mult .minus _, n =>
    let m : ℝ := n - spinS mult
    if n = 0 then none else some (n - 1, Real.sqrt (spinS mult * (spinS mult + 1) - m * (m - 1)))
  | .spin mult .z _, n =>
    let m : ℝ := n - spinS mult
    if m = 0 then none else some (n, m)

/-- The sign factor. -/
noncomputable def sgn : Gen ι → Config ι → ℝ
  | .fermion _ i, n => (-1) ^ jw n i
  | _, _ => 1

theorem genAct_eq (g : Gen ι) (n : Config ι) :
    genAct bd g n = (own bd g (n g.mode)).map fun q => (Function.update n g.mode q.1, q.2 * sgn g n) := by
  cases g with
  | fermion d i =>
    rw [show (Gen.fermion d i).mode = Mode.fermion i from rfl]
    cases d <;> (simp only [genAct, own, sgn]; split <;> simp)
  | boson d i =>
    rw [show (Gen.boson d i).mode = Mode.boson i from rfl]
    cases d <;> (simp only [genAct, own, sgn]; split <;> simp)
  | spin m c i =>
    rw [show (Gen.spin m c i).mode = Mode.spin m i from rfl]
    cases c <;> (simp only [genAct, own, sgn]; split <;> simp)

theorem jw_update {n : Config ι} {k : Mode ι} (h : ∀ i, k ≠ .fermion i) (y : Nat) (i : ι) :
    jw (Function.update n k y) i = jw n i := by
  unfold jw
  congr 1
  ext j
  rw [Set.mem_ofPred_eq, Set.mem_ofPred_eq, Function.update_of_ne (h j).symm]

theorem genAct_comm {g h : Gen ι} (hgh : g.algebraId ≠ h.algebraId) (n : Config ι) :
    ((genAct bd g n).bind fun p => (genAct bd h p.1).map fun q => (q.1, q.2 * p.2))
      = (genAct bd h n).bind fun p => (genAct bd g p.1).map fun q => (q.1, q.2 * p.2) := by
  have hm : g.mode ≠ h.mode := by
    intro e; cases g <;> cases h <;> simp_all [Gen.mode, Gen.algebraId]
  have hs : ∀ (g h : Gen ι), g.algebraId ≠ h.algebraId → ∀ n y, sgn g (Function.update n h.mode y) = sgn g n := by
    intro g h hgh n y
    cases g with
    | fermion d i =>
      simp only [sgn]
      rw [jw_update]
      intro j e
      cases h <;> simp_all [Gen.mode, Gen.algebraId]
    | boson d i => rfl
    | spin m c i => rfl
  rw [genAct_eq g, genAct_eq h]
  cases hg : own bd g (n g.mode) with
  | none =>
    cases hh : own bd h (n h.mode) with
    | none => rfl
    | some q => simp [genAct_eq, Function.update_of_ne hm, hg]
  | some p =>
    cases hh : own bd h (n h.mode) with
    | none => simp [genAct_eq, Function.update_of_ne hm.symm, hh]
    | some q =>
      simp only [Option.map_some, Option.bind_some, genAct_eq, Function.update_of_ne hm, Function.update_of_ne hm.symm, hg, hh,
        hs g h hgh, hs h g hgh.symm]
      rw [Function.update_comm hm]
      simp only [Option.some.injEq, Prod.mk.injEq, true_and]
      ring

theorem monAct_swap {g h : Gen ι} (hgh : g.algebraId ≠ h.algebraId) (m : List (Gen ι)) (n : Config ι) :
    monAct bd (g :: h :: m) n = monAct bd (h :: g :: m) n := by
  simp only [monAct]
  cases monAct bd m n with
  | none => rfl
  | some p =>
    simp only [Option.bind_some, Option.bind_map]
    have := genAct_comm (bd := bd) hgh p.1
    have e : ∀ g h : Gen ι, ((genAct bd h p.1).bind ((fun p => Option.map (fun q => (q.1, q.2 * p.2)) (genAct bd g p.1)) ∘ fun q => (q.1, q.2 * p.2)))
        = ((genAct bd h p.1).bind fun p => (genAct bd g p.1).map fun q => (q.1, q.2 * p.2)).map fun q => (q.1, q.2 * p.2) := by
      intro g h
      cases genAct bd h p.1 with
      | none => rfl
      | some q =>
        simp only [Option.bind_some, Function.comp]
        cases genAct bd g q.1 with
        | none => rfl
        | some r => simp [mul_assoc]
    rw [e, e, this]

theorem monAct_cons_congr {m m' : List (Gen ι)} (h : ∀ n, monAct bd m n = monAct bd m' n) (g : Gen ι) (n : Config ι) :
    monAct bd (g :: m) n = monAct bd (g :: m') n := by
  rw [monAct, h, monAct]

theorem monAct_comm {m₁ m₂ : List (Gen ι)} (h : ∀ g ∈ m₁, ∀ k ∈ m₂, g.algebraId ≠ k.algebraId) (n : Config ι) :
    monAct bd (m₁ ++ m₂) n = monAct bd (m₂ ++ m₁) n := by
  induction m₁ generalizing n with
  | nil => simp
  | cons g m ih =>
    have ih' := fun n => ih (fun x hx => h x (List.mem_cons_of_mem _ hx)) n
    rw [List.cons_append, monAct_cons_congr ih']
    have hg := h g (by simp)
    clear ih ih' h
    induction m₂ generalizing n with
    | nil => rfl
    | cons k m₂ ih2 =>
      rw [List.cons_append, monAct_swap (hg k (by simp)), monAct_cons_congr (fun n => ih2 n (fun x hx => hg x (by simp [hx])))]
      rfl

end LC
