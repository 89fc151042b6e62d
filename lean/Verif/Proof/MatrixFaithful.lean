import Verif.Proof.FockOp
import Verif.Proof.Faithful
import Mathlib.Algebra.BigOperators.Ring.Finset
/-
Canonical expressions are determined by their matrix elements.
-/
set_option linter.unusedSectionVars false
set_option linter.unusedSimpArgs false
set_option linter.unusedVariables false
set_option linter.unusedTactic false
namespace LC.MatF
open HilbertSpace Expr
variable {ι S : Type _} [LinearOrder ι] {hs : HilbertSpace ι}

/-- The generators that change the occupation number of a mode. -/
def lower : Mode ι → Gen ι
  | .fermion i => .fermion false i
  | .boson i => .boson false i
  | .spin m i => .spin m .minus i
def raise : Mode ι → Gen ι
  | .fermion i => .fermion true i
  | .boson i => .boson true i
  | .spin m i => .spin m .plus i

def isSpin : Mode ι → Bool
  | .spin _ _ => true
  | _ => false
def spinGen : Gen ι → Bool
  | .spin _ _ _ => true
  | _ => false

abbrev top : ι → ℕ∞ := fun _ => ⊤

/-! ### Counting -/

theorem genAct_count {g : Gen ι} {n n' : Config ι} {x : ℝ} (h : genAct top g n = some (n', x)) (k : Mode ι) :
    n' k + (if g = lower k then 1 else 0) = n k + (if g = raise k then 1 else 0) := by
  by_cases hk : k = g.mode
  · subst hk
    cases g with
    | fermion d i =>
      cases d <;> (simp only [genAct] at h; split at h <;> simp at h; rw [← h.1]; simp [Gen.mode, lower, raise, *])
    | boson d i =>
      cases d
      · simp only [genAct] at h
        split at h
        · simp at h
        · simp only [Option.some.injEq, Prod.mk.injEq] at h
          rw [← h.1]; simp [Gen.mode, lower, raise]; omega
      · simp only [genAct] at h
        split at h
        · simp only [Option.some.injEq, Prod.mk.injEq] at h
          rw [← h.1]; simp [Gen.mode, lower, raise]
        · simp at h
    | spin m c i =>
      cases c
      · simp only [genAct] at h
        split at h
        · simp only [Option.some.injEq, Prod.mk.injEq] at h
          rw [← h.1]; simp [Gen.mode, lower, raise]
        · simp at h
      · simp only [genAct] at h
        split at h
        · simp at h
        · simp only [Option.some.injEq, Prod.mk.injEq] at h
          rw [← h.1]; simp [Gen.mode, lower, raise]; omega
      · simp only [genAct] at h
        split at h
        · simp at h
        · simp only [Option.some.injEq, Prod.mk.injEq] at h
          rw [← h.1]; simp [Gen.mode, lower, raise]
  · rw [genAct_other h hk, if_neg, if_neg]
    · rintro rfl; exact hk (by cases k <;> rfl)
    · rintro rfl; exact hk (by cases k <;> rfl)

theorem monAct_cons_some {g : Gen ι} {m : List (Gen ι)} {n n' : Config ι} {x : ℝ} {bd : ι → ℕ∞} :
    monAct bd (g :: m) n = some (n', x) ↔
      ∃ n1 x1 y, monAct bd m n = some (n1, x1) ∧ genAct bd g n1 = some (n', y) ∧ x = y * x1 := by
  rw [monAct]
  cases hm : monAct bd m n with
  | none => simp
  | some p =>
    obtain ⟨n1, x1⟩ := p
    simp only [Option.bind_some, Option.map_eq_some_iff, Option.some.injEq, Prod.mk.injEq, Prod.exists]
    constructor
    · rintro ⟨a, b, h1, h2, h3⟩
      exact ⟨n1, x1, b, ⟨rfl, rfl⟩, by rw [h1, h2], h3.symm⟩
    · rintro ⟨a, b, y, ⟨rfl, rfl⟩, h1, h2⟩
      exact ⟨n', y, h1, rfl, h2.symm⟩

theorem monAct_count {m : List (Gen ι)} {n n' : Config ι} {x : ℝ} (h : monAct top m n = some (n', x)) (k : Mode ι) :
    n' k + m.count (lower k) = n k + m.count (raise k) := by
  induction m generalizing n' x with
  | nil => simp only [monAct, Option.some.injEq, Prod.mk.injEq] at h; rw [← h.1]; simp
  | cons g m ih =>
    obtain ⟨n1, x1, y, h1, h2, _⟩ := monAct_cons_some.1 h
    have e1 := ih h1
    have e2 := genAct_count h2 k
    simp only [List.count_cons, beq_iff_eq]
    omega

/-- Annihilation before creation. -/
def NO (k : Mode ι) (m : List (Gen ι)) : Prop := m.Pairwise fun g h => ¬ (g = lower k ∧ h = raise k)

theorem monAct_ann_le {m : List (Gen ι)} {k : Mode ι} (hno : NO k m) {n n' : Config ι} {x : ℝ}
    (h : monAct top m n = some (n', x)) : m.count (lower k) ≤ n k := by
  induction m generalizing n' x with
  | nil => simp
  | cons g m ih =>
    obtain ⟨n1, x1, y, h1, h2, _⟩ := monAct_cons_some.1 h
    have hp := List.pairwise_cons.1 hno
    have e1 := ih hp.2 h1
    by_cases hg : g = lower k
    · have h0 : m.count (raise k) = 0 := List.count_eq_zero.2 fun hm => hp.1 _ hm ⟨hg, rfl⟩
      have e2 := monAct_count h1 k
      have e3 := genAct_count h2 k
      have hne : g ≠ raise k := by rw [hg]; cases k <;> simp [lower, raise]
      rw [if_pos hg, if_neg hne] at e3
      simp only [List.count_cons, beq_iff_eq, hg, if_true]
      omega
    · simp only [List.count_cons, beq_iff_eq, hg, if_false]; omega

theorem genAct_some {g : Gen ι} {n : Config ι}
    (h : match g with
      | .fermion true i => n (.fermion i) = 0
      | .fermion false i => n (.fermion i) = 1
      | .boson true _ => True
      | .boson false i => 1 ≤ n (.boson i)
      | .spin _ _ _ => False) : ∃ n' x, genAct top g n = some (n', x) ∧ x ≠ 0 := by
  cases g with
  | fermion d i =>
    cases d <;> (simp only at h; simp only [genAct, h]; exact ⟨_, _, rfl, by positivity⟩)
  | boson d i =>
    cases d
    · simp only at h
      simp only [genAct]
      rw [if_neg (by omega)]
      exact ⟨_, _, rfl, (Real.sqrt_pos.2 (by exact_mod_cast h)).ne'⟩
    · simp only [genAct]
      rw [if_pos (ENat.natCast_lt_top _)]
      exact ⟨_, _, rfl, (Real.sqrt_pos.2 (by positivity)).ne'⟩
  | spin m c i => exact h.elim

theorem monAct_exists {m : List (Gen ι)} (hm : ∀ g ∈ m, spinGen g = false) (hno : ∀ k, isSpin k = false → NO k m) {n : Config ι}
    (hl : ∀ k, isSpin k = false → m.count (lower k) ≤ n k)
    (hf : ∀ i, n (.fermion i) ≤ 1 ∧ n (.fermion i) + m.count (.fermion true i) ≤ 1 + m.count (.fermion false i)) :
    ∃ n' x, monAct top m n = some (n', x) ∧ x ≠ 0 := by
  induction m with
  | nil => exact ⟨n, 1, rfl, one_ne_zero⟩
  | cons g m ih =>
    have hp := fun k hk => List.pairwise_cons.1 (hno k hk)
    have hcl : ∀ k, m.count (lower k) ≤ (g :: m).count (lower k) := fun k => List.count_le_count_cons
    obtain ⟨n1, x1, h1, hx1⟩ := ih (fun x hx => hm x (by simp [hx])) (fun k hk => (hp k hk).2)
      (fun k hk => (hcl k).trans (hl k hk)) (fun i => by
        have h1 := hf i
        have h2 := hl (.fermion i) rfl
        simp only [lower] at h2
        simp only [List.count_cons, beq_iff_eq] at h1 h2
        refine ⟨h1.1, ?_⟩
        by_cases hg : g = .fermion false i
        · have h0 : m.count (.fermion true i) = 0 := List.count_eq_zero.2 fun hm => (hp (.fermion i) rfl).1 _ hm ⟨hg, rfl⟩
          omega
        · rw [if_neg hg] at h1 h2
          omega)
    have hc := fun k => monAct_count h1 k
    have hspin := hm g (by simp)
    obtain ⟨n', x, h2, hx⟩ := genAct_some (g := g) (n := n1) (by
      cases g with
      | fermion d i =>
        have e1 := hf i
        have e2 := hl (.fermion i) rfl
        have e3 := hc (.fermion i)
        simp only [lower, raise] at e2 e3
        simp only [List.count_cons, beq_iff_eq, Gen.fermion.injEq, and_true] at e1 e2
        cases d
        · simp only [if_true] at e1 e2
          have h0 : m.count (.fermion true i) = 0 := List.count_eq_zero.2 fun hm => (hp (.fermion i) rfl).1 _ hm ⟨rfl, rfl⟩
          simp only; omega
        · simp at e1 e2
          simp only; omega
      | boson d i =>
        cases d
        · have e2 := hl (.boson i) rfl
          have e3 := hc (.boson i)
          simp only [lower, raise] at e2 e3
          simp only [List.count_cons, beq_iff_eq, if_true] at e2
          simp only; omega
        · trivial
      | spin a b c => simp [spinGen] at hspin)
    exact ⟨n', x * x1, monAct_cons_some.2 ⟨n1, x1, x, h1, h2, rfl⟩, mul_ne_zero hx hx1⟩

/-! ### Separation of the spins -/

def Agree (n n₂ : Config ι) : Prop := ∀ k, isSpin k = false → n k = n₂ k

theorem sgn_agree {g : Gen ι} {n n₂ : Config ι} (h : Agree n n₂) : sgn g n = sgn g n₂ := by
  cases g with
  | fermion d i =>
    simp only [sgn, jw]
    congr 2
    ext j
    rw [Set.mem_ofPred_eq, Set.mem_ofPred_eq, h (.fermion j) rfl]
  | _ => rfl

theorem mode_spin (g : Gen ι) : isSpin g.mode = spinGen g := by cases g <;> rfl

theorem genAct_congr {g : Gen ι} (hg : spinGen g = false) {n n₂ n' : Config ι} {x : ℝ} (h : Agree n n₂)
    (ha : genAct top g n = some (n', x)) : ∃ n'', genAct top g n₂ = some (n'', x) ∧ Agree n' n'' := by
  rw [genAct_eq] at ha
  have hk := h g.mode (by rw [mode_spin, hg])
  obtain ⟨q, h1, h2⟩ := Option.map_eq_some_iff.1 ha
  simp only [Prod.mk.injEq] at h2
  refine ⟨Function.update n₂ g.mode q.1, ?_, ?_⟩
  · rw [genAct_eq, ← hk, h1, Option.map_some, ← sgn_agree h, h2.2]
  · intro k hks
    rw [← h2.1]
    by_cases e : k = g.mode
    · subst e; rw [Function.update_self, Function.update_self]
    · rw [Function.update_of_ne e, Function.update_of_ne e, h k hks]

theorem monAct_congr {m : List (Gen ι)} (hm : ∀ g ∈ m, spinGen g = false) {n n₂ n' : Config ι} {x : ℝ} (h : Agree n n₂)
    (ha : monAct top m n = some (n', x)) : ∃ n'', monAct top m n₂ = some (n'', x) ∧ Agree n' n'' := by
  induction m generalizing n' x with
  | nil =>
    simp only [monAct, Option.some.injEq, Prod.mk.injEq] at ha
    exact ⟨n₂, by rw [monAct, ha.2], by rw [← ha.1]; exact h⟩
  | cons g m ih =>
    obtain ⟨n1, x1, y, h1, h2, h3⟩ := monAct_cons_some.1 ha
    obtain ⟨n1', e1, e2⟩ := ih (fun x hx => hm x (by simp [hx])) h1
    obtain ⟨n2', f1, f2⟩ := genAct_congr (hm g (by simp)) e2 h2
    exact ⟨n2', monAct_cons_some.2 ⟨n1', x1, y, e1, f1, h3⟩, f2⟩

theorem monAct_keep {m : List (Gen ι)} {k : Mode ι} (hm : ∀ g ∈ m, g.mode ≠ k) {n n' : Config ι} {x : ℝ} {bd : ι → ℕ∞}
    (h : monAct bd m n = some (n', x)) : n' k = n k := by
  induction m generalizing n' x with
  | nil => simp only [monAct, Option.some.injEq, Prod.mk.injEq] at h; rw [← h.1]
  | cons g m ih =>
    obtain ⟨n1, x1, y, h1, h2, h3⟩ := monAct_cons_some.1 h
    rw [genAct_other h2 (hm g (by simp)).symm, ih (fun x hx => hm x (by simp [hx])) h1]

open Classical in
/-- The matrix element of a monomial between configurations, without truncation. -/
noncomputable def topEl (m : List (Gen ι)) (t n : Config ι) : ℝ :=
  match monAct top m n with
  | none => 0
  | some (n', x) => if n' = t then x else 0

/-- The non-spin modes of `n` and the spins of `t`. -/
def mix (n t : Config ι) : Config ι := fun k => if isSpin k then t k else n k

open Classical in
theorem topEl_append {r s : List (Gen ι)} (hr : ∀ g ∈ r, spinGen g = false) (hs : ∀ g ∈ s, spinGen g = true) {n n' : Config ι} {x : ℝ}
    (h : monAct top r n = some (n', x)) (t : Config ι) :
    topEl (r ++ s) t n = if Agree n' t then x * topEl s (mix n t) n else 0 := by
  unfold topEl
  rw [monAct_append]
  cases hm : monAct top s n with
  | none => simp
  | some p =>
    obtain ⟨n1, x1⟩ := p
    have hag : Agree n n1 := fun k hk => (monAct_keep (fun g hg e => by
      have := mode_spin g; rw [hs g hg, e, hk] at this; exact absurd this (by decide)) hm).symm
    obtain ⟨n2, e1, e2⟩ := monAct_congr hr hag h
    simp only [Option.bind_some, e1, Option.map_some]
    have hsp : ∀ k, isSpin k = true → n2 k = n1 k := fun k hk => monAct_keep (fun g hg e => by
      have := mode_spin g; rw [hr g hg, e, hk] at this; exact absurd this (by decide)) e1
    by_cases hA : Agree n' t
    · rw [if_pos hA]
      by_cases h1 : n1 = mix n t
      · rw [if_pos h1, if_pos]
        funext k
        cases hk : isSpin k
        · rw [← e2 k hk, hA k hk]
        · rw [hsp k hk, h1]; simp [mix, hk]
      · rw [if_neg h1, if_neg, mul_zero]
        intro h2
        apply h1
        funext k
        unfold mix
        cases hk : isSpin k
        · simp [hag k hk]
        · simp [← h2, hsp k hk]
    · rw [if_neg hA, if_neg]
      rintro rfl
      exact hA e2

theorem topEl_append_none {r s : List (Gen ι)} (hr : ∀ g ∈ r, spinGen g = false) (hs : ∀ g ∈ s, spinGen g = true) {n : Config ι}
    (h : monAct top r n = none) (t : Config ι) : topEl (r ++ s) t n = 0 := by
  unfold topEl
  rw [monAct_append]
  cases hm : monAct top s n with
  | none => simp
  | some p =>
    obtain ⟨n1, x1⟩ := p
    have hag : Agree n1 n := fun k hk => (monAct_keep (fun g hg e => by
      have := mode_spin g; rw [hs g hg, e, hk] at this; exact absurd this (by decide)) hm)
    simp only [Option.bind_some]
    cases h2 : monAct top r n1 with
    | none => simp
    | some q =>
      obtain ⟨n2, e1, _⟩ := monAct_congr hr hag (n' := q.1) (x := q.2) h2
      rw [h] at e1; cases e1

/-! ### Spins 1/2 -/

/-- The matrix element of one spin operator (or none). -/
noncomputable def el : Option SpinComp → Nat → Nat → ℝ
  | none, x, y => if x = y then 1 else 0
  | some .plus, x, y => if x + 1 < 2 ∧ x + 1 = y then 1 else 0
  | some .minus, x, y => if x ≠ 0 ∧ x - 1 = y then 1 else 0
  | some .z, x, y => if x = y then (x : ℝ) - 1 / 2 else 0

/-- The spin operator at a site. -/
def comp : List (Gen ι) → ι → Option SpinComp
  | [], _ => none
  | .spin _ c j :: s, i => if i = j then some c else comp s i
  | _ :: s, i => comp s i

theorem el_own {i : ι} {c : SpinComp} {x : Nat} (hx : x ≤ 1) (y : Nat) :
    el (some c) x y = match own top (.spin 2 c i) x with
      | none => 0
      | some (y', a) => if y' = y then a else 0 := by
  have h12 : (1 / 2 : ℝ) * (1 / 2 + 1) - (0 - 1 / 2) * (0 - 1 / 2 + 1) = 1 := by norm_num
  have h12' : (1 / 2 : ℝ) * (1 / 2 + 1) - (1 - 1 / 2) * (1 - 1 / 2 - 1) = 1 := by norm_num
  have hS : spinS 2 = 1 / 2 := by norm_num [spinS]
  cases c
  · rcases (by omega : x = 0 ∨ x = 1) with rfl | rfl
    · simp only [el, own, hS]; norm_num
    · simp only [el, own, hS]; norm_num
  · rcases (by omega : x = 0 ∨ x = 1) with rfl | rfl
    · simp only [el, own, hS]; norm_num
    · simp only [el, own, hS]; norm_num
  · rcases (by omega : x = 0 ∨ x = 1) with rfl | rfl
    · simp only [el, own, hS]; norm_num
    · simp only [el, own, hS]; norm_num

/-- Spin-1/2 operators at different sites. -/
def Sites : List (Gen ι) → Prop
  | [] => True
  | .spin 2 _ j :: s => (∀ c, Gen.spin 2 c j ∉ s) ∧ Sites s
  | _ :: _ => False

theorem comp_none {s : List (Gen ι)} (hS : Sites s) {j : ι} (h : ∀ c, Gen.spin 2 c j ∉ s) : comp s j = none := by
  induction s with
  | nil => rfl
  | cons g s ih =>
    cases g with
    | fermion d i => exact hS.elim
    | boson d i => exact hS.elim
    | spin m c i =>
      have hm : m = 2 := by
        by_contra hne
        unfold Sites at hS
        split at hS
        · simp_all
        · simp_all
        · exact hS
      subst hm
      rw [comp, if_neg, ih hS.2 fun c hc => h c (by simp [hc])]
      rintro rfl
      exact h c (by simp)

theorem sites_mult {s : List (Gen ι)} (hS : Sites s) : ∀ g ∈ s, ∃ c i, g = .spin 2 c i := by
  induction s with
  | nil => simp
  | cons g s ih =>
    cases g with
    | fermion d i => exact hS.elim
    | boson d i => exact hS.elim
    | spin m c i =>
      have hm : m = 2 := by
        by_contra hne
        unfold Sites at hS
        split at hS
        · simp_all
        · simp_all
        · exact hS
      subst hm
      intro g hg
      rcases List.mem_cons.1 hg with rfl | hg
      · exact ⟨_, _, rfl⟩
      · exact ih hS.2 g hg

open Classical in
theorem topEl_spins {s : List (Gen ι)} (hS : Sites s) {D : Finset ι} (hD : ∀ c i, Gen.spin 2 c i ∈ s → i ∈ D) {n : Config ι}
    (hn : ∀ i ∈ D, n (.spin 2 i) ≤ 1) {t : Config ι} (ht : ∀ k, (∀ i ∈ D, k ≠ .spin 2 i) → n k = t k) :
    topEl s t n = ∏ i ∈ D, el (comp s i) (n (.spin 2 i)) (t (.spin 2 i)) := by
  induction s generalizing t with
  | nil =>
    unfold topEl
    simp only [monAct, comp, el]
    by_cases h : n = t
    · rw [if_pos h]; subst h; simp
    · rw [if_neg h]
      symm
      by_contra hne
      apply h
      funext k
      by_cases hk : ∀ i ∈ D, k ≠ .spin 2 i
      · exact ht k hk
      · push Not at hk
        obtain ⟨i, hi, rfl⟩ := hk
        have := Finset.prod_ne_zero_iff.1 hne i hi
        by_contra h'
        rw [if_neg h'] at this
        exact this rfl
  | cons g s ih =>
    obtain ⟨c, j, rfl⟩ := sites_mult hS g (by simp)
    have hj : j ∈ D := hD c j (by simp)
    have hfresh := hS.1
    have key : topEl (.spin 2 c j :: s) t n
        = el (some c) (n (.spin 2 j)) (t (.spin 2 j)) * topEl s (Function.update t (.spin 2 j) (n (.spin 2 j))) n := by
      unfold topEl
      rw [monAct]
      cases hm : monAct top s n with
      | none => simp
      | some p =>
        obtain ⟨n1, x1⟩ := p
        have hkeep : n1 (.spin 2 j) = n (.spin 2 j) := monAct_keep (fun g hg e => by
          obtain ⟨c', i', rfl⟩ := sites_mult hS.2 g hg
          simp only [Gen.mode, Mode.spin.injEq, true_and] at e
          subst e
          exact hfresh c' hg) hm
        simp only [Option.bind_some]
        rw [genAct_eq, show (Gen.spin 2 c j).mode = Mode.spin 2 j from rfl, hkeep, el_own (i := j) (hn j hj)]
        cases ho : own top (Gen.spin 2 c j) (n (.spin 2 j)) with
        | none => simp
        | some q =>
          obtain ⟨y, a⟩ := q
          simp only [Option.map_some, sgn, mul_one]
          by_cases hy : y = t (.spin 2 j)
          · rw [if_pos hy]
            by_cases h1 : n1 = Function.update t (.spin 2 j) (n (.spin 2 j))
            · rw [if_pos h1, if_pos]
              rw [h1, Function.update_idem, hy, Function.update_eq_self]
            · rw [if_neg h1, if_neg, mul_zero]
              intro h2
              apply h1
              rw [← h2, Function.update_idem, ← hkeep, Function.update_eq_self]
          · rw [if_neg hy, if_neg, zero_mul]
            intro h2
            apply hy
            rw [← h2, Function.update_self]
    have hno : comp s j = none := comp_none hS.2 hfresh
    rw [key, ih hS.2 (fun c i h => hD c i (by simp [h])) (t := Function.update t (.spin 2 j) (n (.spin 2 j))) (fun k hk => by
      rw [Function.update_of_ne (hk j hj), ht k hk])]
    rw [← Finset.mul_prod_erase D _ hj, ← Finset.mul_prod_erase D (fun i => el (comp (.spin 2 c j :: s) i) _ _) hj]
    rw [hno, Function.update_self]
    simp only [comp, if_true]
    rw [show el none (n (.spin 2 j)) (n (.spin 2 j)) = 1 by simp [el], one_mul]
    congr 1
    refine Finset.prod_congr rfl fun i hi => ?_
    have hne := Finset.ne_of_mem_erase hi
    rw [if_neg hne, Function.update_of_ne (by simpa using hne)]

/-! ### Reading off a spin operator -/

noncomputable def wt : Option SpinComp → Bool → ℝ
  | none, _ => 1
  | some .z, b => if b then 1 else -1
  | some .plus, b => if b then 0 else 1
  | some .minus, b => if b then 1 else 0
def tgt : Option SpinComp → Bool → Nat
  | some .plus, _ => 1
  | some .minus, _ => 0
  | _, b => b.toNat
noncomputable def nrm : Option SpinComp → ℝ
  | none => 2
  | some _ => 1

theorem nrm_ne (c : Option SpinComp) : nrm c ≠ 0 := by cases c <;> norm_num [nrm]
theorem tgt_le (c : Option SpinComp) (b : Bool) : tgt c b ≤ 1 := by
  cases b <;> (cases c with
    | none => decide
    | some c => cases c <;> decide)

theorem sum_wt (c0 c : Option SpinComp) : ∑ b : Bool, wt c0 b * el c b.toNat (tgt c0 b) = if c = c0 then nrm c0 else 0 := by
  rw [Fintype.sum_bool]
  cases c0 with
  | none =>
    cases c with
    | none => norm_num [wt, el, tgt, nrm]
    | some c => rw [if_neg (by simp)]; cases c <;> norm_num [wt, el, tgt, nrm]
  | some c0 =>
    cases c with
    | none => rw [if_neg (by simp)]; cases c0 <;> norm_num [wt, el, tgt, nrm]
    | some c =>
      by_cases h : c = c0
      · subst h; rw [if_pos rfl]; cases c <;> norm_num [wt, el, tgt, nrm]
      · rw [if_neg (by simpa using h)]
        cases c0 <;> cases c <;> first | exact absurd rfl h | norm_num [wt, el, tgt, nrm]

theorem split_unique {r s r₀ s₀ : List (Gen ι)} (hr : ∀ g ∈ r, spinGen g = false) (hs : ∀ g ∈ s, spinGen g = true)
    (hr₀ : ∀ g ∈ r₀, spinGen g = false) (hs₀ : ∀ g ∈ s₀, spinGen g = true) (e : r ++ s = r₀ ++ s₀) : r = r₀ ∧ s = s₀ := by
  induction r generalizing r₀ with
  | nil =>
    cases r₀ with
    | nil => exact ⟨rfl, e⟩
    | cons x r₀ =>
      have := hs x (by rw [List.nil_append] at e; rw [e]; simp)
      rw [hr₀ x (by simp)] at this; cases this
  | cons y r ih =>
    cases r₀ with
    | nil =>
      have := hs₀ y (by rw [List.nil_append] at e; rw [← e]; simp)
      rw [hr y (by simp)] at this; cases this
    | cons x r₀ =>
      rw [List.cons_append, List.cons_append, List.cons.injEq] at e
      obtain ⟨h1, h2⟩ := ih (fun g hg => hr g (by simp [hg])) (fun g hg => hr₀ g (by simp [hg])) e.2
      exact ⟨by rw [e.1, h1], h2⟩

/-! ### Canonical monomials -/

open Reg in
theorem split {m : List (Gen ι)} (h : CanonMon PH m) : ∃ r s, m = r ++ s ∧ (∀ g ∈ r, spinGen g = false) ∧
    (∀ g ∈ s, spinGen g = true) ∧ Sites s := by
  induction m with
  | nil => exact ⟨[], [], rfl, by simp, by simp, trivial⟩
  | cons g m ih =>
    obtain ⟨r, s, rfl, h1, h2, h3⟩ := ih (canon_tail h)
    cases hg : spinGen g
    · refine ⟨g :: r, s, rfl, ?_, h2, h3⟩
      intro x hx
      rcases List.mem_cons.1 hx with rfl | hx
      · exact hg
      · exact h1 x hx
    · have hr : r = [] := by
        cases r with
        | nil => rfl
        | cons x r =>
          have hx := h1 x (by simp)
          have := ngt_of_mem h (x := x) (by simp)
          cases g <;> cases x <;> simp [spinGen] at hg hx <;> simp [GenOps.gt, Gen.gtOp, Gen.algebraId] at this
      subst hr
      refine ⟨[], g :: s, rfl, by simp, ?_, ?_⟩
      · intro x hx
        rcases List.mem_cons.1 hx with rfl | hx
        · exact hg
        · exact h2 x hx
      · cases g with
        | fermion d i => simp [spinGen] at hg
        | boson d i => simp [spinGen] at hg
        | spin n c i =>
          have hn : n = 2 := h.mem (.spin n c i) (by simp)
          subst hn
          exact ⟨fun c' => spin_fresh h, h3⟩

theorem no_of_canon {m : List (Gen ι)} (h : CanonMon Reg.PH m) {k : Mode ι} (hk : isSpin k = false) : NO k m := by
  refine (pairwise_of_chain h.chain).imp fun {a b} hab e => ?_
  obtain ⟨rfl, rfl⟩ := e
  cases k <;> simp [isSpin] at hk <;> simp [GenOps.gt, Gen.gtOp, Gen.greater, Gen.algebraId, lower, raise] at hab

open Reg in
theorem fermion_once {m : List (Gen ι)} (h : CanonMon PH m) (d : Bool) (i : ι) : m.count (.fermion d i) ≤ 1 := by
  induction m with
  | nil => simp
  | cons g m ih =>
    rw [List.count_cons]
    by_cases hg : g = .fermion d i
    · subst hg
      rw [List.count_eq_zero.2 (fermion_fresh h)]; simp
    · simp only [beq_iff_eq, hg, if_false, add_zero]; exact ih (canon_tail h)

theorem canon_of_count {m₁ m₂ : List (Gen ι)} (h₁ : CanonMon Reg.PH m₁) (h₂ : CanonMon Reg.PH m₂)
    (h : ∀ g, m₁.count g = m₂.count g) : m₁ = m₂ :=
  List.Perm.eq_of_pairwise (le := fun a b => GenOps.gt a b = false)
    (fun a b _ _ h h' => ngt_antisymm h h') (pairwise_of_chain h₁.chain) (pairwise_of_chain h₂.chain) (List.perm_iff_count.2 h)

theorem count_comp {s : List (Gen ι)} (hS : Sites s) (c : SpinComp) (i : ι) :
    s.count (.spin 2 c i) = if comp s i = some c then 1 else 0 := by
  induction s with
  | nil => simp [comp]
  | cons g s ih =>
    obtain ⟨c', j, rfl⟩ := sites_mult hS g (by simp)
    rw [List.count_cons, ih hS.2]
    by_cases hij : i = j
    · subst hij
      rw [comp_none hS.2 hS.1]
      simp only [comp, if_true, Option.some.injEq, beq_iff_eq, Gen.spin.injEq, true_and, and_true]
      simp
    · simp only [comp, if_neg hij, beq_iff_eq, Gen.spin.injEq, true_and]
      simp [Ne.symm hij]

/-- Annihilation operators of fermions and bosons. -/
def isAnn : Gen ι → Bool
  | .fermion d _ => !d
  | .boson d _ => !d
  | .spin _ _ _ => false

theorem isAnn_iff {g : Gen ι} : isAnn g = true ↔ ∃ k, isSpin k = false ∧ g = lower k := by
  constructor
  · intro h
    cases g with
    | fermion d i => simp [isAnn] at h; subst h; exact ⟨.fermion i, rfl, rfl⟩
    | boson d i => simp [isAnn] at h; subst h; exact ⟨.boson i, rfl, rfl⟩
    | spin m c i => simp [isAnn] at h
  · rintro ⟨k, hk, rfl⟩
    cases k <;> simp [isSpin] at hk <;> rfl

/-- With fewer annihilation operators in every mode, but not fewer in total, the annihilation operators are the same. -/
theorem ann_eq {m m₀ : List (Gen ι)} (hle : ∀ k, isSpin k = false → m.count (lower k) ≤ m₀.count (lower k))
    (htot : m₀.countP isAnn ≤ m.countP isAnn) {k : Mode ι} (hk : isSpin k = false) : m.count (lower k) = m₀.count (lower k) := by
  have hf : ∀ (l : List (Gen ι)) k, isSpin k = false → (l.filter isAnn).count (lower k) = l.count (lower k) := by
    intro l k hk
    rw [List.count_filter (isAnn_iff.2 ⟨k, hk, rfl⟩)]
  have hsub : (m.filter isAnn).Subperm (m₀.filter isAnn) := by
    rw [List.subperm_ext_iff]
    intro g hg
    obtain ⟨k, hk, rfl⟩ := isAnn_iff.1 (List.mem_filter.1 hg).2
    rw [hf _ k hk, hf _ k hk]
    exact hle k hk
  have hperm := hsub.perm_of_length_le (by rw [← List.countP_eq_length_filter, ← List.countP_eq_length_filter]; exact htot)
  rw [← hf m k hk, ← hf m₀ k hk]
  exact List.perm_iff_count.1 hperm _

/-! ### Reading off a coefficient -/

section extract
variable (D : Finset ι) (m₀ : List (Gen ι))

/-- Initial states. -/
def iniC (σ : D → Bool) : Config ι
  | .fermion i => m₀.count (.fermion false i)
  | .boson i => m₀.count (.boson false i)
  | .spin m i => if h : m = 2 ∧ i ∈ D then (σ ⟨i, h.2⟩).toNat else 0

/-- Final states. -/
def finC (s₀ : List (Gen ι)) (σ : D → Bool) : Config ι
  | .fermion i => m₀.count (.fermion true i)
  | .boson i => m₀.count (.boson true i)
  | .spin m i => if h : m = 2 ∧ i ∈ D then tgt (comp s₀ i) (σ ⟨i, h.2⟩) else 0

noncomputable def weight (s₀ : List (Gen ι)) (σ : D → Bool) : ℝ := ∏ i : D, wt (comp s₀ i) (σ i)

theorem iniC_lower (σ : D → Bool) {k : Mode ι} (hk : isSpin k = false) : iniC D m₀ σ k = m₀.count (lower k) := by
  cases k <;> simp [isSpin] at hk <;> rfl
theorem finC_raise (s₀ : List (Gen ι)) (σ : D → Bool) {k : Mode ι} (hk : isSpin k = false) : finC D m₀ s₀ σ k = m₀.count (raise k) := by
  cases k <;> simp [isSpin] at hk <;> rfl

variable {D m₀}

theorem count_nonspin {r s : List (Gen ι)} (hs : ∀ g ∈ s, spinGen g = true) {g : Gen ι} (hg : spinGen g = false) :
    (r ++ s).count g = r.count g := by
  have : s.count g = 0 := List.count_eq_zero.2 fun h => by rw [hs g h] at hg; cases hg
  rw [List.count_append, this, add_zero]

theorem spin_lower {k : Mode ι} (hk : isSpin k = false) : spinGen (lower k) = false := by cases k <;> simp [isSpin] at hk <;> rfl
theorem spin_raise {k : Mode ι} (hk : isSpin k = false) : spinGen (raise k) = false := by cases k <;> simp [isSpin] at hk <;> rfl

theorem sum_spins {s s₀ : List (Gen ι)} (hS : Sites s) (hD : ∀ c i, Gen.spin 2 c i ∈ s → i ∈ D) :
    ∑ σ : D → Bool, weight D s₀ σ * topEl s (mix (iniC D m₀ σ) (finC D m₀ s₀ σ)) (iniC D m₀ σ)
      = ∏ i : D, if comp s i = comp s₀ i then nrm (comp s₀ i) else 0 := by
  have h1 : ∀ σ : D → Bool, topEl s (mix (iniC D m₀ σ) (finC D m₀ s₀ σ)) (iniC D m₀ σ)
      = ∏ i : D, el (comp s i) (σ i).toNat (tgt (comp s₀ i) (σ i)) := by
    intro σ
    rw [topEl_spins hS hD (n := iniC D m₀ σ) (t := mix (iniC D m₀ σ) (finC D m₀ s₀ σ)) (fun i hi => by
      simp only [iniC, hi, and_self, dif_pos]; cases σ ⟨i, hi⟩ <;> decide) (fun k hk => by
      unfold mix
      cases k with
      | fermion i => rfl
      | boson i => rfl
      | spin m i =>
        simp only [isSpin, if_true, iniC, finC]
        have : ¬ (m = 2 ∧ i ∈ D) := by rintro ⟨rfl, hi⟩; exact hk i hi rfl
        rw [dif_neg this, dif_neg this])]
    rw [← Finset.prod_coe_sort]
    refine Finset.prod_congr rfl fun i _ => ?_
    simp [mix, isSpin, iniC, finC]
  simp only [h1, weight, ← Finset.prod_mul_distrib]
  rw [← Fintype.piFinset_univ, ← Finset.prod_univ_sum (fun _ => Finset.univ) (fun (i : D) b => wt (comp s₀ i) b * el (comp s i) b.toNat (tgt (comp s₀ i) b))]
  exact Finset.prod_congr rfl fun i _ => sum_wt _ _

theorem extract (h₀ : CanonMon Reg.PH m₀) (hD₀ : ∀ c i, Gen.spin 2 c i ∈ m₀ → i ∈ D) :
    ∃ (s₀ : List (Gen ι)) (K : ℝ), K ≠ 0 ∧ ∀ m, CanonMon Reg.PH m → (∀ c i, Gen.spin 2 c i ∈ m → i ∈ D) →
      m₀.countP isAnn ≤ m.countP isAnn →
      ∑ σ : D → Bool, weight D s₀ σ * topEl m (finC D m₀ s₀ σ) (iniC D m₀ σ) = if m = m₀ then K else 0 := by
  classical
  obtain ⟨r₀, s₀, e₀, hr₀, hs₀, hS₀⟩ := split h₀
  have hno : ∀ {m r s : List (Gen ι)}, CanonMon Reg.PH m → m = r ++ s → ∀ k, isSpin k = false → NO k r := by
    intro m r s hm e k hk
    have := no_of_canon hm hk
    rw [e] at this
    exact (List.pairwise_append.1 this).1
  let ref : D → Bool := fun _ => false
  have hagI : ∀ σ σ', Agree (iniC D m₀ σ) (iniC D m₀ σ') := fun σ σ' k hk => by rw [iniC_lower D m₀ σ hk, iniC_lower D m₀ σ' hk]
  have hagF : ∀ σ σ', Agree (finC D m₀ s₀ σ) (finC D m₀ s₀ σ') := fun σ σ' k hk => by rw [finC_raise D m₀ s₀ σ hk, finC_raise D m₀ s₀ σ' hk]
  obtain ⟨n₀, x₀, hx₀, hx₀'⟩ := monAct_exists (m := r₀) (n := iniC D m₀ ref) hr₀ (hno h₀ e₀)
    (fun k hk => by rw [iniC_lower D m₀ ref hk, e₀, count_nonspin hs₀ (spin_lower hk)])
    (fun i => by
      have a := fermion_once h₀ false i
      have b := fermion_once h₀ true i
      have c : m₀.count (.fermion true i) = r₀.count (.fermion true i) := by rw [e₀]; exact count_nonspin hs₀ rfl
      have d : m₀.count (.fermion false i) = r₀.count (.fermion false i) := by rw [e₀]; exact count_nonspin hs₀ rfl
      simp only [iniC]
      omega)
  refine ⟨s₀, x₀ * ∏ i : D, nrm (comp s₀ i), mul_ne_zero hx₀' (Finset.prod_ne_zero_iff.2 fun i _ => nrm_ne _), fun m hm hD htot => ?_⟩
  obtain ⟨r, s, e, hr, hs, hS⟩ := split hm
  have hDs : ∀ c i, Gen.spin 2 c i ∈ s → i ∈ D := fun c i h => hD c i (by rw [e]; simp [h])
  cases ha : monAct top r (iniC D m₀ ref) with
  | none =>
    have hne : m ≠ m₀ := by
      rintro rfl
      have : r = r₀ := (split_unique hr hs hr₀ hs₀ (e ▸ e₀)).1
      rw [this, hx₀] at ha
      cases ha
    rw [if_neg hne]
    refine Finset.sum_eq_zero fun σ _ => ?_
    rw [e, topEl_append_none hr hs, mul_zero]
    cases hb : monAct top r (iniC D m₀ σ) with
    | none => rfl
    | some q =>
      obtain ⟨n', h1, _⟩ := monAct_congr hr (hagI σ ref) (n' := q.1) (x := q.2) hb
      rw [ha] at h1; cases h1
  | some p =>
    obtain ⟨n', x⟩ := p
    have hterm : ∀ σ, topEl m (finC D m₀ s₀ σ) (iniC D m₀ σ) = if Agree n' (finC D m₀ s₀ ref) then
        x * topEl s (mix (iniC D m₀ σ) (finC D m₀ s₀ σ)) (iniC D m₀ σ) else 0 := by
      intro σ
      obtain ⟨n'', h1, h2⟩ := monAct_congr hr (hagI ref σ) ha
      rw [e, topEl_append hr hs h1]
      refine if_congr ⟨fun h k hk => ?_, fun h k hk => ?_⟩ rfl rfl
      · rw [h2 k hk, h k hk, hagF σ ref k hk]
      · rw [← h2 k hk, h k hk, hagF ref σ k hk]
    simp only [hterm]
    by_cases hA : Agree n' (finC D m₀ s₀ ref)
    · simp only [if_pos hA, mul_left_comm _ x]
      rw [← Finset.mul_sum, sum_spins hS hDs]
      have hle : ∀ k, isSpin k = false → m.count (lower k) ≤ m₀.count (lower k) := fun k hk => by
        rw [e, count_nonspin hs (spin_lower hk), ← iniC_lower D m₀ ref hk]
        exact monAct_ann_le (hno hm e k hk) ha
      have hlow := fun k hk => ann_eq hle htot (k := k) hk
      have hcnt : ∀ k, isSpin k = false → m.count (raise k) = m₀.count (raise k) := by
        intro k hk
        have h1 := monAct_count ha k
        rw [hA k hk, finC_raise D m₀ s₀ ref hk, iniC_lower D m₀ ref hk] at h1
        have h2 := hlow k hk
        have h3 : m.count (lower k) = r.count (lower k) := by rw [e]; exact count_nonspin hs (spin_lower hk)
        have h4 : m.count (raise k) = r.count (raise k) := by rw [e]; exact count_nonspin hs (spin_raise hk)
        omega
      by_cases hc : ∀ i : D, comp s i = comp s₀ i
      · have hcs : ∀ i, comp s i = comp s₀ i := by
          intro i
          by_cases hi : i ∈ D
          · exact hc ⟨i, hi⟩
          · rw [comp_none hS fun c h => hi (hDs c i h), comp_none hS₀ fun c h => hi (hD₀ c i (by rw [e₀]; simp [h]))]
        have hmm : m = m₀ := by
          refine canon_of_count hm h₀ fun g => ?_
          cases g with
          | fermion d i => cases d
                           · exact hlow (.fermion i) rfl
                           · exact hcnt (.fermion i) rfl
          | boson d i => cases d
                         · exact hlow (.boson i) rfl
                         · exact hcnt (.boson i) rfl
          | spin n c i =>
            by_cases hn : n = 2
            · subst hn
              have hz : ∀ {r : List (Gen ι)}, (∀ g ∈ r, spinGen g = false) → r.count (.spin 2 c i) = 0 := fun hr =>
                List.count_eq_zero.2 fun h => by have := hr _ h; simp [spinGen] at this
              rw [e, e₀, List.count_append, List.count_append, hz hr, hz hr₀, count_comp hS, count_comp hS₀, hcs]
            · have hz : ∀ {l : List (Gen ι)}, CanonMon Reg.PH l → l.count (.spin n c i) = 0 := fun hl =>
                List.count_eq_zero.2 fun h => hn (hl.mem (.spin n c i) h)
              rw [hz hm, hz h₀]
        have hxx : x = x₀ := by
          have hrr : r = r₀ := (split_unique hr hs hr₀ hs₀ (by rw [← e, ← e₀, hmm])).1
          rw [hrr, hx₀] at ha
          simp only [Option.some.injEq, Prod.mk.injEq] at ha
          exact ha.2.symm
        rw [if_pos hmm, hxx]
        congr 1
        exact Finset.prod_congr rfl fun i _ => if_pos (hcs _)
      · push Not at hc
        obtain ⟨i, hi⟩ := hc
        rw [Finset.prod_eq_zero (Finset.mem_univ i) (if_neg hi), mul_zero, if_neg]
        rintro rfl
        apply hi
        have hss : s = s₀ := (split_unique hr hs hr₀ hs₀ (e ▸ e₀)).2
        rw [hss]
    · simp only [if_neg hA, mul_zero, Finset.sum_const_zero]
      rw [if_neg]
      rintro rfl
      apply hA
      intro k hk
      have h1 := monAct_count ha k
      rw [iniC_lower D m ref hk] at h1
      rw [finC_raise D m s₀ ref hk]
      have h3 : m.count (lower k) = r.count (lower k) := by conv_lhs => rw [e]
                                                            exact count_nonspin hs (spin_lower hk)
      have h4 : m.count (raise k) = r.count (raise k) := by conv_lhs => rw [e]
                                                            exact count_nonspin hs (spin_raise hk)
      omega

end extract

/-! ### Basis states with given occupation numbers -/

theorem valid_zero (hc : Constructed hs) : ValidState hs 0 := by
  refine ⟨Nat.two_pow_pos _, fun p hp => ?_⟩
  obtain ⟨l, hf, rfl⟩ := hc.canon
  rw [canon_spaces] at hp
  have : p.1 ∈ l := by
    have := List.mem_map_of_mem (f := Prod.fst) hp
    rw [layout_fst] at this
    exact this
  simpa using (hf.wf _ this).dim_pos

open Classical in
theorem exists_on (hc : Constructed hs) (n : Config ι) (hn : ∀ k d, hs.dimOf k.space = .ok d → n k < d) (ks : List (Mode ι))
    (hks : ∀ k ∈ ks, hs.has k.space = true) :
    ∃ t, ValidState hs t ∧ (conf hs t = fun k => if k ∈ ks then n k else 0) ∧ ∀ es : ESpace ι, es.Foreign → occ hs t es = 0 := by
  induction ks with
  | nil =>
    refine ⟨0, valid_zero hc, ?_, ?_⟩
    · funext k
      simp [conf, occ]
      split <;> simp
    · intro es _
      unfold occ
      split <;> simp
  | cons k ks ih =>
    obtain ⟨t, h1, h2, h3⟩ := ih fun k hk => hks k (by simp [hk])
    obtain ⟨f, nb, d, hl⟩ := loc_of_has hc (hks k (by simp))
    obtain ⟨h4, h5⟩ := setField_valid hc hl h1 (hn k d hl.dimOf)
    refine ⟨_, h4, ?_, fun es hes => ?_⟩
    · funext k'
      have h2' := congrFun h2 k'
      unfold conf at h2' ⊢
      rw [h5]
      by_cases hk : k' = k
      · subst hk; simp
      · rw [if_neg fun e => hk (Mode.space_inj e), h2']
        simp [hk]
    · rw [h5, if_neg, h3 es hes]
      intro e
      rw [ESpace.key_eq_iff] at e
      obtain ⟨e1, _, _⟩ := e
      unfold ESpace.Foreign at hes
      cases k <;> simp_all [Mode.space, ESpace.fermion, ESpace.boson, ESpace.spin]

theorem exists_state (hc : Constructed hs) (n : Config ι) (hn : ∀ k d, hs.dimOf k.space = .ok d → n k < d)
    (h0 : ∀ k, hs.has k.space = false → n k = 0) :
    ∃ t, ValidState hs t ∧ conf hs t = n ∧ ∀ es : ESpace ι, es.Foreign → occ hs t es = 0 := by
  classical
  let all : List (Mode ι) := (hs.elementarySpaces.flatMap fun es => [.fermion es.indices, .boson es.indices, .spin es.mult es.indices]).filter
    fun k => hs.has k.space
  obtain ⟨t, h1, h2, h3⟩ := exists_on hc n hn all (fun k hk => (List.mem_filter.1 hk).2)
  refine ⟨t, h1, ?_, h3⟩
  rw [h2]
  funext k
  by_cases hk : hs.has k.space = true
  · rw [if_pos]
    refine List.mem_filter.2 ⟨?_, hk⟩
    obtain ⟨f, nb, d, hl⟩ := loc_of_has hc hk
    obtain ⟨e, he, hkey, _, _⟩ := hl.mem
    rw [ESpace.key_eq_iff] at hkey
    refine List.mem_flatMap.2 ⟨e, List.mem_map.2 ⟨_, he, rfl⟩, ?_⟩
    rw [hkey.2.1, hkey.2.2]
    cases k <;> simp [Mode.space, ESpace.fermion, ESpace.boson, ESpace.spin]
  · rw [Bool.not_eq_true] at hk
    rw [h0 k hk, ite_self]

theorem dim_fermion (hc : Constructed hs) (hpre : PredefinedSpaces hs) {i : ι} {d : Nat}
    (h : hs.dimOf (Mode.fermion i : Mode ι).space = .ok d) (hh : hs.has (Mode.fermion i : Mode ι).space = true) : d = 2 := by
  obtain ⟨f, nb, d', hl⟩ := loc_of_has hc hh
  have hdd : d' = d := by have := hl.dimOf; rw [h] at this; cases this; rfl
  obtain ⟨e, he, hk, hd, hb⟩ := hl.mem
  obtain ⟨p1, _, _⟩ := hpre e (List.mem_map.2 ⟨_, he, rfl⟩)
  have hid : e.algebraId = -3 := by rw [ESpace.key_eq_iff] at hk; exact hk.1
  obtain ⟨j, rfl⟩ := p1 hid
  rw [← hdd]; exact hd.symm

theorem dim_spin (hc : Constructed hs) (hpre : PredefinedSpaces hs) {m : Nat} {i : ι} {d : Nat}
    (h : hs.dimOf (Mode.spin m i : Mode ι).space = .ok d) (hh : hs.has (Mode.spin m i : Mode ι).space = true) : d = m := by
  obtain ⟨f, nb, d', hl⟩ := loc_of_has hc hh
  have hdd : d' = d := by have := hl.dimOf; rw [h] at this; cases this; rfl
  obtain ⟨e, he, hk, hd, hb⟩ := hl.mem
  obtain ⟨_, _, p1⟩ := hpre e (List.mem_map.2 ⟨_, he, rfl⟩)
  rw [ESpace.key_eq_iff] at hk
  obtain ⟨m', j, _, rfl⟩ := p1 hk.1
  have hm : (Mode.spin m' j : Mode ι) = .spin m i := Mode.space_inj ((ESpace.key_eq_iff _ _).2 hk)
  cases hm
  rw [← hdd]; exact hd.symm

theorem has_of_dim {es : ESpace ι} {d : Nat} (h : hs.dimOf es = .ok d) : hs.has es = true := by
  unfold HilbertSpace.dimOf at h
  unfold HilbertSpace.has
  cases hf : findSpace es hs.spaces with
  | none => rw [hf] at h; cases h
  | some p => rfl

open Classical in
theorem matEl_top (hc : Constructed hs) {m : List (Gen ι)} (hno : NormalOrdered m)
    (hB : ∀ d i, Gen.boson d i ∈ m → HasBoson hs i) {t k : Nat} (ht : ValidState hs t) (hk : ValidState hs k) (hsf : SameForeign hs t k) :
    matEl hs m t k = topEl m (conf hs t) (conf hs k) := by
  unfold matEl topEl
  rw [monAct_trunc hno hB (conf_within hc hk)]
  cases monAct (fun _ => ⊤) m (conf hs k) with
  | none => rfl
  | some p =>
    obtain ⟨n, x⟩ := p
    simp only
    by_cases hw : Within (HasBoson hs) (bosonDims hs) n
    · rw [if_pos hw]
      simp only
      refine if_congr ⟨fun h => h.1.symm, fun h => ⟨h.symm, hsf⟩⟩ rfl rfl
    · rw [if_neg hw]
      symm
      exact if_neg (fun e : n = conf hs t => hw (e ▸ conf_within hc ht))

/-! ### The main lemma -/

section
variable [CommRing S] [DecidableEq S] [ConstScalar S] [ScalarLaws S] [Algebra ℝ S]

abbrev On (hs : HilbertSpace ι) : Gen ι → Prop := AllowedOn (fun n (_ : ι) => n = 2) fun k => hs.has k.space = true

theorem canon_weaken {m : List (Gen ι)} (h : CanonMon (On hs) m) : CanonMon Reg.PH m :=
  ⟨fun g hg => (h.mem g hg).1, h.chain, h.pow⟩

/-- Every bosonic generator occurs less often than the number of states of its mode. -/
def FewBosons (hs : HilbertSpace ι) (e : Expr (Gen ι) S) : Prop :=
  ∀ p ∈ e.terms, ∀ dag i d, hs.dimOf (ESpace.boson 1 i) = .ok d → p.1.count (.boson dag i) < d

theorem empty_of_matEl (hc : Constructed hs) (hpre : PredefinedSpaces hs) {e : Expr (Gen ι) S} (hw : e.WF)
    (hcan : e.AllCanon (On hs)) (hb : FewBosons hs e)
    (h0 : ∀ t k, ValidState hs t → ValidState hs k → opEl hs e t k = 0) : e.terms = [] := by
  classical
  by_contra hne
  obtain ⟨p, hp, hmin⟩ : ∃ p ∈ e.terms, ∀ q ∈ e.terms, p.1.countP isAnn ≤ q.1.countP isAnn := by
    obtain ⟨x, hx⟩ := List.exists_mem_of_ne_nil _ hne
    obtain ⟨p, hp, h⟩ := e.terms.toFinset.exists_min_image (fun p => p.1.countP isAnn) ⟨x, List.mem_toFinset.2 hx⟩
    exact ⟨p, List.mem_toFinset.1 hp, fun q hq => h q (List.mem_toFinset.2 hq)⟩
  let site : Gen ι → List ι := fun | .spin _ _ i => [i] | _ => []
  let D : Finset ι := (e.terms.flatMap fun q => q.1.flatMap site).toFinset
  have hD : ∀ q ∈ e.terms, ∀ c i, Gen.spin 2 c i ∈ q.1 → i ∈ D := fun q hq c i h =>
    List.mem_toFinset.2 (List.mem_flatMap.2 ⟨q, hq, List.mem_flatMap.2 ⟨_, h, by simp [site]⟩⟩)
  have hDhas : ∀ i ∈ D, hs.has (Mode.spin 2 i : Mode ι).space = true := by
    intro i hi
    obtain ⟨q, hq, h⟩ := List.mem_flatMap.1 (List.mem_toFinset.1 hi)
    obtain ⟨g, hg, h⟩ := List.mem_flatMap.1 h
    have hm := (hcan q hq).mem g hg
    cases g with
    | fermion d j => simp [site] at h
    | boson d j => simp [site] at h
    | spin n c j =>
      simp only [site, List.mem_singleton] at h
      subst h
      have h1 : n = 2 := hm.1
      subst h1
      exact hm.2
  obtain ⟨s₀, K, hK, hex⟩ := extract (D := D) (m₀ := p.1) (canon_weaken (hcan p hp)) (hD p hp)
  have hcount : ∀ k : Mode ι, hs.has k.space = false → ∀ g : Gen ι, g.mode = k → p.1.count g = 0 := by
    intro k hk g hg
    refine List.count_eq_zero.2 fun h => ?_
    have := ((hcan p hp).mem g h).2
    rw [hg, hk] at this
    cases this
  have hstate : ∀ n : Config ι, (∀ i, ∃ dag, n (.fermion i) = p.1.count (.fermion dag i)) →
      (∀ i, ∃ dag, n (.boson i) = p.1.count (.boson dag i)) →
      (∀ m i, n (.spin m i) ≤ 1 ∧ (¬ (m = 2 ∧ i ∈ D) → n (.spin m i) = 0)) →
      ∃ t, ValidState hs t ∧ conf hs t = n ∧ ∀ es : ESpace ι, es.Foreign → occ hs t es = 0 := by
    intro n hf hbo hsp
    refine exists_state hc n (fun k d hd => ?_) (fun k hk => ?_)
    · cases k with
      | fermion i =>
        obtain ⟨dag, h⟩ := hf i
        rw [dim_fermion hc hpre hd (has_of_dim hd), h]
        have := fermion_once (canon_weaken (hcan p hp)) dag i
        omega
      | boson i =>
        obtain ⟨dag, h⟩ := hbo i
        rw [h]
        exact hb p hp dag i d hd
      | spin m i =>
        have hdm := dim_spin hc hpre hd (has_of_dim hd)
        obtain ⟨h1, h2⟩ := hsp m i
        by_cases hm : m = 2 ∧ i ∈ D
        · rw [hdm, hm.1]; rw [hm.1] at h1; omega
        · rw [h2 hm]
          obtain ⟨f, nb, d', hl⟩ := loc_of_has hc (has_of_dim hd)
          have := hl.pos
          have hdd := hl.dimOf
          rw [hd] at hdd
          cases hdd
          exact this
    · cases k with
      | fermion i => obtain ⟨dag, h⟩ := hf i; rw [h]; exact hcount _ hk _ rfl
      | boson i => obtain ⟨dag, h⟩ := hbo i; rw [h]; exact hcount _ hk _ rfl
      | spin m i =>
        refine (hsp m i).2 ?_
        rintro ⟨rfl, hi⟩
        rw [hDhas i hi] at hk
        cases hk
  have hini : ∀ σ : D → Bool, ∃ k, ValidState hs k ∧ conf hs k = iniC D p.1 σ ∧ ∀ es : ESpace ι, es.Foreign → occ hs k es = 0 := by
    intro σ
    refine hstate _ (fun i => ⟨false, rfl⟩) (fun i => ⟨false, rfl⟩) fun m i => ?_
    simp only [iniC]
    split
    · rename_i h
      exact ⟨by cases σ ⟨i, h.2⟩ <;> decide, fun h' => absurd h h'⟩
    · exact ⟨by omega, fun _ => rfl⟩
  have hfin : ∀ σ : D → Bool, ∃ k, ValidState hs k ∧ conf hs k = finC D p.1 s₀ σ ∧ ∀ es : ESpace ι, es.Foreign → occ hs k es = 0 := by
    intro σ
    refine hstate _ (fun i => ⟨true, rfl⟩) (fun i => ⟨true, rfl⟩) fun m i => ?_
    simp only [finC]
    split
    · rename_i h
      exact ⟨tgt_le _ _, fun h' => absurd h h'⟩
    · exact ⟨by omega, fun _ => rfl⟩
  have hz : ∀ σ : D → Bool, (e.terms.map fun q => q.2 * algebraMap ℝ S (topEl q.1 (finC D p.1 s₀ σ) (iniC D p.1 σ))).sum = 0 := by
    intro σ
    obtain ⟨k, k1, k2, k3⟩ := hini σ
    obtain ⟨t, t1, t2, t3⟩ := hfin σ
    have h1 := h0 t k t1 k1
    unfold opEl at h1
    rw [← h1]
    refine congrArg List.sum (List.map_congr_left fun q hq => ?_)
    have hq' := hcan q hq
    rw [matEl_top hc (normalOrdered_of_chain hq'.chain) (fun d i h => (hq'.mem _ h).2) t1 k1
      (fun es hes => by rw [t3 es hes, k3 es hes]), t2, k2]
  have hswap : ∀ l : List (List (Gen ι) × S), ∑ σ : D → Bool, algebraMap ℝ S (weight D s₀ σ) *
      (l.map fun q => q.2 * algebraMap ℝ S (topEl q.1 (finC D p.1 s₀ σ) (iniC D p.1 σ))).sum
      = (l.map fun q => q.2 * algebraMap ℝ S (∑ σ : D → Bool, weight D s₀ σ * topEl q.1 (finC D p.1 s₀ σ) (iniC D p.1 σ))).sum := by
    intro l
    induction l with
    | nil => simp
    | cons q l ih =>
      simp only [List.map_cons, List.sum_cons, mul_add, Finset.sum_add_distrib]
      rw [ih, map_sum, Finset.mul_sum]
      congr 1
      refine Finset.sum_congr rfl fun σ _ => ?_
      rw [map_mul]; ring
  have hsum := hswap e.terms
  simp only [hz, mul_zero, Finset.sum_const_zero] at hsum
  have hcoef : (e.terms.map fun q => q.2 * algebraMap ℝ S (∑ σ : D → Bool, weight D s₀ σ * topEl q.1 (finC D p.1 s₀ σ) (iniC D p.1 σ))).sum
      = e.coeff p.1 * algebraMap ℝ S K := by
    rw [coeff_eq_evalWith hw, Terms.evalWith]
    have : ∀ l : List (List (Gen ι) × S), (∀ q ∈ l, q ∈ e.terms) →
        (l.map fun q => q.2 * algebraMap ℝ S (∑ σ : D → Bool, weight D s₀ σ * topEl q.1 (finC D p.1 s₀ σ) (iniC D p.1 σ))).sum
        = (l.map fun q => q.2 • if p.1 = q.1 then (1 : S) else 0).sum * algebraMap ℝ S K := by
      intro l hl
      induction l with
      | nil => simp
      | cons q l ih =>
        simp only [List.map_cons, List.sum_cons]
        rw [ih fun q hq => hl q (by simp [hq]), add_mul]
        congr 1
        have hq := hl q (by simp)
        rw [hex q.1 (canon_weaken (hcan q hq)) (hD q hq) (hmin q hq)]
        by_cases h : q.1 = p.1
        · rw [if_pos h, if_pos h.symm, smul_eq_mul, mul_one]
        · rw [if_neg h, if_neg (fun e => h e.symm), smul_zero, map_zero, mul_zero, zero_mul]
    refine (this e.terms fun q hq => hq).trans ?_
    congr 2
    refine List.map_congr_left fun q _ => ?_
    by_cases h : p.1 = q.1 <;> simp [h]
  have hpc : e.coeff p.1 = p.2 := by
    rw [coeff, Terms.coeff, Terms.find?_of_mem hw.1 hp]; rfl
  rw [hcoef, hpc] at hsum
  have hunit : algebraMap ℝ S K * algebraMap ℝ S K⁻¹ = 1 := by rw [← map_mul, mul_inv_cancel₀ hK, map_one]
  have : p.2 = 0 := by
    have := congrArg (· * algebraMap ℝ S K⁻¹) hsum
    simp only [zero_mul, mul_assoc, hunit, mul_one] at this
    exact this.symm
  exact hw.2 p hp this

end

end LC.MatF
