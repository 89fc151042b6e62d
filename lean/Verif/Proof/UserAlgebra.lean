import Mathlib.Tactic.LinearCombination
import Mathlib.Algebra.Star.BigOperators
import Mathlib.Algebra.Star.Module
import Verif.Spec.UserAlgebra
import Verif.Proof.Member
import Verif.Proof.Predefined
import Verif.Proof.Conj
/-
User-defined algebras next to the predefined ones: order, relations, normal forms, conjugation.
-/
set_option linter.unusedSectionVars false
set_option linter.unusedSimpArgs false
set_option linter.unusedVariables false
namespace LC
open Terms

namespace AllGen
variable {ι U : Type _} [LinearOrder ι] [UserGen U]

theorem pre_id (g : Gen ι) : g.algebraId < 0 := by cases g <;> simp [Gen.algebraId]

theorem ltOp_iff (a b : AllGen ι U) : ltOp a b = true ↔
    a.algebraId < b.algebraId ∨ (a.algebraId = b.algebraId ∧ less a b = true) := by
  simp only [ltOp, bne_iff_ne, ne_eq]
  split
  · simp; tauto
  · rename_i h; rw [not_not] at h; simp [h]

theorem gtOp_iff (a b : AllGen ι U) : gtOp a b = true ↔
    b.algebraId < a.algebraId ∨ (a.algebraId = b.algebraId ∧ greater a b = true) := by
  simp only [gtOp, bne_iff_ne, ne_eq]
  split
  · simp; tauto
  · rename_i h; rw [not_not] at h; simp [h]

theorem gen_ltOp_iff (a b : Gen ι) : Gen.ltOp a b = true ↔
    a.algebraId < b.algebraId ∨ (a.algebraId = b.algebraId ∧ Gen.less a b = true) := by
  simp only [Gen.ltOp, bne_iff_ne, ne_eq]
  split
  · simp; tauto
  · rename_i h; rw [not_not] at h; simp [h]

theorem lawful (h : UserOrder U) : LawfulGen (AllGen ι U) where
  eq_iff a b := by
    show eqOp a b = true ↔ _
    cases a with
    | pre a =>
      cases b with
      | pre b =>
        have := LawfulGen.eq_iff a b
        simpa [eqOp, algebraId, equal, GenOps.eq, Gen.eqOp] using this
      | user b => simp [eqOp, equal]
    | user a =>
      cases b with
      | pre b => simp [eqOp, equal]
      | user b =>
        simp only [eqOp, algebraId, equal, Bool.and_eq_true, beq_iff_eq, user.injEq]
        constructor
        · rintro ⟨h1, h2⟩; exact (h.eq_iff _ _ h1).1 h2
        · rintro rfl; exact ⟨rfl, (h.eq_iff _ _ rfl).2 rfl⟩
  lt_irrefl a := by
    show ltOp a a = false
    cases a with
    | pre a => simpa [ltOp, algebraId, less, GenOps.lt, Gen.ltOp] using LawfulGen.lt_irrefl a
    | user a => simpa [ltOp, less] using h.lt_irrefl a
  lt_trans a b c := by
    show ltOp a b = true → ltOp b c = true → ltOp a c = true
    simp only [ltOp_iff]
    rintro (h1 | ⟨h1, h1'⟩) (h2 | ⟨h2, h2'⟩)
    · left; omega
    · left; omega
    · left; omega
    · right
      refine ⟨h1.trans h2, ?_⟩
      cases a with
      | pre a =>
        cases b with
        | pre b =>
          cases c with
          | pre c =>
            have := LawfulGen.lt_trans a b c
            simp only [GenOps.lt, gen_ltOp_iff] at this
            rcases this (Or.inr ⟨h1, h1'⟩) (Or.inr ⟨h2, h2'⟩) with h | h
            · have h3 : a.algebraId = c.algebraId := h1.trans h2
              omega
            · exact h.2
          | user c => simp [less] at h2'
        | user b => simp [less] at h1'
      | user a =>
        cases b with
        | pre b => simp [less] at h1'
        | user b =>
          cases c with
          | pre c => simp [less] at h2'
          | user c => exact h.lt_trans a b c h1 h2 h1' h2'
  lt_tri a b := by
    show ltOp a b = true ∨ a = b ∨ ltOp b a = true
    simp only [ltOp_iff]
    by_cases e : a.algebraId = b.algebraId
    · cases a with
      | pre a =>
        cases b with
        | pre b =>
          have e' : a.algebraId = b.algebraId := e
          have := LawfulGen.lt_tri a b
          simp only [GenOps.lt, gen_ltOp_iff] at this
          rcases this with h | h | h
          · left; exact h
          · right; left; rw [h]
          · right; right; exact h
        | user b => exact absurd e (by have := pre_id a; have := h.id_nonneg b; simp only [algebraId]; omega)
      | user a =>
        cases b with
        | pre b => exact absurd e (by have := pre_id b; have := h.id_nonneg a; simp only [algebraId]; omega)
        | user b =>
          rcases h.lt_tri a b e with h | h | h
          · left; right; exact ⟨e, h⟩
          · right; left; rw [h]
          · right; right; right; exact ⟨e.symm, h⟩
    · rcases lt_or_gt_of_ne e with h | h
      · left; left; exact h
      · right; right; left; exact h
  gt_iff a b := by
    show gtOp a b = ltOp b a
    rw [Bool.eq_iff_iff, ltOp_iff, gtOp_iff]
    refine or_congr Iff.rfl ?_
    constructor
    · rintro ⟨e, h1⟩
      refine ⟨e.symm, ?_⟩
      cases a with
      | pre a =>
        cases b with
        | pre b =>
          have := LawfulGen.gt_iff a b
          have e' : a.algebraId = b.algebraId := e
          simp only [GenOps.gt, GenOps.lt, Gen.gtOp, Gen.ltOp, e', bne_self_eq_false, Bool.false_eq_true, if_false] at this
          exact this.symm.trans h1
        | user b => simp [greater] at h1
      | user a =>
        cases b with
        | pre b => simp [greater] at h1
        | user b => exact (h.gt_iff a b e).symm.trans h1
    · rintro ⟨e, h1⟩
      refine ⟨e.symm, ?_⟩
      cases a with
      | pre a =>
        cases b with
        | pre b =>
          have := LawfulGen.gt_iff a b
          have e' : a.algebraId = b.algebraId := e.symm
          simp only [GenOps.gt, GenOps.lt, Gen.gtOp, Gen.ltOp, e', bne_self_eq_false, Bool.false_eq_true, if_false] at this
          exact this.trans h1
        | user b => simp [less] at h1
      | user a =>
        cases b with
        | pre b => simp [less] at h1
        | user b => exact (h.gt_iff a b e.symm).trans h1

/-! Projections to the two kinds of generators. -/

theorem gt_pre (g h : Gen ι) : GenOps.gt (pre g : AllGen ι U) (pre h) = GenOps.gt g h := rfl
theorem gt_user {u v : U} (h : UserGen.algebraId u = UserGen.algebraId v) :
    GenOps.gt (user u : AllGen ι U) (user v) = UserGen.greater u v := by
  show gtOp _ _ = _
  simp [gtOp, algebraId, h, greater]

theorem gen_swap_diff {g h : Gen ι} (e : g.algebraId ≠ h.algebraId) : Gen.swapWith g h = (.integer 1, ⟨.integer 0, []⟩) := by
  cases g <;> cases h <;> simp [Gen.algebraId] at e <;> rfl
theorem gen_simp_diff {g h : Gen ι} (e : g.algebraId ≠ h.algebraId) : Gen.simplifyProd g h = none := by
  cases g <;> cases h <;> simp [Gen.algebraId] at e <;> rfl

theorem swap_pre (g h : Gen ι) : GenOps.swapWith (pre g : AllGen ι U) (pre h)
    = ((GenOps.swapWith g h).1, (GenOps.swapWith g h).2.map pre) := by
  show swapWith _ _ = _
  by_cases e : g.algebraId = h.algebraId
  · simp only [swapWith, algebraId, e, if_true, memberSwapWith]; rfl
  · have : (GenOps.swapWith g h) = (.integer 1, ⟨.integer 0, []⟩) := gen_swap_diff e
    rw [this]; simp [swapWith, algebraId, e, LinFun.map]

theorem simp_pre (g h : Gen ι) : GenOps.simplifyProd (pre g : AllGen ι U) (pre h)
    = (GenOps.simplifyProd g h).map (LinFun.map pre) := by
  show simplifyProd _ _ = _
  by_cases e : g.algebraId = h.algebraId
  · simp only [simplifyProd, algebraId, e, if_true, memberSimplifyProd]; rfl
  · have : (GenOps.simplifyProd g h) = none := gen_simp_diff e
    rw [this]; simp [simplifyProd, algebraId, e]

theorem swap_user {u v : U} (h : UserGen.algebraId u = UserGen.algebraId v) : GenOps.swapWith (user u : AllGen ι U) (user v)
    = ((UserGen.swapWith u v).1, (UserGen.swapWith u v).2.map user) := by
  show swapWith _ _ = _
  simp only [swapWith, algebraId, h, if_true, memberSwapWith]

theorem simp_user {u v : U} (h : UserGen.algebraId u = UserGen.algebraId v) :
    GenOps.simplifyProd (user u : AllGen ι U) (user v) = (UserGen.simplifyProd u v).map (LinFun.map user) := by
  show simplifyProd _ _ = _
  simp only [simplifyProd, algebraId, h, if_true, memberSimplifyProd]

theorem swap_diff {g h : AllGen ι U} (e : g.algebraId ≠ h.algebraId) :
    GenOps.swapWith g h = (.integer 1, ⟨.integer 0, []⟩) := by
  show swapWith _ _ = _
  simp [swapWith, e]

theorem simp_diff {g h : AllGen ι U} (e : g.algebraId ≠ h.algebraId) : GenOps.simplifyProd g h = none := by
  show simplifyProd _ _ = _
  simp [simplifyProd, e]

theorem represents_pre_user {g : Gen ι} {u : U} (ho : UserOrder U) :
    (pre g : AllGen ι U).algebraId ≠ (user u : AllGen ι U).algebraId := by
  have := pre_id g; have := ho.id_nonneg u
  simp only [algebraId]; omega

theorem swap_uu {u v : U} (e : UserGen.algebraId u ≠ UserGen.algebraId v) :
    GenOps.swapWith (user u : AllGen ι U) (user v) = (.integer 1, ⟨.integer 0, []⟩) := swap_diff e

theorem simp_uu {u v : U} (e : UserGen.algebraId u ≠ UserGen.algebraId v) :
    GenOps.simplifyProd (user u : AllGen ι U) (user v) = none := simp_diff e

theorem red_pre (g : Gen ι) (p : Nat) (f : LinFun (AllGen ι U)) :
    GenOps.reducePower (pre g : AllGen ι U) p f = ((GenOps.reducePower g p LinFun.zero).1, f) := rfl

theorem red_user_none {u : U} {p : Nat} (h : UserGen.reducePower u p = none) (f : LinFun (AllGen ι U)) :
    GenOps.reducePower (user u : AllGen ι U) p f = (false, f) := by
  show reducePower _ _ _ = _
  simp [reducePower, h]
theorem red_user_some {u : U} {p : Nat} {f' : LinFun U} (h : UserGen.reducePower u p = some f') (f : LinFun (AllGen ι U)) :
    GenOps.reducePower (user u : AllGen ι U) p f = (true, f'.map user) := by
  show reducePower _ _ _ = _
  simp [reducePower, h]

section
variable {A S : Type _} [CommRing S] [ConstScalar S] [Ring A] [Algebra S A] {ρ : AllGen ι U → A} {M : Nat → ι → Prop}

theorem evalLin_map {G H : Type _} (φ : G → H) (ρ : H → A) (f : LinFun G) :
    evalLin S ρ (f.map φ) = evalLin S (fun g => ρ (φ g)) f := by
  simp [evalLin, LinFun.map, List.map_map, Function.comp_def]


variable [DecidableEq S] [ScalarLaws S]

theorem represents (ho : UserOrder U) (hM : HalfAlone M) (h : Realisation S M ρ) :
    Represents S (AllowedAll M) ρ := by
  have hp := represents_of_textbook hM h.predefined
  have hcomm : ∀ g k : AllGen ι U, AllowedAll M g → AllowedAll M k → g.algebraId ≠ k.algebraId →
      ρ g * ρ k = ρ k * ρ g := by
    intro g k hg hk e
    cases g with
    | pre g =>
      cases k with
      | pre k =>
        have T := h.predefined
        cases g <;> cases k <;> simp [algebraId, Gen.algebraId] at e
        · exact T.comm_fb _ _ _ _
        · exact T.comm_fs _ _ _ _ _ hk
        · exact (T.comm_fb _ _ _ _).symm
        · exact T.comm_bs _ _ _ _ _ hk
        · exact (T.comm_fs _ _ _ _ _ hg).symm
        · exact (T.comm_bs _ _ _ _ _ hg).symm
      | user k => exact h.comm g k hg
    | user g =>
      cases k with
      | pre k => exact (h.comm k g hk).symm
      | user k => exact h.user.comm g k e
  have hdiff : ∀ g k : AllGen ι U, AllowedAll M g → AllowedAll M k → g.algebraId ≠ k.algebraId →
      ρ g * ρ k = (ConstScalar.makeConst (GenOps.swapWith g k).1 : S) • (ρ k * ρ g) + evalLin S ρ (GenOps.swapWith g k).2 := by
    intro g k hg hk e
    rw [swap_diff e, hcomm g k hg hk e]
    simp [evalLin, ConstScalar.mk_integer]
  refine ⟨?_, ?_, ?_, ?_, ?_, ?_, ?_⟩
  · intro g₁ g₂ h₁ h₂ hgt
    cases g₁ with
    | pre g =>
      cases g₂ with
      | pre k =>
        rw [swap_pre, evalLin_map]
        exact hp.swap g k h₁ h₂ hgt
      | user k => exact hdiff _ _ h₁ h₂ (represents_pre_user ho)
    | user g =>
      cases g₂ with
      | pre k => exact hdiff _ _ h₁ h₂ (represents_pre_user ho).symm
      | user k =>
        by_cases e : UserGen.algebraId g = UserGen.algebraId k
        · rw [swap_user e, evalLin_map]
          exact h.user.swap g k e (by rwa [gt_user e] at hgt)
        · exact hdiff _ _ h₁ h₂ e
  · intro g₁ g₂ f h₁ h₂ hgt hf
    cases g₁ with
    | pre g =>
      cases g₂ with
      | pre k =>
        rw [simp_pre, Option.map_eq_some_iff] at hf
        obtain ⟨f, hf, rfl⟩ := hf
        rw [evalLin_map]
        exact hp.simp g k f h₁ h₂ hgt hf
      | user k => rw [simp_diff (represents_pre_user ho)] at hf; cases hf
    | user g =>
      cases g₂ with
      | pre k => rw [simp_diff (represents_pre_user ho).symm] at hf; cases hf
      | user k =>
        by_cases e : UserGen.algebraId g = UserGen.algebraId k
        · rw [simp_user e, Option.map_eq_some_iff] at hf
          obtain ⟨f, hf, rfl⟩ := hf
          rw [evalLin_map]
          exact h.user.simp g k f e (by rwa [gt_user e] at hgt) hf
        · rw [simp_uu e] at hf; cases hf
  · intro g p f hg h2 hr
    cases g with
    | pre g => rw [red_pre]
    | user u =>
      cases e : UserGen.reducePower u p with
      | none => rw [red_user_none e]
      | some f' => rw [red_user_some e] at hr; simp at hr
  · intro g p hg h2 hr
    cases g with
    | pre g =>
      rw [red_pre] at hr ⊢
      have := hp.red_true g p hg h2 hr
      have e0 : (GenOps.reducePower g p LinFun.zero).2 = LinFun.zero := by cases g <;> rfl
      rw [e0] at this
      simpa [evalLin, LinFun.zero] using this
    | user u =>
      cases e : UserGen.reducePower u p with
      | none => rw [red_user_none e] at hr; simp at hr
      | some f' =>
        rw [red_user_some e, evalLin_map]
        exact h.user.red u p f' h2 e
  · intro g₁ g₂ h₁ h₂ hgt p hp'
    cases g₁ with
    | pre g =>
      cases g₂ with
      | pre k =>
        rw [swap_pre] at hp'
        simp only [LinFun.map, List.mem_map] at hp'
        obtain ⟨q, hq, rfl⟩ := hp'
        exact hp.swap_mem g k h₁ h₂ hgt q hq
      | user k => rw [swap_diff (represents_pre_user ho)] at hp'; simp at hp'
    | user g =>
      cases g₂ with
      | pre k => rw [swap_diff (represents_pre_user ho).symm] at hp'; simp at hp'
      | user k =>
        by_cases e : UserGen.algebraId g = UserGen.algebraId k
        · rw [swap_user e] at hp'
          simp only [LinFun.map, List.mem_map] at hp'
          obtain ⟨q, hq, rfl⟩ := hp'
          trivial
        · rw [swap_uu e] at hp'; simp at hp'
  · intro g₁ g₂ f h₁ h₂ hgt hf p hp'
    cases g₁ with
    | pre g =>
      cases g₂ with
      | pre k =>
        rw [simp_pre, Option.map_eq_some_iff] at hf
        obtain ⟨f, hf, rfl⟩ := hf
        simp only [LinFun.map, List.mem_map] at hp'
        obtain ⟨q, hq, rfl⟩ := hp'
        exact hp.simp_mem g k f h₁ h₂ hgt hf q hq
      | user k => rw [simp_diff (represents_pre_user ho)] at hf; cases hf
    | user g =>
      cases g₂ with
      | pre k => rw [simp_diff (represents_pre_user ho).symm] at hf; cases hf
      | user k =>
        by_cases e : UserGen.algebraId g = UserGen.algebraId k
        · rw [simp_user e, Option.map_eq_some_iff] at hf
          obtain ⟨f, hf, rfl⟩ := hf
          simp only [LinFun.map, List.mem_map] at hp'
          obtain ⟨q, hq, rfl⟩ := hp'
          trivial
        · rw [simp_uu e] at hf; cases hf
  · intro g p hg h2 hr q hq
    cases g with
    | pre g => rw [red_pre] at hq; simp [LinFun.zero] at hq
    | user u =>
      cases e : UserGen.reducePower u p with
      | none => rw [red_user_none e] at hr; simp at hr
      | some f' =>
        rw [red_user_some e] at hq
        simp only [LinFun.map, List.mem_map] at hq
        obtain ⟨q, hq, rfl⟩ := hq
        trivial
end

/-! ### Non-zero coefficients and normal forms -/

theorem good_of {v : VarNumber} (h : v.Defined) (h0 : v.rat ≠ 0) : v.Good := by
  cases v with
  | integer i => simpa [VarNumber.rat, VarNumber.Good] using h0
  | rational a b =>
    refine ⟨?_, h⟩
    rintro rfl
    simp [VarNumber.rat] at h0
  | real x => exact h0

theorem good_const {v : VarNumber} (h : v.Defined) : v.isZero = true ∨ v.Good := by
  cases v with
  | integer i => by_cases h : i = 0 <;> simp [VarNumber.isZero, VarNumber.Good, h]
  | rational a b => by_cases ha : a = 0 <;> simp [VarNumber.isZero, VarNumber.Good, ha]; exact h
  | real x => by_cases h : x = 0 <;> simp [VarNumber.isZero, VarNumber.Good, h]

theorem good_map {G H : Type _} (φ : G → H) {f : LinFun G} (h : f.Good) : (f.map φ).Good := by
  refine ⟨h.1, ?_⟩
  intro p hp
  simp only [LinFun.map, List.mem_map] at hp
  obtain ⟨q, hq, rfl⟩ := hp
  exact h.2 q hq

theorem NoZeros_good {G : Type _} {f : LinFun G} (h : f.NoZeros) : f.Good :=
  ⟨good_const h.const_defined, fun p hp => good_of (h.defined p hp) (h.nonzero p hp)⟩

theorem goodGen (ho : UserOrder U) (h : UserNoZeros U) : GoodGen (AllGen ι U) where
  swap_const g k hgt := by
    cases g with
    | pre g =>
      cases k with
      | pre k => rw [swap_pre]; exact GoodGen.swap_const g k hgt
      | user k => rw [swap_diff (represents_pre_user ho)]; simp [VarNumber.Good]
    | user g =>
      cases k with
      | pre k => rw [swap_diff (represents_pre_user ho).symm]; simp [VarNumber.Good]
      | user k =>
        by_cases e : UserGen.algebraId g = UserGen.algebraId k
        · rw [swap_user e]
          rcases h.swap_const g k e (by rwa [gt_user e] at hgt) with h | h
          · left; simp [h, VarNumber.eq]
          · right; exact good_of h.1 h.2
        · rw [swap_uu e]; simp [VarNumber.Good]
  swap_lin g k hgt := by
    cases g with
    | pre g =>
      cases k with
      | pre k => rw [swap_pre]; exact good_map _ (GoodGen.swap_lin g k hgt)
      | user k => rw [swap_diff (represents_pre_user ho)]; simp [LinFun.Good, VarNumber.isZero]
    | user g =>
      cases k with
      | pre k => rw [swap_diff (represents_pre_user ho).symm]; simp [LinFun.Good, VarNumber.isZero]
      | user k =>
        by_cases e : UserGen.algebraId g = UserGen.algebraId k
        · rw [swap_user e]
          exact good_map _ (NoZeros_good (h.swap g k e (by rwa [gt_user e] at hgt)))
        · rw [swap_uu e]; simp [LinFun.Good, VarNumber.isZero]
  simp_lin g k f hgt hf := by
    cases g with
    | pre g =>
      cases k with
      | pre k =>
        rw [simp_pre, Option.map_eq_some_iff] at hf
        obtain ⟨f, hf, rfl⟩ := hf
        exact good_map _ (GoodGen.simp_lin g k f hgt hf)
      | user k => rw [simp_diff (represents_pre_user ho)] at hf; cases hf
    | user g =>
      cases k with
      | pre k => rw [simp_diff (represents_pre_user ho).symm] at hf; cases hf
      | user k =>
        by_cases e : UserGen.algebraId g = UserGen.algebraId k
        · rw [simp_user e, Option.map_eq_some_iff] at hf
          obtain ⟨f, hf, rfl⟩ := hf
          exact good_map _ (NoZeros_good (h.simp g k f e (by rwa [gt_user e] at hgt) hf))
        · rw [simp_uu e] at hf; cases hf

theorem conj_good (h : UserNoZeros U) (g : AllGen ι U) : (GenOps.conj g).Good := by
  cases g with
  | pre g => exact good_map _ ((conjOK (fun _ _ => True)).good g)
  | user u => exact good_map _ (NoZeros_good (h.conj u))

theorem conj_mem {M : Nat → ι → Prop} (g : AllGen ι U) (hg : AllowedAll M g) :
    ∀ p ∈ (GenOps.conj g).terms, AllowedAll M p.1 := by
  intro p hp
  cases g with
  | pre g =>
    have hp : p ∈ ((Gen.conj g).map pre).terms := hp
    simp only [LinFun.map, List.mem_map] at hp
    obtain ⟨q, hq, rfl⟩ := hp
    exact (conjOK M).mem g hg q hq
  | user u =>
    have hp : p ∈ ((UserGen.conj u).map user).terms := hp
    simp only [LinFun.map, List.mem_map] at hp
    obtain ⟨q, hq, rfl⟩ := hp
    trivial

theorem conjOKAll (h : UserNoZeros U) (M : Nat → ι → Prop) : ConjOK (AllowedAll M : AllGen ι U → Prop) :=
  ⟨conj_good h, conj_mem⟩

theorem closed {M : Nat → ι → Prop} (hM : HalfAlone M) (ho : UserOrder U) : ClosedGen (AllowedAll M : AllGen ι U → Prop) := by
  have hp := nfGen M hM
  refine ⟨?_, ?_, ?_, ?_⟩
  · intro g₁ g₂ h₁ h₂ hgt p hp'
    cases g₁ with
    | pre g =>
      cases g₂ with
      | pre k =>
        rw [swap_pre] at hp'
        simp only [LinFun.map, List.mem_map] at hp'
        obtain ⟨q, hq, rfl⟩ := hp'
        exact hp.swap_mem g k h₁ h₂ hgt q hq
      | user k => rw [swap_diff (represents_pre_user ho)] at hp'; simp at hp'
    | user g =>
      cases g₂ with
      | pre k => rw [swap_diff (represents_pre_user ho).symm] at hp'; simp at hp'
      | user k =>
        by_cases e : UserGen.algebraId g = UserGen.algebraId k
        · rw [swap_user e] at hp'
          simp only [LinFun.map, List.mem_map] at hp'
          obtain ⟨q, hq, rfl⟩ := hp'
          trivial
        · rw [swap_uu e] at hp'; simp at hp'
  · intro g₁ g₂ f h₁ h₂ hgt hf p hp'
    cases g₁ with
    | pre g =>
      cases g₂ with
      | pre k =>
        rw [simp_pre, Option.map_eq_some_iff] at hf
        obtain ⟨f, hf, rfl⟩ := hf
        simp only [LinFun.map, List.mem_map] at hp'
        obtain ⟨q, hq, rfl⟩ := hp'
        exact hp.simp_mem g k f h₁ h₂ hgt hf q hq
      | user k => rw [simp_diff (represents_pre_user ho)] at hf; cases hf
    | user g =>
      cases g₂ with
      | pre k => rw [simp_diff (represents_pre_user ho).symm] at hf; cases hf
      | user k =>
        by_cases e : UserGen.algebraId g = UserGen.algebraId k
        · rw [simp_user e, Option.map_eq_some_iff] at hf
          obtain ⟨f, hf, rfl⟩ := hf
          simp only [LinFun.map, List.mem_map] at hp'
          obtain ⟨q, hq, rfl⟩ := hp'
          trivial
        · rw [simp_uu e] at hf; cases hf
  · intro g p f hg h2 hr
    cases g with
    | pre g => rw [red_pre]
    | user u =>
      cases e : UserGen.reducePower u p with
      | none => rw [red_user_none e]
      | some f' => rw [red_user_some e] at hr; simp at hr
  · intro g p hg h2 hr q hq
    cases g with
    | pre g => rw [red_pre] at hq; simp [LinFun.zero] at hq
    | user u =>
      cases e : UserGen.reducePower u p with
      | none => rw [red_user_none e] at hr; simp at hr
      | some f' =>
        rw [red_user_some e] at hq
        simp only [LinFun.map, List.mem_map] at hq
        obtain ⟨q, hq, rfl⟩ := hq
        trivial

theorem isZero_of_rat {v : VarNumber} (h : v.Defined) (h0 : v.rat = 0) : v.isZero = true := by
  cases v with
  | integer i => simpa [VarNumber.rat, VarNumber.isZero] using h0
  | rational a b =>
    have hb : (b : Rat) ≠ 0 := by exact_mod_cast (show b ≠ 0 from h)
    simp only [VarNumber.rat, div_eq_zero_iff, hb, or_false] at h0
    simpa [VarNumber.isZero] using h0
  | real x => simpa [VarNumber.rat, VarNumber.isZero] using h0

theorem nfGenAll {M : Nat → ι → Prop} (hM : HalfAlone M) (ho : UserOrder U) (hc : UserConfluent U) :
    NFGen (AllowedAll M : AllGen ι U → Prop) := by
  have hC := closed (U := U) hM ho
  have hp := nfGen M hM
  refine ⟨hC.swap_mem, hC.simp_mem, ?_, hC.red_false, ?_⟩
  · intro g k hg hk hgt h0
    cases g with
    | pre g =>
      cases k with
      | pre k =>
        rw [simp_pre, hp.swap_ok g k hg hk hgt (by simpa [swap_pre] using h0)]; rfl
      | user k => exact simp_diff (represents_pre_user ho).symm
    | user g =>
      cases k with
      | pre k => exact simp_diff (represents_pre_user ho)
      | user k =>
        by_cases e : UserGen.algebraId g = UserGen.algebraId k
        · rw [simp_user e.symm, hc.swap_simp g k e (by rwa [gt_user e] at hgt)]; · rfl
          rw [swap_user e] at h0
          intro h; rw [h] at h0; simp [VarNumber.eq] at h0
        · exact simp_uu (Ne.symm e)
  · intro g p hg h2 hr
    cases g with
    | pre g =>
      rw [red_pre]
      simp [LinFun.vanishing, LinFun.zero, VarNumber.isZero]
    | user u =>
      cases e : UserGen.reducePower u p with
      | none => rw [red_user_none e] at hr; simp at hr
      | some f' =>
        rw [red_user_some e]
        obtain ⟨h0, h1, h2⟩ := hc.red_zero u p f' h2 e
        simp [LinFun.vanishing, LinFun.map, h2, isZero_of_rat h0 h1]

end AllGen
end LC
