import Mathlib.LinearAlgebra.Finsupp.LinearCombination
import Mathlib.LinearAlgebra.LinearIndependent.Lemmas
import Mathlib.RingTheory.Flat.Domain
import Mathlib.RingTheory.TensorProduct.Basic
import Verif.Proof.UserAlgebra
import Verif.Proof.InP
/-
Fermions, bosons, spins-1/2 and a user-defined algebra with a faithful realisation: expressions are determined by their operators.
-/
set_option linter.unusedSectionVars false
set_option linter.unusedSimpArgs false
set_option linter.unusedVariables false
namespace LC
open Terms TensorProduct

section
variable {G S A : Type _} [GenOps G] [LawfulGen G] [CommRing S] [DecidableEq S] [ConstScalar S] [ScalarLaws S]
  [Ring A] [Algebra S A] {P : G → Prop} {ρ : G → A}

theorem map_evalWith {M N : Type _} [AddCommGroup M] [Module S M] [AddCommGroup N] [Module S N] (f : M →ₗ[S] N)
    (s : List G → M) (t : List (List G × S)) : f (evalWith s t) = evalWith (fun m => f (s m)) t := by
  induction t with
  | nil => simp
  | cons p t ih => simp [ih]

open Classical in
/-- Expressions are determined by their operators if canonical monomials are linearly independent. -/
theorem eq_of_linInd (h : LinearIndependent S fun m : {m : List G // CanonMon P m} => evalMon ρ m.1) {a b : Expr G S}
    (ha : a.WF) (hb : b.WF) (hca : a.AllCanon P) (hcb : b.AllCanon P) (he : evalExpr ρ a = evalExpr ρ b) : a = b := by
  let s : List G → ({m : List G // CanonMon P m} →₀ S) := fun m =>
    if h : CanonMon P m then Finsupp.single ⟨m, h⟩ 1 else 0
  have key : ∀ t : List (List G × S), (∀ p ∈ t, CanonMon P p.1) →
      Finsupp.linearCombination S (fun m : {m : List G // CanonMon P m} => evalMon ρ m.1) (evalWith s t) = evalTerms ρ t := by
    intro t ht
    rw [map_evalWith]
    induction t with
    | nil => rfl
    | cons p t ih =>
      rw [evalWith_cons, ih fun q hq => ht q (by simp [hq])]
      have hp := ht p (by simp)
      simp [s, hp, evalTerms]
  have hs : evalWith s a.terms = evalWith s b.terms := by
    apply h
    rw [key _ hca, key _ hcb]; exact he
  refine Expr.ext_coeff ha hb fun k => ?_
  rw [Expr.coeff_eq_evalWith ha, Expr.coeff_eq_evalWith hb]
  by_cases hk : CanonMon P k
  · have h1 : ∀ m, Finsupp.lapply (R := S) (M := S) ⟨k, hk⟩ (s m) = if k = m then (1 : S) else 0 := by
      intro m
      by_cases hm : CanonMon P m
      · simp only [s, hm, dif_pos, Finsupp.lapply_apply, Finsupp.single_apply, Subtype.mk.injEq, eq_comm]
      · have : k ≠ m := fun h => hm (h ▸ hk)
        simp [s, hm, this]
    have := congrArg (Finsupp.lapply (R := S) (M := S) ⟨k, hk⟩) hs
    rw [map_evalWith, map_evalWith] at this
    simpa only [h1] using this
  · have : ∀ t : List (List G × S), (∀ p ∈ t, CanonMon P p.1) →
        evalWith (fun m => if k = m then (1 : S) else 0) t = 0 := by
      intro t ht
      induction t with
      | nil => rfl
      | cons p t ih =>
        rw [evalWith_cons, ih fun q hq => ht q (by simp [hq])]
        have : k ≠ p.1 := fun h => hk (h ▸ ht p (by simp))
        simp [this]
    rw [this _ hca, this _ hcb]
end

section
variable {ι S : Type _} [LinearOrder ι] [CommRing S] [DecidableEq S] [ConstScalar S] [ScalarLaws S]

open Classical in
theorem Reg.linInd : LinearIndependent S fun m : {m : List (Gen ι) // CanonMon Reg.PH m} =>
    evalMon (Reg.rep (S := S)) m.1 := by
  rw [linearIndependent_iff']
  intro s c h0 m hm
  have h1 := congrArg (fun f => f (Reg.delta (Reg.st [])) (Reg.st m.1).F (Reg.st m.1).B (Reg.st m.1).L) h0
  simp only [LinearMap.sum_apply, LinearMap.smul_apply, Finset.sum_apply, Pi.smul_apply, LinearMap.zero_apply,
    Pi.zero_apply] at h1
  rw [Finset.sum_eq_single m] at h1
  · rw [Reg.eval_delta m.2, Reg.delta_apply, if_pos rfl] at h1
    simpa using h1
  · intro k _ hk
    rw [Reg.eval_delta k.2, Reg.delta_apply, if_neg, smul_zero]
    intro e
    exact hk (Subtype.ext (Reg.st_inj k.2 m.2 e))
  · intro h; exact absurd hm h
end

namespace AllGen
variable {ι U S B : Type _} [LinearOrder ι] [UserGen U] [CommRing S] [DecidableEq S] [ConstScalar S] [ScalarLaws S]
  [Ring B] [Algebra S B]

/-- The predefined factors of a product. -/
def preParts (m : List (AllGen ι U)) : List (Gen ι) := m.filterMap fun | pre g => some g | user _ => none
/-- The user-defined factors of a product. -/
def userParts (m : List (AllGen ι U)) : List U := m.filterMap fun | pre _ => none | user u => some u

@[simp] theorem preParts_nil : preParts ([] : List (AllGen ι U)) = [] := rfl
@[simp] theorem userParts_nil : userParts ([] : List (AllGen ι U)) = [] := rfl
@[simp] theorem preParts_pre (g : Gen ι) (m : List (AllGen ι U)) : preParts (pre g :: m) = g :: preParts m := rfl
@[simp] theorem preParts_user (u : U) (m : List (AllGen ι U)) : preParts (user u :: m) = preParts m := rfl
@[simp] theorem userParts_pre (g : Gen ι) (m : List (AllGen ι U)) : userParts (pre g :: m) = userParts m := rfl
@[simp] theorem userParts_user (u : U) (m : List (AllGen ι U)) : userParts (user u :: m) = u :: userParts m := rfl

/-- Sorted products list the predefined factors first. -/
theorem eq_parts (ho : UserOrder U) {m : List (AllGen ι U)} (h : m.IsChain OKPair) :
    m = (preParts m).map pre ++ (userParts m).map user := by
  have := lawful (ι := ι) ho
  induction m with
  | nil => rfl
  | cons x m ih =>
    have ih := ih h.tail
    cases x with
    | pre g => simpa using ih
    | user u =>
      have hp : preParts m = [] := by
        have hpw := (List.pairwise_cons.1 (pairwise_of_chain h)).1
        rw [List.eq_nil_iff_forall_not_mem]
        intro g hg
        have hg : pre g ∈ m := by
          rw [ih]; simp [hg]
        have := hpw _ hg
        rw [LawfulGen.gt_iff] at this
        have h2 : ltOp (pre g : AllGen ι U) (user u) = true := (ltOp_iff _ _).2 (Or.inl (by
          have := pre_id g; have := ho.id_nonneg u; simp only [algebraId]; omega))
        change ltOp _ _ = false at this
        rw [h2] at this; cases this
      rw [hp] at ih
      simp only [preParts_user, userParts_user, hp, List.map_nil, List.nil_append, List.map_cons]
      rw [List.map_nil, List.nil_append] at ih
      rw [← ih]

theorem chain_pre {l : List (Gen ι)} (h : (l.map (pre (U := U))).IsChain OKPair) : l.IsChain OKPair := by
  rw [List.isChain_map] at h
  refine h.imp ?_
  intro a b hab
  refine ⟨hab.1, ?_⟩
  have := hab.2
  rw [simp_pre, Option.map_eq_none_iff] at this
  exact this

theorem countP_pre (l : List (Gen ι)) (g : Gen ι) :
    (l.map (pre (U := U))).countP (GenOps.eq (pre g)) = l.countP (GenOps.eq g) := by
  rw [List.countP_map]; rfl

variable {M : Nat → ι → Prop}

theorem canon_pre (ho : UserOrder U) {m : List (AllGen ι U)} (h : CanonMon (AllowedAll M) m) :
    CanonMon (Allowed M) (preParts m) := by
  have e := eq_parts ho h.chain
  have hmem : ∀ g ∈ preParts m, (pre g : AllGen ι U) ∈ m := by
    intro g hg; rw [e]; simp [hg]
  refine ⟨fun g hg => h.mem _ (hmem g hg), ?_, ?_⟩
  · have hc := h.chain
    rw [e, List.isChain_append] at hc
    exact chain_pre hc.1
  · intro g hg p hp hpc
    have := h.pow (pre g) (hmem g hg) p hp (by
      rw [e, List.countP_append, countP_pre]; omega)
    rwa [red_pre] at this

theorem stored_user (ho : UserOrder U) {m : List (AllGen ι U)} (h : CanonMon (AllowedAll M) m) :
    UserStored (userParts m) := by
  have := lawful (ι := ι) ho
  have e := eq_parts ho h.chain
  have hc : ((userParts m).map (user (ι := ι))).IsChain OKPair := by
    have hc := h.chain
    rw [e, List.isChain_append] at hc
    exact hc.2.1
  have hmem : ∀ g ∈ userParts m, (user g : AllGen ι U) ∈ m := by
    intro g hg; rw [e]; simp [hg]
  have hadj : ∀ pre u v post, userParts m = pre ++ u :: v :: post → OKPair (user u : AllGen ι U) (user v) := by
    intro pre u v post e
    rw [e] at hc
    simp only [List.map_append, List.map_cons, List.isChain_append, List.isChain_cons_cons] at hc
    exact hc.2.1.1
  refine ⟨?_, ?_, ?_⟩
  · intro pre u v post e'
    have h1 := (hadj pre u v post e').1
    change gtOp _ _ = false at h1
    rw [Bool.eq_false_iff, ne_eq, gtOp_iff, not_or] at h1
    simp only [algebraId, greater, not_lt, not_and, Bool.not_eq_true] at h1
    rcases lt_or_eq_of_le h1.1 with h2 | h2
    · left; exact h2
    · right; exact ⟨h2, h1.2 h2⟩
  · intro pre u v post e' hid
    have h1 := (hadj pre u v post e').2
    rwa [simp_user hid, Option.map_eq_none_iff] at h1
  · intro u p hp hsub
    have hu : u ∈ userParts m := hsub.subset (by simp; omega)
    have hcount : p ≤ m.countP (GenOps.eq (user u : AllGen ι U)) := by
      have hs : (List.replicate p (user u : AllGen ι U)).Sublist m := by
        rw [e, ← List.map_replicate]
        exact (hsub.map user).trans (List.sublist_append_right _ _)
      have := hs.countP_le (p := GenOps.eq (user u : AllGen ι U))
      rw [List.countP_replicate, if_pos ((LawfulGen.eq_iff _ _).2 rfl)] at this
      exact this
    have := h.pow (user u) (hmem u hu) p hp hcount
    cases e : UserGen.reducePower u p with
    | none => rfl
    | some f => rw [red_user_some e] at this; simp at this

/-- Predefined and user-defined operators side by side. -/
def side {A : Type _} [Ring A] [Algebra S A] (α : Gen ι → A) (β : U → B) : AllGen ι U → A ⊗[S] B
  | pre g => α g ⊗ₜ 1
  | user u => 1 ⊗ₜ β u

section
variable {A : Type _} [Ring A] [Algebra S A] (α : Gen ι → A) (β : U → B)

theorem evalMon_side (m : List (AllGen ι U)) :
    evalMon (side (S := S) α β) m = evalMon α (preParts m) ⊗ₜ evalMon β (userParts m) := by
  induction m with
  | nil => rfl
  | cons x m ih =>
    cases x with
    | pre g =>
      simp only [evalMon, List.map_cons, List.prod_cons, preParts_pre, userParts_pre] at ih ⊢
      rw [ih, side, Algebra.TensorProduct.tmul_mul_tmul, one_mul]
    | user u =>
      simp only [evalMon, List.map_cons, List.prod_cons, preParts_user, userParts_user] at ih ⊢
      rw [ih, side, Algebra.TensorProduct.tmul_mul_tmul, one_mul]

theorem evalLin_left (f : LinFun (Gen ι)) :
    evalLin S (fun g => side (S := S) α β (pre g)) f = (evalLin S α f) ⊗ₜ[S] (1 : B) := by
  obtain ⟨c, l⟩ := f
  simp only [evalLin, TensorProduct.add_tmul, Algebra.TensorProduct.algebraMap_apply]
  congr 1
  induction l with
  | nil => simp
  | cons p l ih =>
    rw [List.map_cons, List.sum_cons, ih, List.map_cons, List.sum_cons, TensorProduct.add_tmul, ← TensorProduct.smul_tmul']
    rfl

theorem evalLin_right (f : LinFun U) :
    evalLin S (fun u => side (S := S) α β (user u)) f = (1 : A) ⊗ₜ[S] (evalLin S β f) := by
  obtain ⟨c, l⟩ := f
  simp only [evalLin, TensorProduct.tmul_add, Algebra.TensorProduct.algebraMap_apply']
  congr 1
  induction l with
  | nil => simp
  | cons p l ih =>
    rw [List.map_cons, List.sum_cons, ih, List.map_cons, List.sum_cons, TensorProduct.tmul_add, TensorProduct.tmul_smul]
    rfl

theorem side_user (hβ : UserRealisation S β) : UserRealisation S fun u => side (S := S) α β (user u) where
  swap u v e h := by
    rw [evalLin_right]
    simp only [side, Algebra.TensorProduct.tmul_mul_tmul, one_mul]
    rw [hβ.swap u v e h, TensorProduct.tmul_add, TensorProduct.tmul_smul]
  simp u v f e h hf := by
    rw [evalLin_right]
    simp only [side, Algebra.TensorProduct.tmul_mul_tmul, one_mul]
    rw [hβ.simp u v f e h hf]
  red u p f h hf := by
    rw [evalLin_right]
    simp only [side, Algebra.TensorProduct.tmul_pow, one_pow]
    rw [hβ.red u p f h hf]
  comm u v e := by
    simp only [side, Algebra.TensorProduct.tmul_mul_tmul, one_mul]
    rw [hβ.comm u v e]
end

theorem side_textbook {A : Type _} [Ring A] [Algebra S A] {α : Gen ι → A} (β : U → B) (h : TextbookRel S M α) :
    TextbookRel S M fun g => side (S := S) α β (pre g) := by
  have l : ∀ x y : A, (x ⊗ₜ[S] (1 : B)) * (y ⊗ₜ[S] (1 : B)) = (x * y) ⊗ₜ 1 := fun x y => by
    rw [Algebra.TensorProduct.tmul_mul_tmul, one_mul]
  have one : (1 : A ⊗[S] B) = 1 ⊗ₜ 1 := rfl
  have two : (2 : A ⊗[S] B) = (2 : A) ⊗ₜ 1 := by
    rw [← one_add_one_eq_two, ← one_add_one_eq_two, TensorProduct.add_tmul]; rfl
  have four : (4 : A ⊗[S] B) = (4 : A) ⊗ₜ 1 := by
    rw [show (4 : A ⊗[S] B) = 2 + 2 by norm_num, show (4 : A) = 2 + 2 by norm_num, TensorProduct.add_tmul, two]
  constructor
  case car =>
    intro d i e j
    simp only [side, l, ← TensorProduct.add_tmul, h.car d i e j]
    split <;> simp [one]
  case ccr =>
    intro i j
    simp only [side, l, ← TensorProduct.sub_tmul, h.ccr i j]
    split <;> simp [one]
  case ccr_same => intro d i j; simp only [side, l, h.ccr_same d i j]
  case spin_pm => intro n i hM; simp only [side, l, two, ← TensorProduct.sub_tmul, h.spin_pm n i hM]
  case spin_zp => intro n i hM; simp only [side, l, ← TensorProduct.sub_tmul, h.spin_zp n i hM]
  case spin_zm => intro n i hM; simp only [side, l, ← TensorProduct.sub_tmul, h.spin_zm n i hM, TensorProduct.neg_tmul]
  case spin_comm => intro n c i m e j h1 h2 h3; simp only [side, l, h.spin_comm n c i m e j h1 h2 h3]
  case spin_nil =>
    intro n c i hM hc
    simp only [side, Algebra.TensorProduct.tmul_pow, h.spin_nil n c i hM hc, TensorProduct.zero_tmul]
  case half_zz => intro i hM; simp only [side, l, four, h.half_zz i hM]; rfl
  case half_pm => intro i hM; simp only [side, l, ← TensorProduct.add_tmul, h.half_pm i hM]; rfl
  case half_z => intro i c hM hc; simp only [side, l, ← TensorProduct.add_tmul, h.half_z i c hM hc, TensorProduct.zero_tmul]
  case comm_fb => intro d i e j; simp only [side, l, h.comm_fb]
  case comm_fs => intro d i n c j hM; simp only [side, l, h.comm_fs d i n c j hM]
  case comm_bs => intro d i n c j hM; simp only [side, l, h.comm_bs d i n c j hM]

theorem side_realisation {A : Type _} [Ring A] [Algebra S A] {α : Gen ι → A} {β : U → B} (hα : TextbookRel S M α)
    (hβ : UserRealisation S β) : Realisation S M (side (S := S) α β) where
  predefined := side_textbook β hα
  user := side_user α β hβ
  comm g u _ := by simp only [side, Algebra.TensorProduct.tmul_mul_tmul, one_mul, mul_one]

/-- The regular representation of the predefined algebras next to a faithful realisation of the user's. -/
theorem side_linInd [IsDomain S] (ho : UserOrder U) {β : U → B} (hF : UserFaithful S β) :
    LinearIndependent S fun m : {m : List (AllGen ι U) // CanonMon (AllowedAll Reg.halfOnly) m} =>
      evalMon (side (S := S) (Reg.rep (ι := ι) (S := S)) β) m.1 := by
  have ht := (Reg.linInd (ι := ι) (S := S)).tmul_of_isDomain hF
  let φ : {m : List (AllGen ι U) // CanonMon (AllowedAll (Reg.halfOnly (ι := ι))) m} →
      {m : List (Gen ι) // CanonMon Reg.PH m} × {m : List U // UserStored m} :=
    fun m => (⟨preParts m.1, canon_pre ho m.2⟩, ⟨userParts m.1, stored_user ho m.2⟩)
  have hφ : Function.Injective φ := by
    intro m n h
    simp only [φ, Prod.mk.injEq, Subtype.mk.injEq] at h
    apply Subtype.ext
    rw [eq_parts ho m.2.chain, eq_parts ho n.2.chain, h.1, h.2]
  have := ht.comp φ hφ
  convert this using 2 with m
  exact evalMon_side _ _ _

theorem eq_of_side [IsDomain S] (ho : UserOrder U) {β : U → B} (hF : UserFaithful S β) (a b : Expr (AllGen ι U) S)
    (ha : a.WF) (hb : b.WF) (hca : a.AllCanon (AllowedAll (Reg.halfOnly (ι := ι))))
    (hcb : b.AllCanon (AllowedAll (Reg.halfOnly (ι := ι))))
    (he : evalExpr (side (S := S) (Reg.rep (ι := ι) (S := S)) β) a = evalExpr (side (S := S) (Reg.rep (ι := ι) (S := S)) β) b) :
    a = b := by
  have := lawful (ι := ι) ho
  exact eq_of_linInd (P := AllowedAll (Reg.halfOnly (ι := ι))) (ρ := side (S := S) (Reg.rep (ι := ι) (S := S)) β)
    (side_linInd ho hF) ha hb hca hcb he

end AllGen
end LC
