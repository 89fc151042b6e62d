import Verif.Proof.RegularU
/-
The representation without power reduction is faithful on sorted monomials.
-/
set_option linter.unusedSectionVars false
set_option linter.unusedSimpArgs false
set_option linter.unusedTactic false
set_option linter.unusedVariables false
namespace LC.Reg
open ConstScalar

attribute [-instance] Gen.instGenOps
attribute [-instance] Gen.instLawfulGen
attribute [local instance] genOpsU
attribute [local instance] lawfulU
attribute [local instance] goodU

variable {ι S : Type _} [LinearOrder ι] [CommRing S] [DecidableEq S] [ConstScalar S] [ScalarLaws S]

/-- The basis state of a sorted monomial. -/
def stU : List (Gen ι) → St ι
  | [] => ⟨∅, fun _ => 0, fun _ => .one⟩
  | .fermion d i :: m => { stU m with F := insert (.fermion d i) (stU m).F }
  | .boson d i :: m => { stU m with B := Function.update (stU m).B (.boson d i) ((stU m).B (.boson d i) + 1) }
  | .spin n c i :: m =>
    if n = 2 then { stU m with L := Function.update (stU m).L i (.sp c) }
    else { stU m with B := Function.update (stU m).B (.spin n c i) ((stU m).B (.spin n c i) + 1) }

variable {P : Gen ι → Prop}

theorem memU_F {m : List (Gen ι)} {h : Gen ι} (hh : h ∈ (stU m).F) : h ∈ m := by
  induction m with
  | nil => simp [stU] at hh
  | cons g m ih =>
    cases g with
    | fermion d i =>
      simp only [stU, Finset.mem_insert] at hh
      rcases hh with hh | hh
      · simp [hh]
      · simp [ih hh]
    | boson d i => simp [ih hh]
    | spin n c i =>
      simp only [stU] at hh
      split at hh <;> simp [ih hh]

theorem memU_B {m : List (Gen ι)} {h : Gen ι} (hh : (stU m).B h ≠ 0) : h ∈ m := by
  induction m with
  | nil => simp [stU] at hh
  | cons g m ih =>
    cases g with
    | fermion d i => simp [ih hh]
    | boson d i =>
      by_cases e : h = .boson d i
      · simp [e]
      · simp only [stU, Function.update_of_ne e] at hh
        simp [ih hh]
    | spin n c i =>
      by_cases e : h = .spin n c i
      · simp [e]
      · simp only [stU] at hh
        split at hh
        · simp [ih hh]
        · simp only [Function.update_of_ne e] at hh
          simp [ih hh]

theorem memU_L {m : List (Gen ι)} {i : ι} {c : SpinComp} (hh : (stU m).L i = .sp c) :
    Gen.spin 2 c i ∈ m := by
  induction m with
  | nil => simp [stU] at hh
  | cons g m ih =>
    cases g with
    | fermion d j => simp [ih hh]
    | boson d j => simp [ih hh]
    | spin n c' j =>
      simp only [stU] at hh
      split at hh
      · rename_i hn
        subst hn
        by_cases e : i = j
        · subst e
          simp only [Function.update_self, Loc.sp.injEq] at hh
          subst hh; simp
        · simp only [Function.update_of_ne e] at hh
          simp [ih hh]
      · simp [ih hh]

theorem ngtU_of_mem {g : Gen ι} {m : List (Gen ι)} (h : CanonMon P (g :: m)) {x : Gen ι} (hx : x ∈ m) :
    GenOps.gt g x = false := (List.pairwise_cons.1 (pairwise_of_chain h.chain)).1 x hx

theorem canonU {m : List (Gen ι)} (hP : ∀ g ∈ m, P g) (hc : m.IsChain OKPair) : CanonMon P m :=
  ⟨hP, hc, fun _ _ _ _ _ => rfl⟩

theorem canonU_tail {g : Gen ι} {m : List (Gen ι)} (h : CanonMon P (g :: m)) : CanonMon P m :=
  canonU (fun x hx => h.mem x (by simp [hx])) (List.IsChain.tail h.chain)

theorem secondU_le {g : Gen ι} {m : List (Gen ι)} (h : CanonMon P (g :: m)) {x : Gen ι} (hx : x ∈ m) :
    ∃ z m', m = z :: m' ∧ OKPair g z ∧ GenOps.gt z x = false := by
  cases m with
  | nil => simp at hx
  | cons z m' =>
    refine ⟨z, m', rfl, ?_, ?_⟩
    · have := h.chain
      rw [List.isChain_cons_cons] at this
      exact this.1
    · rcases List.mem_cons.1 hx with rfl | hx
      · exact ngt_refl _
      · exact ngtU_of_mem (canonU_tail h) hx

theorem fermionU_fresh {d : Bool} {i : ι} {m : List (Gen ι)} (h : CanonMon P (.fermion d i :: m)) :
    Gen.fermion d i ∉ m := by
  intro hx
  obtain ⟨z, m', rfl, hok, hz⟩ := secondU_le h hx
  have : z = .fermion d i := ngt_antisymm hz hok.1
  subst this
  have := hok.2
  simp [GenOps.simplifyProd, Gen.simplifyProd, Gen.eqOp_iff] at this

theorem spinU_fresh {c c' : SpinComp} {i : ι} {m : List (Gen ι)} (h : CanonMon P (.spin 2 c i :: m)) :
    Gen.spin 2 c' i ∉ m := by
  intro hx
  obtain ⟨z, m', rfl, hok, hz⟩ := secondU_le h hx
  have h1 := hok.1
  cases z with
  | fermion d j => simp [GenOps.gt, Gen.gtOp, Gen.algebraId] at h1
  | boson d j => simp [GenOps.gt, Gen.gtOp, Gen.algebraId] at h1
  | spin k e j =>
    have hk : k = 2 := by
      by_contra hne
      simp [GenOps.gt, Gen.gtOp, Gen.algebraId, Gen.greater, hne, Ne.symm hne] at h1 hz
      omega
    subst hk
    simp [GenOps.gt, Gen.gtOp, Gen.algebraId, Gen.greater] at h1 hz
    have hij : i = j := by
      by_contra hne
      simp only [hne, if_false, Ne.symm hne, decide_eq_false_iff_not, not_lt] at h1 hz
      exact hne (le_antisymm h1 hz)
    subst hij
    have := hok.2
    simp only [GenOps.simplifyProd, Gen.simplifyProd] at this
    split at this
    · simp_all
    · split at this
      · simp at this
      · split at this
        · split at this <;> simp at this
        · simp at this

open Classical in
theorem spinU_single (n : Nat) (c : SpinComp) (i : ι) (B : Gen ι → ℕ) (v : Sp ι S)
    (hp : c ≠ .plus → B (.spin n .plus i) = 0) (hm : c = .z → B (.spin n .minus i) = 0) :
    spinU n i c (Pi.single B v) = Pi.single (Function.update B (.spin n c i) (B (.spin n c i) + 1)) v := by
  cases c with
  | plus => exact X_single _ _ _
  | minus =>
    have h := D_single (S := S) (Gen.spin n .plus i) B v (hp (by simp))
    simp only [spinU, LinearMap.sub_apply, LinearMap.add_apply, Module.End.mul_apply, h, map_zero, X_single]
    simp
  | z =>
    have h := D_single (S := S) (Gen.spin n .plus i) B v (hp (by simp))
    have h' := D_single (S := S) (Gen.spin n .minus i) B v (hm rfl)
    simp only [spinU, LinearMap.sub_apply, LinearMap.add_apply, Module.End.mul_apply, h, h', map_zero, X_single]
    simp

theorem repU_delta {g : Gen ι} {m : List (Gen ι)} (h : CanonMon P (g :: m)) :
    repU (S := S) g (delta (stU m)) = delta (stU (g :: m)) := by
  classical
  cases g with
  | fermion d i =>
    have hF : Gen.fermion d i ∉ (stU m).F := fun hh => fermionU_fresh h (memU_F hh)
    have hlt : ∀ x ∈ (stU m).F, glt x (.fermion d i) = false := by
      intro x hx
      have := ngtU_of_mem h (memU_F hx)
      rwa [LawfulGen.gt_iff] at this
    cases d with
    | true => exact W_single glt_irr _ _ _ hF hlt
    | false =>
      have hK : Gen.fermion true i ∉ (stU m).F := by
        intro hh
        have := ngtU_of_mem h (memU_F hh)
        simp [GenOps.gt, Gen.gtOp, Gen.algebraId, Gen.greater] at this
      simp only [repU, rep, LinearMap.add_apply, delta]
      rw [W_single glt_irr _ _ _ hF hlt, K_single _ _ _ hK, add_zero]
      rfl
  | boson d i =>
    simp only [repU, rep, delta, lift_single, bos]
    cases d with
    | true => simp only [if_true, X_single]; rfl
    | false =>
      have hD : (stU m).B (Gen.boson true i) = 0 := by
        by_contra hh
        have := ngtU_of_mem h (memU_B hh)
        simp [GenOps.gt, Gen.gtOp, Gen.algebraId, Gen.greater] at this
      simp only [Bool.false_eq_true, if_false, LinearMap.add_apply, X_single, D_single _ _ _ hD, add_zero]; rfl
  | spin n c i =>
    by_cases hn : n = 2
    · subst hn
      simp only [repU, rep, if_true, delta, lift_single]
      have hl : (stU m).L i = .one := by
        cases e : (stU m).L i with
        | one => rfl
        | sp c' => exact absurd (memU_L e) (spinU_fresh h)
      rw [site_single _ _ _ hl]; rfl
    · simp only [repU, if_neg hn, delta, lift_single]
      rw [spinU_single]
      · simp only [stU, if_neg hn]
      · intro hc
        by_contra hh
        have := ngtU_of_mem h (memU_B hh)
        cases c <;> simp [GenOps.gt, Gen.gtOp, Gen.algebraId, Gen.greater, SpinComp.toNat] at this hc
      · intro hc
        by_contra hh
        have := ngtU_of_mem h (memU_B hh)
        cases c <;> simp [GenOps.gt, Gen.gtOp, Gen.algebraId, Gen.greater, SpinComp.toNat] at this hc

theorem evalU_delta {m : List (Gen ι)} (h : CanonMon P m) :
    evalMon (repU (S := S)) m (delta (stU [])) = delta (stU m) := by
  induction m with
  | nil => simp [evalMon]
  | cons g m ih =>
    have := ih (canonU_tail h)
    simp only [evalMon, List.map_cons, List.prod_cons, Module.End.mul_apply] at this ⊢
    rw [this, repU_delta h]

/-- Multiplicity of a generator, read off the basis state. -/
def cntU (s : St ι) : Gen ι → ℕ
  | .fermion d i => if Gen.fermion d i ∈ s.F then 1 else 0
  | .boson d i => s.B (.boson d i)
  | .spin n c i => if n = 2 then (if s.L i = .sp c then 1 else 0) else s.B (.spin n c i)

theorem countU_st {m : List (Gen ι)} (h : CanonMon P m) (x : Gen ι) : m.count x = cntU (stU m) x := by
  induction m with
  | nil => cases x <;> simp [cntU, stU]
  | cons g m ih =>
    have ih := ih (canonU_tail h)
    rw [List.count_cons, ih]
    cases g with
    | fermion d i =>
      have hF : Gen.fermion d i ∉ (stU m).F := fun hh => fermionU_fresh h (memU_F hh)
      cases x with
      | fermion e j =>
        by_cases hx : Gen.fermion e j = .fermion d i
        · rw [hx]; simp [cntU, stU, hF]
        · have hx' : ¬ (Gen.fermion d i = Gen.fermion e j) := fun h => hx h.symm
          simp only [cntU, stU, Finset.mem_insert, hx, false_or, beq_iff_eq, hx', if_false, add_zero]
      | boson e j => simp [cntU, stU]
      | spin n c j => simp only [cntU, stU, beq_iff_eq, reduceCtorEq, if_false, add_zero]; congr
    | boson d i =>
      cases x with
      | fermion e j => simp only [cntU, stU, beq_iff_eq, reduceCtorEq, if_false, add_zero]; congr
      | boson e j =>
        by_cases hx : Gen.boson e j = .boson d i
        · rw [hx]; simp [cntU, stU]
        · have hx' : ¬ (Gen.boson d i = Gen.boson e j) := fun h => hx h.symm
          simp only [cntU, stU, Function.update_of_ne hx, beq_iff_eq, hx', if_false, add_zero]
      | spin n c j =>
        simp only [cntU, stU, Function.update_of_ne (show Gen.spin n c j ≠ .boson d i by simp), beq_iff_eq, reduceCtorEq,
          if_false, add_zero]
        try congr
    | spin n c i =>
      by_cases hn : n = 2
      · subst hn
        have hl : (stU m).L i = .one := by
          cases e : (stU m).L i with
          | one => rfl
          | sp c' => exact absurd (memU_L e) (spinU_fresh h)
        cases x with
        | fermion e j => simp only [cntU, stU, if_true, beq_iff_eq, reduceCtorEq, if_false, add_zero]; try congr
        | boson e j => simp [cntU, stU]
        | spin k e j =>
          by_cases hj : j = i
          · subst hj
            by_cases hk : k = 2
            · subst hk; simp [cntU, stU, hl]
            · simp [cntU, stU, hl, hk, Ne.symm hk]
          · simp [cntU, stU, Function.update_of_ne hj, Ne.symm hj]
      · cases x with
        | fermion e j => simp only [cntU, stU, if_neg hn, beq_iff_eq, reduceCtorEq, if_false, add_zero]; try congr
        | boson e j => simp [cntU, stU, hn]
        | spin k e j =>
          by_cases hx : Gen.spin k e j = .spin n c i
          · rw [hx]; simp [cntU, stU, hn]
          · have hx' : ¬ (Gen.spin n c i = Gen.spin k e j) := fun h => hx h.symm
            simp only [cntU, stU, if_neg hn, Function.update_of_ne hx, beq_iff_eq, hx', if_false, add_zero]
            

theorem stU_inj {m₁ m₂ : List (Gen ι)} (h₁ : CanonMon P m₁) (h₂ : CanonMon P m₂) (h : stU m₁ = stU m₂) : m₁ = m₂ := by
  have hp : m₁.Perm m₂ := by
    rw [List.perm_iff_count]
    intro a
    rw [countU_st h₁, countU_st h₂, h]
  exact List.Perm.eq_of_pairwise (le := fun a b => GenOps.gt a b = false)
    (fun a b _ _ h h' => ngt_antisymm h h') (pairwise_of_chain h₁.chain) (pairwise_of_chain h₂.chain) hp

theorem coeffU_eq {e : Expr (Gen ι) S} (hw : e.WF) (hc : e.AllCanon P) {k : List (Gen ι)} (hk : CanonMon P k) :
    e.coeff k = evalExpr (repU (S := S)) e (delta (stU [])) (stU k).F (stU k).B (stU k).L := by
  classical
  rw [Expr.coeff_eq_evalWith hw, evalExpr, evalTerms, ]
  have : ∀ t : List (List (Gen ι) × S), (∀ p ∈ t, CanonMon P p.1) →
      Terms.evalWith (fun m => if k = m then (1 : S) else 0) t
        = (t.map fun p => p.2 • evalMon (repU (S := S)) p.1).sum (delta (stU [])) (stU k).F (stU k).B (stU k).L := by
    intro t ht
    induction t with
    | nil => rfl
    | cons p t ih =>
      have hp := ht p (by simp)
      rw [Terms.evalWith_cons, ih fun q hq => ht q (by simp [hq])]
      simp only [List.map_cons, List.sum_cons, LinearMap.add_apply, Pi.add_apply, LinearMap.smul_apply, Pi.smul_apply]
      rw [evalU_delta hp, delta_apply]
      congr 2
      refine if_congr ⟨fun h => by rw [h], fun h => (stU_inj hp hk h).symm⟩ rfl rfl
  convert this e.terms hc

/-- Canonical expressions with the same representation are equal. -/
theorem eq_of_repU {a b : Expr (Gen ι) S} (ha : a.WF) (hb : b.WF) (hca : a.AllCanon P) (hcb : b.AllCanon P)
    (h : evalExpr (repU (S := S)) a = evalExpr (repU (S := S)) b) : a = b := by
  classical
  refine Expr.ext_coeff ha hb fun k => ?_
  by_cases hk : CanonMon P k
  · rw [coeffU_eq ha hca hk, coeffU_eq hb hcb hk, h]
  · have : ∀ e : Expr (Gen ι) S, e.WF → e.AllCanon P → e.coeff k = 0 := by
      intro e he hc
      simp only [Expr.coeff, Terms.coeff]
      cases hf : e.terms.find? k with
      | none => rfl
      | some v => exact absurd (hc _ (Terms.find?_mem hf)) hk
    rw [this a ha hca, this b hb hcb]

end LC.Reg
