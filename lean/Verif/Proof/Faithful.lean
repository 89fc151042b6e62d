import Verif.Proof.Regular
import Verif.Proof.Reachable
/-
The regular representation is faithful on canonical monomials.
-/
set_option linter.unusedSectionVars false
set_option linter.unusedSimpArgs false
set_option linter.unusedTactic false
set_option linter.unusedVariables false
namespace LC.Reg
open ConstScalar
variable {ι S : Type _} [LinearOrder ι] [CommRing S] [DecidableEq S] [ConstScalar S] [ScalarLaws S]

abbrev PH : Gen ι → Prop := Allowed halfOnly

/-- Basis states. -/
@[ext] structure St (ι : Type _) where
  F : Finset (Gen ι)
  B : Gen ι → ℕ
  L : ι → Loc

/-- The basis state of a monomial. -/
def st : List (Gen ι) → St ι
  | [] => ⟨∅, fun _ => 0, fun _ => .one⟩
  | .fermion d i :: m => { st m with F := insert (.fermion d i) (st m).F }
  | .boson d i :: m => { st m with B := Function.update (st m).B (.boson d i) ((st m).B (.boson d i) + 1) }
  | .spin _ c i :: m => { st m with L := Function.update (st m).L i (.sp c) }

open Classical in
/-- Basis vector. -/
noncomputable def delta (s : St ι) : V ι S := Pi.single s.F (Pi.single s.B (Pi.single s.L 1))

theorem mem_F {m : List (Gen ι)} {h : Gen ι} (hh : h ∈ (st m).F) : h ∈ m := by
  induction m with
  | nil => simp [st] at hh
  | cons g m ih =>
    cases g with
    | fermion d i =>
      simp only [st, Finset.mem_insert] at hh
      rcases hh with hh | hh
      · simp [hh]
      · simp [ih hh]
    | boson d i => simp [ih hh]
    | spin n c i => simp [ih hh]

theorem mem_B {m : List (Gen ι)} {h : Gen ι} (hh : (st m).B h ≠ 0) : h ∈ m := by
  induction m with
  | nil => simp [st] at hh
  | cons g m ih =>
    cases g with
    | fermion d i => simp [ih hh]
    | boson d i =>
      by_cases e : h = .boson d i
      · simp [e]
      · simp only [st, Function.update_of_ne e] at hh
        simp [ih hh]
    | spin n c i => simp [ih hh]

theorem mem_L {m : List (Gen ι)} (hP : ∀ g ∈ m, PH g) {i : ι} {c : SpinComp} (hh : (st m).L i = .sp c) :
    Gen.spin 2 c i ∈ m := by
  induction m with
  | nil => simp [st] at hh
  | cons g m ih =>
    have ih := ih (fun g hg => hP g (by simp [hg]))
    cases g with
    | fermion d j => simp [ih hh]
    | boson d j => simp [ih hh]
    | spin n c' j =>
      have hn : n = 2 := hP (.spin n c' j) (by simp)
      by_cases e : i = j
      · subst e
        simp only [st, Function.update_self, Loc.sp.injEq] at hh
        subst hh; subst hn; simp
      · simp only [st, Function.update_of_ne e] at hh
        simp [ih hh]

theorem ngt_of_mem {g : Gen ι} {m : List (Gen ι)} (h : CanonMon PH (g :: m)) {x : Gen ι} (hx : x ∈ m) :
    GenOps.gt g x = false := (List.pairwise_cons.1 (pairwise_of_chain h.chain)).1 x hx

theorem canon_tail {g : Gen ι} {m : List (Gen ι)} (h : CanonMon PH (g :: m)) : CanonMon PH m := by
  refine ⟨fun x hx => h.mem x (by simp [hx]), ?_, ?_⟩
  · exact List.IsChain.tail h.chain
  · intro x hx p hp hc
    refine h.pow x (by simp [hx]) p hp (hc.trans ?_)
    rw [List.countP_cons]; omega

/-- Between the head and a later element there is the second element. -/
theorem second_le {g : Gen ι} {m : List (Gen ι)} (h : CanonMon PH (g :: m)) {x : Gen ι} (hx : x ∈ m) :
    ∃ z m', m = z :: m' ∧ OKPair g z ∧ GenOps.gt z x = false := by
  cases m with
  | nil => simp at hx
  | cons z m' =>
    refine ⟨z, m', rfl, ?_, ?_⟩
    · have := h.chain
      rw [List.isChain_cons_cons] at this
      exact this.1
    · rcases List.mem_cons.1 hx with rfl | hx
      · exact ngt_refl _
      · exact ngt_of_mem (canon_tail h) hx

theorem fermion_fresh {d : Bool} {i : ι} {m : List (Gen ι)} (h : CanonMon PH (.fermion d i :: m)) :
    Gen.fermion d i ∉ m := by
  intro hx
  obtain ⟨z, m', rfl, hok, hz⟩ := second_le h hx
  have : z = .fermion d i := ngt_antisymm hz hok.1
  subst this
  have := hok.2
  simp [GenOps.simplifyProd, Gen.simplifyProd, Gen.eqOp_iff] at this

theorem spin_fresh {n : Nat} {c c' : SpinComp} {i : ι} {m : List (Gen ι)} (h : CanonMon PH (.spin n c i :: m)) :
    Gen.spin 2 c' i ∉ m := by
  intro hx
  have hn : n = 2 := h.mem (.spin n c i) (by simp)
  subst hn
  obtain ⟨z, m', rfl, hok, hz⟩ := second_le h hx
  have h1 := hok.1
  have hPz : PH z := h.mem z (by simp)
  cases z with
  | fermion d j => simp [GenOps.gt, Gen.gtOp, Gen.algebraId] at h1
  | boson d j => simp [GenOps.gt, Gen.gtOp, Gen.algebraId] at h1
  | spin k e j =>
    have hk : k = 2 := hPz
    subst hk
    simp [GenOps.gt, Gen.gtOp, Gen.algebraId, Gen.greater] at h1 hz
    have hij : i = j := by
      by_contra hne
      simp only [hne, if_false, Ne.symm hne, decide_eq_false_iff_not, not_lt] at h1 hz
      exact hne (le_antisymm h1 hz)
    subst hij
    have := hok.2
    simp only [GenOps.simplifyProd, Gen.simplifyProd] at this
    split at this
    · simp_all
    · split at this
      · simp at this
      · split at this
        · split at this <;> simp at this
        · simp at this

/-! #### action on basis vectors -/
section
variable {X R : Type _} [DecidableEq X] [AddCommGroup R] [Module S R]

open Classical in
theorem W_single {lt : X → X → Bool} (hirr : ∀ a, lt a a = false) (g : X) (F : Finset X) (v : R)
    (hg : g ∉ F) (hlt : ∀ h ∈ F, lt h g = false) :
    W (S := S) lt g (Pi.single F v) = Pi.single (insert g F) v := by
  funext s
  rw [W_apply]
  by_cases hs : s = insert g F
  · subst hs
    rw [if_pos (by simp), Finset.erase_insert hg, Pi.single_eq_same, Pi.single_eq_same, sgn_insert_self hirr _ _ hg]
    have : below lt g F = 0 := by
      rw [below, Finset.card_eq_zero, Finset.filter_eq_empty_iff]
      intro h hh; simp [hlt h hh]
    simp [sgn, this]
  · rw [Pi.single_eq_of_ne hs]
    split
    · rename_i hgs
      rw [Pi.single_eq_of_ne, smul_zero]
      intro he
      exact hs (by rw [← he, Finset.insert_erase hgs])
    · rfl

open Classical in
theorem K_single {lt : X → X → Bool} (g : X) (F : Finset X) (v : R) (hg : g ∉ F) :
    K (S := S) lt g (Pi.single F v) = 0 := by
  funext s
  rw [K_apply]
  split
  · rfl
  · rw [Pi.single_eq_of_ne, smul_zero]; rfl
    intro he
    exact hg (by rw [← he]; simp)

open Classical in
theorem X_single (g : X) (n : X → ℕ) (v : R) :
    Xp (S := S) g (Pi.single n v) = Pi.single (Function.update n g (n g + 1)) v := by
  funext s
  rw [X_apply]
  by_cases hs : s = Function.update n g (n g + 1)
  · subst hs
    rw [if_neg (by simp), Pi.single_eq_same]
    simp
  · rw [Pi.single_eq_of_ne hs]
    split
    · rfl
    · rename_i h0
      rw [Pi.single_eq_of_ne]
      intro he
      apply hs
      rw [← he]
      simp only [Function.update_self, Function.update_idem]
      rw [show s g - 1 + 1 = s g by omega, Function.update_eq_self]

open Classical in
theorem D_single (g : X) (n : X → ℕ) (v : R) (h0 : n g = 0) : D (S := S) g (Pi.single n v) = 0 := by
  funext s
  rw [D_apply, Pi.single_eq_of_ne, smul_zero]; rfl
  intro he
  rw [← he] at h0
  simp at h0

theorem lift_single {I : Type _} [DecidableEq I] (f : Module.End S R) (x : I) (v : R) :
    lift I f (Pi.single x v) = Pi.single x (f v) := by
  funext y
  rw [lift_apply]
  by_cases h : y = x
  · subst h; simp
  · simp [h]

open Classical in
theorem site_single (i : X) (c : SpinComp) (l : X → Loc) (hl : l i = .one) :
    site i (T (S := S) c) (Pi.single l 1) = Pi.single (Function.update l i (.sp c)) 1 := by
  funext s
  rw [site_apply]
  have key : ∀ l' : Loc, (Pi.single l (1 : S) : (X → Loc) → S) (Function.update s i l')
      = if l' = .one ∧ Function.update s i .one = l then 1 else 0 := by
    intro l'
    by_cases h : Function.update s i l' = l
    · have e : l' = .one := by rw [← h] at hl; simpa using hl
      subst e
      rw [if_pos ⟨rfl, h⟩, h]; simp
    · rw [Pi.single_eq_of_ne h, if_neg]
      rintro ⟨rfl, h'⟩; exact h h'
  simp only [key, mul_ite, mul_one, mul_zero]
  by_cases hs : s = Function.update l i (.sp c)
  · subst hs
    have e : Function.update l i Loc.one = l := by rw [← hl, Function.update_eq_self]
    simp [T_one, e]
  · rw [Pi.single_eq_of_ne hs]
    apply Finset.sum_eq_zero
    intro l' _
    split
    · rename_i h
      obtain ⟨rfl, h⟩ := h
      rw [T_one, if_neg]
      intro h'
      apply hs
      rw [← h, Function.update_idem, ← h', Function.update_eq_self]
    · rfl
end

theorem rep_delta {g : Gen ι} {m : List (Gen ι)} (h : CanonMon PH (g :: m)) :
    rep (S := S) g (delta (st m)) = delta (st (g :: m)) := by
  classical
  have hP : ∀ x ∈ m, PH x := fun x hx => h.mem x (by simp [hx])
  cases g with
  | fermion d i =>
    have hF : Gen.fermion d i ∉ (st m).F := fun hh => fermion_fresh h (mem_F hh)
    have hlt : ∀ x ∈ (st m).F, glt x (.fermion d i) = false := by
      intro x hx
      have := ngt_of_mem h (mem_F hx)
      rwa [LawfulGen.gt_iff] at this
    cases d with
    | true => exact W_single glt_irr _ _ _ hF hlt
    | false =>
      have hK : Gen.fermion true i ∉ (st m).F := by
        intro hh
        have := ngt_of_mem h (mem_F hh)
        simp [GenOps.gt, Gen.gtOp, Gen.algebraId, Gen.greater] at this
      simp only [rep, LinearMap.add_apply, delta]
      rw [W_single glt_irr _ _ _ hF hlt, K_single _ _ _ hK, add_zero]
      rfl
  | boson d i =>
    simp only [rep, delta, lift_single, bos]
    cases d with
    | true => simp only [if_true, X_single]; rfl
    | false =>
      have hD : (st m).B (Gen.boson true i) = 0 := by
        by_contra hh
        have := ngt_of_mem h (mem_B hh)
        simp [GenOps.gt, Gen.gtOp, Gen.algebraId, Gen.greater] at this
      simp only [Bool.false_eq_true, if_false, LinearMap.add_apply, X_single, D_single _ _ _ hD, add_zero]; rfl
  | spin n c i =>
    simp only [rep, delta, lift_single]
    have hl : (st m).L i = .one := by
      cases e : (st m).L i with
      | one => rfl
      | sp c' => exact absurd (mem_L hP e) (spin_fresh h)
    rw [site_single _ _ _ hl]; rfl

/-- A canonical monomial applied to the vacuum gives its basis vector. -/
theorem eval_delta {m : List (Gen ι)} (h : CanonMon PH m) :
    evalMon (rep (S := S)) m (delta (st [])) = delta (st m) := by
  induction m with
  | nil => simp [evalMon]
  | cons g m ih =>
    have := ih (canon_tail h)
    simp only [evalMon, List.map_cons, List.prod_cons, Module.End.mul_apply] at this ⊢
    rw [this, rep_delta h]

/-- Multiplicity of a generator, read off the basis state. -/
def cnt (s : St ι) : Gen ι → ℕ
  | .fermion d i => if Gen.fermion d i ∈ s.F then 1 else 0
  | .boson d i => s.B (.boson d i)
  | .spin n c i => if n = 2 ∧ s.L i = .sp c then 1 else 0

theorem count_st {m : List (Gen ι)} (h : CanonMon PH m) (x : Gen ι) : m.count x = cnt (st m) x := by
  induction m with
  | nil => cases x <;> simp [cnt, st]
  | cons g m ih =>
    have ih := ih (canon_tail h)
    rw [List.count_cons, ih]
    cases g with
    | fermion d i =>
      have hF : Gen.fermion d i ∉ (st m).F := fun hh => fermion_fresh h (mem_F hh)
      cases x with
      | fermion e j =>
        by_cases hx : Gen.fermion e j = .fermion d i
        · rw [hx]; simp [cnt, st, hF]
        · have hx' : ¬ (Gen.fermion d i = Gen.fermion e j) := fun h => hx h.symm
          simp only [cnt, st, Finset.mem_insert, hx, false_or, beq_iff_eq, hx', if_false, add_zero]
      | boson e j => simp [cnt, st]
      | spin n c j => simp only [cnt, st, beq_iff_eq, reduceCtorEq, if_false, add_zero]; congr
    | boson d i =>
      cases x with
      | fermion e j => simp only [cnt, st, beq_iff_eq, reduceCtorEq, if_false, add_zero]; congr
      | boson e j =>
        by_cases hx : Gen.boson e j = .boson d i
        · rw [hx]; simp [cnt, st]
        · have hx' : ¬ (Gen.boson d i = Gen.boson e j) := fun h => hx h.symm
          simp only [cnt, st, Function.update_of_ne hx, beq_iff_eq, hx', if_false, add_zero]
      | spin n c j => simp only [cnt, st, beq_iff_eq, reduceCtorEq, if_false, add_zero]; congr
    | spin n c i =>
      have hn : n = 2 := h.mem (.spin n c i) (by simp)
      subst hn
      cases x with
      | fermion e j => simp only [cnt, st, beq_iff_eq, reduceCtorEq, if_false, add_zero]; congr
      | boson e j => simp [cnt, st]
      | spin k e j =>
        have hl : (st m).L i = .one := by
          cases e : (st m).L i with
          | one => rfl
          | sp c' => exact absurd (mem_L (fun x hx => h.mem x (by simp [hx])) e) (spin_fresh h)
        by_cases hj : j = i
        · subst hj
          by_cases hk : k = 2
          · subst hk; simp [cnt, st, hl]
          · simp [cnt, st, hl, hk, Ne.symm hk]
        · simp [cnt, st, Function.update_of_ne hj, Ne.symm hj]

theorem st_inj {m₁ m₂ : List (Gen ι)} (h₁ : CanonMon PH m₁) (h₂ : CanonMon PH m₂) (h : st m₁ = st m₂) : m₁ = m₂ := by
  have hp : m₁.Perm m₂ := by
    rw [List.perm_iff_count]
    intro a
    rw [count_st h₁, count_st h₂, h]
  exact List.Perm.eq_of_pairwise (le := fun a b => GenOps.gt a b = false)
    (fun a b _ _ h h' => ngt_antisymm h h') (pairwise_of_chain h₁.chain) (pairwise_of_chain h₂.chain) hp

theorem delta_apply (s t : St ι) [Decidable (s = t)] :
    (delta s : V ι S) t.F t.B t.L = if s = t then 1 else 0 := by
  classical
  simp only [delta]
  by_cases h : s = t
  · subst h; simp
  · rw [if_neg h]
    by_cases h1 : t.F = s.F
    · rw [h1, Pi.single_eq_same]
      by_cases h2 : t.B = s.B
      · rw [h2, Pi.single_eq_same]
        rw [Pi.single_eq_of_ne]
        intro h3
        exact h (St.ext h1.symm h2.symm h3.symm)
      · rw [Pi.single_eq_of_ne h2]; rfl
    · rw [Pi.single_eq_of_ne h1]; rfl

/-- The matrix element that reads off a coefficient. -/
theorem coeff_eq {e : Expr (Gen ι) S} (hw : e.WF) (hc : e.AllCanon PH) {k : List (Gen ι)} (hk : CanonMon PH k) :
    e.coeff k = evalExpr (rep (S := S)) e (delta (st [])) (st k).F (st k).B (st k).L := by
  classical
  rw [Expr.coeff_eq_evalWith hw, evalExpr, evalTerms, ]
  have : ∀ t : List (List (Gen ι) × S), (∀ p ∈ t, CanonMon PH p.1) →
      Terms.evalWith (fun m => if k = m then (1 : S) else 0) t
        = (t.map fun p => p.2 • evalMon (rep (S := S)) p.1).sum (delta (st [])) (st k).F (st k).B (st k).L := by
    intro t ht
    induction t with
    | nil => rfl
    | cons p t ih =>
      have hp := ht p (by simp)
      rw [Terms.evalWith_cons, ih fun q hq => ht q (by simp [hq])]
      simp only [List.map_cons, List.sum_cons, LinearMap.add_apply, Pi.add_apply, LinearMap.smul_apply, Pi.smul_apply]
      rw [eval_delta hp, delta_apply]
      congr 2
      refine if_congr ⟨fun h => by rw [h], fun h => (st_inj hp hk h).symm⟩ rfl rfl
  convert this e.terms hc

/-- Canonical expressions with the same regular representation are equal. -/
theorem eq_of_rep {a b : Expr (Gen ι) S} (ha : a.WF) (hb : b.WF) (hca : a.AllCanon PH) (hcb : b.AllCanon PH)
    (h : evalExpr (rep (S := S)) a = evalExpr (rep (S := S)) b) : a = b := by
  classical
  refine Expr.ext_coeff ha hb fun k => ?_
  by_cases hk : CanonMon PH k
  · rw [coeff_eq ha hca hk, coeff_eq hb hcb hk, h]
  · have : ∀ e : Expr (Gen ι) S, e.WF → e.AllCanon PH → e.coeff k = 0 := by
      intro e he hc
      simp only [Expr.coeff, Terms.coeff]
      cases hf : e.terms.find? k with
      | none => rfl
      | some v => exact absurd (hc _ (Terms.find?_mem hf)) hk
    rw [this a ha hca, this b hb hcb]

end LC.Reg
