import Verif.Proof.Linear
/-
Expressions seen through their coefficient function.
-/
set_option linter.unusedSectionVars false
set_option linter.unusedSimpArgs false
namespace LC
namespace Expr
open Terms
variable {G S : Type _} [GenOps G] [LawfulGen G] [CommRing S] [DecidableEq S] [ConstScalar S] [ScalarLaws S]

/-- The coefficient of a monomial in an expression. -/
def coeff (e : Expr G S) (k : List G) : S := e.terms.coeff k

/-- Canonical coefficient map. -/
def WF (e : Expr G S) : Prop := e.terms.Canon

theorem ext_coeff {a b : Expr G S} (ha : a.WF) (hb : b.WF) (h : ∀ k, a.coeff k = b.coeff k) : a = b :=
  Expr.ext (canon_ext ha hb h)

/-! #### the operations as sequences of `store` -/

theorem add_def (a b : Expr G S) : a + b = ⟨storeAll b.terms a.terms⟩ := rfl

theorem sub_step (t : Terms G S) (k : List G) (v : S) :
    (match t.find? k with
      | none => t.emplace k (0 - v)
      | some w => if w - v = 0 then t.erase k else t.assign k (w - v)) = t.store k (-v) := by
  simp only [store]
  cases t.find? k with
  | none => simp
  | some w => simp [sub_eq_add_neg]

theorem sub_def (a b : Expr G S) : a - b = ⟨storeAll (b.terms.map fun p => (p.1, -p.2)) a.terms⟩ := by
  show subAssign a b = _
  simp only [storeAll, List.foldl_map]
  refine Expr.ext ?_
  exact foldl_congr_mem _ _ _ (fun t p _ => sub_step t p.1 p.2) _

theorem neg_def (a : Expr G S) : -a = ⟨a.terms.map fun p => (p.1, -p.2)⟩ := rfl

/-- All pairs stored while multiplying. -/
def mulLog (a b : Terms G S) : List (List G × S) :=
  a.flatMap fun p => b.flatMap fun q => emits (p.1 ++ q.1) (p.2 * q.2)

theorem mul_def (a b : Expr G S) : a * b = ⟨storeAll (mulLog a.terms b.terms) []⟩ := by
  show mulAssign a b = _
  simp only [mulAssign, mulLog, storeAll, List.foldl_flatMap, normalize_store]

theorem smul_def (x : S) (a : Expr G S) : x • a = smulPrefix x a := rfl

/-! #### sortedness and non-zero coefficients -/

theorem sorted_mapVal {t : Terms G S} (h : t.Sorted) (f : List G × S → S) :
    Terms.Sorted (t.map fun p => (p.1, f p)) := by
  simp only [Terms.Sorted, List.pairwise_map]; exact h

theorem wf_zero : (0 : Expr G S).WF := canon_nil

theorem wf_const (x : S) : (const x : Expr G S).WF := by
  simp only [WF, const]
  split
  · exact canon_nil
  · rename_i h
    exact ⟨by simp [Terms.Sorted], by simpa [NonZero] using h⟩

theorem wf_neg {a : Expr G S} (h : a.WF) : (-a).WF := by
  refine ⟨sorted_mapVal h.1 _, ?_⟩
  intro p hp
  simp only [neg_def, List.mem_map] at hp
  obtain ⟨q, hq, rfl⟩ := hp
  simpa using h.2 q hq

theorem wf_add {a b : Expr G S} (ha : a.WF) (hb : b.WF) : (a + b).WF := canon_storeAll _ hb.2 ha

theorem wf_sub {a b : Expr G S} (ha : a.WF) (hb : b.WF) : (a - b).WF := by
  rw [sub_def]; exact canon_storeAll _ (wf_neg hb).2 ha

theorem wf_smulPrefix [IsDomain S] (x : S) {a : Expr G S} (h : a.WF) : (smulPrefix x a).WF := by
  simp only [smulPrefix]
  split
  · exact canon_nil
  · rename_i h0
    refine ⟨sorted_mapVal h.1 _, ?_⟩
    intro p hp
    simp only [List.mem_map] at hp
    obtain ⟨q, hq, rfl⟩ := hp
    exact mul_ne_zero h0 (h.2 q hq)

theorem smulPostfix_eq (x : S) (a : Expr G S) : smulPostfix a x = smulPrefix x a := by
  simp only [smulPostfix, smulPrefix, mul_comm]

theorem smulAssign_eq (x : S) (a : Expr G S) : smulAssign a x = smulPrefix x a := by
  simp only [smulAssign, smulPrefix, mul_comm]

theorem wf_mul [IsDomain S] [CharZero S] [GoodGen G] {a b : Expr G S} (ha : a.WF) (hb : b.WF) : (a * b).WF := by
  rw [mul_def]
  refine canon_storeAll _ ?_ canon_nil
  intro p hp
  simp only [mulLog, List.mem_flatMap] at hp
  obtain ⟨q, hq, r, hr, hp⟩ := hp
  exact emits_nonzero _ _ (mul_ne_zero (ha.2 q hq) (hb.2 r hr)) p hp

theorem wf_ofMonomial [IsDomain S] [CharZero S] [GoodGen G] (x : S) (m : List G) : (ofMonomial x m).WF := by
  simp only [ofMonomial, WF]
  split
  · exact canon_nil
  · rename_i h
    exact canon_normalize m x h [] canon_nil

theorem addScalar_eq (a : Expr G S) (x : S) : a.addScalar x = a + const x := by
  simp only [addScalar, add_def, const]
  split
  · rfl
  · rfl

theorem scalarAdd_eq (a : Expr G S) (x : S) : scalarAdd x a = a + const x := by
  simp only [scalarAdd, add_def, const]
  split
  · rfl
  · rfl

theorem addAssignScalar_eq (a : Expr G S) (x : S) : a.addAssignScalar x = a + const x := by
  rw [← addScalar_eq]
  simp only [addAssignScalar, addScalar, zero_add]

theorem subScalar_eq (a : Expr G S) (x : S) : a.subScalar x = a - const x := by
  rw [sub_def]
  simp only [subScalar, const]
  split
  · rfl
  · exact Expr.ext (sub_step a.terms [] x)

theorem subAssignScalar_eq (a : Expr G S) (x : S) : a.subAssignScalar x = a - const x := by
  rw [← subScalar_eq]; rfl

/-! #### coefficient functions -/

theorem coeff_zero (k : List G) : (0 : Expr G S).coeff k = 0 := rfl

open Classical in
theorem coeff_const (x : S) (k : List G) : (const x : Expr G S).coeff k = if k = [] then x else 0 := by
  simp only [const, coeff]
  split
  · rename_i h; subst h; simp [coeff_nil]
  · rw [coeff_eq_sumAt (by simp [Terms.Sorted])]; simp

theorem coeff_add {a b : Expr G S} (ha : a.WF) (hb : b.WF) (k : List G) :
    (a + b).coeff k = a.coeff k + b.coeff k := by
  rw [add_def]; simp only [coeff]
  rw [coeff_storeAll _ ha.1, coeff_eq_sumAt hb.1]

theorem find?_mapVal (f : S → S) (t : Terms G S) (k : List G) :
    Terms.find? k (t.map fun p => (p.1, f p.2)) = (t.find? k).map f := by
  induction t with
  | nil => rfl
  | cons p t ih =>
    obtain ⟨k', v⟩ := p
    simp only [List.map_cons, find?, ih]
    split
    · rfl
    · split <;> rfl

theorem coeff_neg (a : Expr G S) (k : List G) : (-a).coeff k = -a.coeff k := by
  simp only [neg_def, coeff, Terms.coeff, find?_mapVal]
  cases a.terms.find? k <;> simp

theorem coeff_smulPrefix (x : S) (a : Expr G S) (k : List G) : (smulPrefix x a).coeff k = x * a.coeff k := by
  simp only [smulPrefix]
  split
  · rename_i h; simp [h, coeff, coeff_nil]
  · simp only [coeff, Terms.coeff, find?_mapVal (fun v => x * v)]
    cases a.terms.find? k <;> simp

theorem coeff_sub {a b : Expr G S} (ha : a.WF) (hb : b.WF) (k : List G) :
    (a - b).coeff k = a.coeff k - b.coeff k := by
  rw [sub_def]; simp only [coeff]
  have := coeff_neg b k
  rw [coeff, coeff_eq_sumAt (wf_neg hb).1] at this
  simp only [coeff, neg_def] at this
  rw [coeff_storeAll _ ha.1, this, sub_eq_add_neg]

/-- Coefficient of `k` in the normal form of the product `m`. -/
noncomputable def nf (S : Type _) [CommRing S] [DecidableEq S] [ConstScalar S] (m k : List G) : S :=
  sumAt (emits m (1 : S)) k

theorem coeff_mul (a b : Expr G S) (k : List G) :
    (a * b).coeff k = evalWith (fun m₁ => evalWith (fun m₂ => nf S (m₁ ++ m₂) k) b.terms) a.terms := by
  rw [mul_def]; simp only [coeff]
  rw [coeff_storeAll _ canon_nil.1]
  simp only [coeff_nil, zero_add, mulLog]
  induction a.terms with
  | nil => simp
  | cons p t ih =>
    rw [List.flatMap_cons, sumAt_append, ih, evalWith_cons]
    congr 1
    induction b.terms with
    | nil => simp
    | cons q u ih2 =>
      rw [List.flatMap_cons, sumAt_append, ih2, evalWith_cons, sumAt_emits]
      simp [nf, mul_add, mul_assoc]

open Classical in
theorem coeff_ofMonomial (x : S) (m k : List G) : (ofMonomial x m).coeff k = x * nf S m k := by
  simp only [ofMonomial, coeff]
  split
  · rename_i h; simp [h, coeff_nil]
  · rw [normalize_store, coeff_storeAll _ canon_nil.1, sumAt_emits]
    simp [coeff_nil, nf]

section
variable {M : Type _} [AddCommGroup M] [Module S M] (s : List G → M)

theorem evalWith_expr_add (a b : Expr G S) :
    evalWith s (a + b).terms = evalWith s a.terms + evalWith s b.terms := evalWith_storeAll s _ _

theorem evalWith_expr_smul (x : S) (a : Expr G S) :
    evalWith s (smulPrefix x a).terms = x • evalWith s a.terms := by
  simp only [smulPrefix]
  split
  · rename_i h; simp [h]
  · exact evalWith_mapSmul s x _

theorem evalWith_expr_neg (a : Expr G S) : evalWith s (-a).terms = - evalWith s a.terms := by
  have := evalWith_mapSmul s (-1 : S) a.terms
  simp only [neg_one_mul, neg_one_smul] at this
  rw [neg_def]; rw [← this]

theorem evalWith_expr_sub (a b : Expr G S) :
    evalWith s (a - b).terms = evalWith s a.terms - evalWith s b.terms := by
  rw [sub_def, sub_eq_add_neg, ← evalWith_expr_neg]
  exact evalWith_storeAll s _ _
end

open Classical in
/-- Recover a coefficient as a linear functional. -/
theorem coeff_eq_evalWith {a : Expr G S} (ha : a.WF) (k : List G) :
    a.coeff k = evalWith (fun m => if k = m then (1 : S) else 0) a.terms := by
  rw [coeff, coeff_eq_sumAt ha.1, sumAt_eq_evalWith]

/-! #### `operator==` -/

theorem zip_all_iff : ∀ t u : Terms G S,
    (t.length == u.length && (List.zipWith (fun p q => monEq p.1 q.1 && decide (p.2 = q.2)) t u).all id) = true ↔ t = u
  | [], [] => by simp
  | [], _ :: _ => by simp
  | _ :: _, [] => by simp
  | p :: t, q :: u => by
    have := zip_all_iff t u
    simp only [Bool.and_eq_true, beq_iff_eq] at this
    simp only [List.length_cons, List.zipWith_cons_cons, List.all_cons, id, Bool.and_eq_true, beq_iff_eq,
      decide_eq_true_eq, monEq_iff, List.cons.injEq, ← this, Prod.ext_iff]
    constructor
    · rintro ⟨h, h', h''⟩; exact ⟨h', by omega, h''⟩
    · rintro ⟨h, h', h''⟩; exact ⟨by omega, h, h''⟩

theorem eqOp_iff (a b : Expr G S) : eqOp a b = true ↔ a = b := by
  rw [eqOp, zip_all_iff]
  exact ⟨fun h => Expr.ext h, fun h => by rw [h]⟩

/-! #### emplacing an increasing sequence at the end -/

theorem emplace_last {t : Terms G S} {k : List G} (h : ∀ p ∈ t, monLt p.1 k = true) (v : S) :
    t.emplace k v = t ++ [(k, v)] := by
  induction t with
  | nil => rfl
  | cons p t ih =>
    have h1 := h p (by simp)
    simp only [emplace, h1, if_true, List.cons_append]
    rw [ih fun q hq => h q (by simp [hq])]

theorem foldl_emplace_map {S' : Type _} (f : List G × S → S') (P : List G × S → Bool)
    (t : Terms G S) (ht : t.Sorted) (res : Terms G S') (hr : ∀ p ∈ res, ∀ q ∈ t, monLt p.1 q.1 = true) :
    t.foldl (fun (r : Terms G S') p => if P p then r else r.emplace p.1 (f p)) res
      = res ++ t.filterMap fun p => if P p then none else some (p.1, f p) := by
  induction t generalizing res with
  | nil => simp
  | cons p t ih =>
    simp only [Terms.Sorted, List.pairwise_cons] at ht
    rw [List.foldl_cons, List.filterMap_cons]
    by_cases h : P p = true
    · simp only [h, if_true]
      exact ih ht.2 res fun q hq r hr' => hr q hq r (by simp [hr'])
    · simp only [h]
      have : ∀ (t : Terms G S') (k : List G) (v : S'), (∀ p ∈ t, monLt p.1 k = true) →
          t.emplace k v = t ++ [(k, v)] := by
        intro t k v h
        induction t with
        | nil => rfl
        | cons p t ih =>
          have h1 := h p (by simp)
          simp only [emplace, h1, if_true, List.cons_append]
          rw [ih fun q hq => h q (by simp [hq])]
      simp only [Bool.false_eq_true, if_false]
      rw [this res p.1 (f p) fun q hq => hr q hq p (by simp), ih ht.2]
      · simp
      · intro q hq r hr'
        rcases List.mem_append.1 hq with h | h
        · exact hr q h r (by simp [hr'])
        · simp at h; subst h; exact ht.1 r hr'

theorem scalarSub_eq {a : Expr G S} (ha : a.WF) (x : S) : scalarSub x a = (-a) + const x := by
  have h : a.terms.foldl (fun (t : Terms G S) p => t.emplace p.1 (0 - p.2)) [] = (-a).terms := by
    have := foldl_emplace_map (fun p : List G × S => 0 - p.2) (fun _ => false) a.terms ha.1 [] (by simp)
    simp only [Bool.false_eq_true, if_false, List.nil_append, List.filterMap_eq_map'] at this
    rw [this]
    simp [neg_def]
  simp only [scalarSub, h]
  rw [← addScalar_eq]
  simp only [addScalar]

theorem transform_terms {S' : Type _} [CommRing S'] [DecidableEq S'] {a : Expr G S} (ha : a.WF)
    (f : List G → S → S') : (a.transform f).terms
      = a.terms.filterMap fun p => if f p.1 p.2 = 0 then none else some (p.1, f p.1 p.2) := by
  have := foldl_emplace_map (fun p : List G × S => f p.1 p.2) (fun p => decide (f p.1 p.2 = 0)) a.terms ha.1 []
    (by simp)
  simpa [transform] using this

theorem wf_transform {S' : Type _} [CommRing S'] [DecidableEq S'] {a : Expr G S} (ha : a.WF)
    (f : List G → S → S') : (a.transform f).WF := by
  constructor
  · rw [transform_terms ha]
    simp only [Terms.Sorted, List.pairwise_filterMap]
    refine List.Pairwise.imp ?_ ha.1
    intro p q h b hb c hc
    split at hb <;> simp at hb
    split at hc <;> simp at hc
    subst hb hc; exact h
  · intro p hp
    rw [transform_terms ha] at hp
    simp only [List.mem_filterMap] at hp
    obtain ⟨q, _, h⟩ := hp
    split at h
    · simp at h
    · rename_i h0; simp at h; subst h; exact h0

/-! #### ordered merge -/

theorem sorted_append_last {res : Terms G S} (hr : res.Sorted) {k : List G} {v : S}
    (h : ∀ p ∈ res, monLt p.1 k = true) : Terms.Sorted (res ++ [(k, v)]) := by
  simp only [Terms.Sorted, List.pairwise_append]
  exact ⟨hr, by simp, fun p hp q hq => by simp at hq; subst hq; exact h p hp⟩

theorem mergeAdd_spec (res t₁ t₂ : Terms G S) : res.Canon → t₁.Canon → t₂.Canon →
    (∀ p ∈ res, ∀ q ∈ t₁, monLt p.1 q.1 = true) → (∀ p ∈ res, ∀ q ∈ t₂, monLt p.1 q.1 = true) →
    (mergeAdd res t₁ t₂).Canon ∧
      ∀ k, sumAt (mergeAdd res t₁ t₂) k = sumAt res k + sumAt t₁ k + sumAt t₂ k := by
  have step : ∀ (res : Terms G S) (k : List G) (v : S), res.Canon → v ≠ 0 →
      (∀ p ∈ res, monLt p.1 k = true) → (res.emplace k v).Canon ∧ res.emplace k v = res ++ [(k, v)] := by
    intro res k v hr hv h
    rw [emplace_last h]
    refine ⟨⟨sorted_append_last hr.1 h, ?_⟩, rfl⟩
    intro p hp
    rcases List.mem_append.1 hp with h | h
    · exact hr.2 p h
    · simp at h; subst h; exact hv
  have canon_tail : ∀ {p : List G × S} {t : Terms G S}, Canon (p :: t) →
      Canon t ∧ (∀ q ∈ t, monLt p.1 q.1 = true) ∧ p.2 ≠ 0 := by
    intro p t h
    have := h.1
    simp only [Terms.Sorted, List.pairwise_cons] at this
    exact ⟨⟨this.2, fun q hq => h.2 q (by simp [hq])⟩, this.1, h.2 p (by simp)⟩
  fun_induction mergeAdd res t₁ t₂ with
  | case1 res => intro h _ _ _ _; exact ⟨h, by simp⟩
  | case2 res k₂ v₂ t₂ ih =>
    intro hr h1 h2 hc1 hc2
    obtain ⟨ht, hlt, hne⟩ := canon_tail h2
    obtain ⟨hc, he⟩ := step res k₂ (0 + v₂) hr (by simpa using hne) (fun p hp => hc2 p hp (k₂, v₂) (by simp))
    obtain ⟨ih1, ih2⟩ := ih hc h1 ht (by simp) (by
      intro p hp q hq
      rw [he] at hp
      rcases List.mem_append.1 hp with h | h
      · exact hc2 p h q (by simp [hq])
      · simp at h; subst h; exact hlt q hq)
    refine ⟨ih1, fun k => ?_⟩
    rw [ih2, he]; simp; ring
  | case3 res k₁ v₁ t₁ ih =>
    intro hr h1 h2 hc1 hc2
    obtain ⟨ht, hlt, hne⟩ := canon_tail h1
    obtain ⟨hc, he⟩ := step res k₁ (v₁ + 0) hr (by simpa using hne) (fun p hp => hc1 p hp (k₁, v₁) (by simp))
    obtain ⟨ih1, ih2⟩ := ih hc ht h2 (by
      intro p hp q hq
      rw [he] at hp
      rcases List.mem_append.1 hp with h | h
      · exact hc1 p h q (by simp [hq])
      · simp at h; subst h; exact hlt q hq) (by simp)
    refine ⟨ih1, fun k => ?_⟩
    rw [ih2, he]; simp; ring
  | case4 res k₁ v₁ t₁ k₂ v₂ t₂ hlt12 ih =>
    intro hr h1 h2 hc1 hc2
    obtain ⟨ht, hlt, hne⟩ := canon_tail h1
    obtain ⟨ht', hlt', hne'⟩ := canon_tail h2
    obtain ⟨hc, he⟩ := step res k₁ (v₁ + 0) hr (by simpa using hne) (fun p hp => hc1 p hp (k₁, v₁) (by simp))
    obtain ⟨ih1, ih2⟩ := ih hc ht h2 (by
      intro p hp q hq
      rw [he] at hp
      rcases List.mem_append.1 hp with h | h
      · exact hc1 p h q (by simp [hq])
      · simp at h; subst h; exact hlt q hq) (by
      intro p hp q hq
      rw [he] at hp
      rcases List.mem_append.1 hp with h | h
      · exact hc2 p h q hq
      · simp at h; subst h
        rcases List.mem_cons.1 hq with h | h
        · subst h; exact hlt12
        · exact monLt_trans hlt12 (hlt' q h))
    refine ⟨ih1, fun k => ?_⟩
    rw [ih2, he]; simp; ring
  | case5 res k₁ v₁ t₁ k₂ v₂ t₂ _ hlt21 ih =>
    intro hr h1 h2 hc1 hc2
    obtain ⟨ht, hlt, hne⟩ := canon_tail h1
    obtain ⟨ht', hlt', hne'⟩ := canon_tail h2
    obtain ⟨hc, he⟩ := step res k₂ (0 + v₂) hr (by simpa using hne') (fun p hp => hc2 p hp (k₂, v₂) (by simp))
    obtain ⟨ih1, ih2⟩ := ih hc h1 ht' (by
      intro p hp q hq
      rw [he] at hp
      rcases List.mem_append.1 hp with h | h
      · exact hc1 p h q hq
      · simp at h; subst h
        rcases List.mem_cons.1 hq with h | h
        · subst h; exact hlt21
        · exact monLt_trans hlt21 (hlt q h)) (by
      intro p hp q hq
      rw [he] at hp
      rcases List.mem_append.1 hp with h | h
      · exact hc2 p h q (by simp [hq])
      · simp at h; subst h; exact hlt' q hq)
    refine ⟨ih1, fun k => ?_⟩
    rw [ih2, he]; simp; ring
  | case6 res k₁ v₁ t₁ k₂ v₂ t₂ hn1 hn2 hz ih =>
    intro hr h1 h2 hc1 hc2
    obtain ⟨ht, hlt, hne⟩ := canon_tail h1
    obtain ⟨ht', hlt', hne'⟩ := canon_tail h2
    have hk : k₁ = k₂ := by
      rcases monLt_tri k₁ k₂ with h3 | h3 | h3 <;> simp_all
    obtain ⟨ih1, ih2⟩ := ih hr ht ht' (fun p hp q hq => hc1 p hp q (by simp [hq]))
      (fun p hp q hq => hc2 p hp q (by simp [hq]))
    refine ⟨ih1, fun k => ?_⟩
    rw [ih2, hk]
    simp
    split
    · have : v₂ = - v₁ := by rw [eq_neg_iff_add_eq_zero, add_comm]; exact hz
      rw [this]; ring
    · ring
  | case7 res k₁ v₁ t₁ k₂ v₂ t₂ hn1 hn2 hz ih =>
    intro hr h1 h2 hc1 hc2
    obtain ⟨ht, hlt, hne⟩ := canon_tail h1
    obtain ⟨ht', hlt', hne'⟩ := canon_tail h2
    have hk : k₁ = k₂ := by
      rcases monLt_tri k₁ k₂ with h3 | h3 | h3 <;> simp_all
    obtain ⟨hc, he⟩ := step res k₁ (v₁ + v₂) hr hz (fun p hp => hc1 p hp (k₁, v₁) (by simp))
    obtain ⟨ih1, ih2⟩ := ih hc ht ht' (by
      intro p hp q hq
      rw [he] at hp
      rcases List.mem_append.1 hp with h | h
      · exact hc1 p h q (by simp [hq])
      · simp at h; subst h; exact hlt q hq) (by
      intro p hp q hq
      rw [he] at hp
      rcases List.mem_append.1 hp with h | h
      · exact hc2 p h q (by simp [hq])
      · simp at h; subst h; rw [hk]; exact hlt' q hq)
    refine ⟨ih1, fun k => ?_⟩
    rw [ih2, he, hk]; simp; split <;> ring

theorem mergeSub_eq (res t₁ t₂ : Terms G S) :
    mergeSub res t₁ t₂ = mergeAdd res t₁ (t₂.map fun p => (p.1, -p.2)) := by
  fun_induction mergeSub res t₁ t₂ with
  | case1 res => simp [mergeAdd]
  | case2 res k₂ v₂ t₂ ih => rw [ih]; simp [mergeAdd]
  | case3 res k₁ v₁ t₁ ih => rw [ih]; simp [mergeAdd]
  | case4 res k₁ v₁ t₁ k₂ v₂ t₂ h ih => rw [ih]; simp [mergeAdd, h]
  | case5 res k₁ v₁ t₁ k₂ v₂ t₂ h h' ih => rw [ih]; simp [mergeAdd, h, h']
  | case6 res k₁ v₁ t₁ k₂ v₂ t₂ h h' hz ih => rw [ih]; simp [mergeAdd, h, h', ← sub_eq_add_neg, hz]
  | case7 res k₁ v₁ t₁ k₂ v₂ t₂ h h' hz ih => rw [ih]; simp [mergeAdd, h, h', ← sub_eq_add_neg, hz]

theorem addMixed_eq {a b : Expr G S} (ha : a.WF) (hb : b.WF) : addMixed a b = a + b := by
  obtain ⟨h1, h2⟩ := mergeAdd_spec [] a.terms b.terms canon_nil ha hb (by simp) (by simp)
  refine ext_coeff h1 (wf_add ha hb) fun k => ?_
  rw [coeff_add ha hb]
  simp only [coeff, addMixed]
  rw [coeff_eq_sumAt h1.1, h2, coeff_eq_sumAt ha.1, coeff_eq_sumAt hb.1]; simp

theorem sub_eq_add_neg' {a b : Expr G S} (ha : a.WF) (hb : b.WF) : a - b = a + (-b) := by
  refine ext_coeff (wf_sub ha hb) (wf_add ha (wf_neg hb)) fun k => ?_
  rw [coeff_sub ha hb, coeff_add ha (wf_neg hb), coeff_neg, sub_eq_add_neg]

theorem subMixed_eq {a b : Expr G S} (ha : a.WF) (hb : b.WF) : subMixed a b = a - b := by
  rw [sub_eq_add_neg' ha hb, ← addMixed_eq ha (wf_neg hb)]
  simp only [subMixed, addMixed, mergeSub_eq]; rfl

/-! #### conjugation -/

theorem wf_ofLinFun [IsDomain S] [CharZero S] [GoodGen G] {f : LinFun G} (hf : f.Good) :
    (ofLinFun f : Expr G S).WF := by
  have h0 : Canon (if f.const.isZero = true then [] else [([], ConstScalar.makeConst f.const)] : Terms G S) := by
    split
    · exact canon_nil
    · rename_i h
      exact ⟨by simp [Terms.Sorted], by simpa [NonZero] using (hf.1.resolve_left h).ne_zero⟩
  refine foldl_inv (I := fun e : Expr G S => e.WF) _ _ ?_ _ h0
  intro p _ e he
  simp only
  split
  · exact he
  · exact wf_add he (wf_ofMonomial _ _)

theorem wf_conj [IsDomain S] [CharZero S] [GoodGen G] [Star S] (hg : ∀ g : G, (GenOps.conj g).Good)
    (a : Expr G S) : (conj a).WF := by
  have : ∀ (l : List (List G × S)) (s : Expr G S × Expr G S), s.1.WF → s.2.WF →
      (l.foldl (fun (s : Expr G S × Expr G S) m =>
      let co := star m.2
      let contrib :=
        if co = 0 then s.2
        else m.1.reverse.foldl (fun e g => mulAssign e (ofLinFun (GenOps.conj g))) (const co)
      (addAssign s.1 contrib, contrib)) s).1.WF := by
    intro l
    induction l with
    | nil => intro s h _; exact h
    | cons p l ih =>
      intro s h1 h2
      rw [List.foldl_cons]
      have hc : (if star p.2 = 0 then s.2
        else p.1.reverse.foldl (fun e g => mulAssign e (ofLinFun (GenOps.conj g))) (const (star p.2))).WF := by
        split
        · exact h2
        · refine foldl_inv (I := fun e : Expr G S => e.WF) _ _ ?_ _ (wf_const _)
          intro g _ e he
          exact wf_mul he (wf_ofLinFun (hg g))
      exact ih _ (wf_add h1 hc) hc
  exact this _ _ canon_nil canon_nil

end Expr
end LC
