import Verif.Proof.AnyLemmas
import Verif.Spec.MixedPrograms
/-
Operations with two scalar types.
-/
set_option linter.unusedSectionVars false
set_option linter.unusedSimpArgs false
namespace LC
universe u
namespace Mixed
open Terms Any
variable {G : Type _} {S S' R : Type u} [GenOps G] [LawfulGen G] [ScalarOps S] [ScalarOps S'] [ScalarOps R]

/-- The merged sequence. -/
def mergeL (op : S → S' → R) (z1 : S) (z2 : S') : Terms G S → Terms G S' → Terms G R
  | [], [] => []
  | [], (k₂, v₂) :: t₂ => (k₂, op z1 v₂) :: mergeL op z1 z2 [] t₂
  | (k₁, v₁) :: t₁, [] => (k₁, op v₁ z2) :: mergeL op z1 z2 t₁ []
  | (k₁, v₁) :: t₁, (k₂, v₂) :: t₂ =>
      if monLt k₁ k₂ then (k₁, op v₁ z2) :: mergeL op z1 z2 t₁ ((k₂, v₂) :: t₂)
      else if monLt k₂ k₁ then (k₂, op z1 v₂) :: mergeL op z1 z2 ((k₁, v₁) :: t₁) t₂
      else if ScalarOps.isZero (op v₁ v₂) then mergeL op z1 z2 t₁ t₂
      else (k₁, op v₁ v₂) :: mergeL op z1 z2 t₁ t₂
  termination_by t₁ t₂ => t₁.length + t₂.length

theorem emplace_end {t : Terms G S} {k : List G} (h : ∀ p ∈ t, monLt p.1 k = true) (v : S) :
    t.emplace k v = t ++ [(k, v)] := by
  induction t with
  | nil => rfl
  | cons p t ih =>
    have h1 := h p (by simp)
    simp only [emplace, h1, if_true, List.cons_append]
    rw [ih fun q hq => h q (by simp [hq])]

theorem keyEq {k₁ k₂ : List G} (h : ¬ monLt k₁ k₂ = true) (h' : ¬ monLt k₂ k₁ = true) : k₁ = k₂ := by
  rcases monLt_tri k₁ k₂ with h1 | h1 | h1
  · exact absurd h1 h
  · exact h1
  · exact absurd h1 h'

theorem app {X : Type _} {res : Terms G R} {k : List G} {v : R} {t : List (List G × X)}
    (h : ∀ p ∈ res, ∀ q ∈ t, monLt p.1 q.1 = true) (h' : ∀ q ∈ t, monLt k q.1 = true) :
    ∀ p ∈ res ++ [(k, v)], ∀ q ∈ t, monLt p.1 q.1 = true := by
  intro p hp q hq
  rcases List.mem_append.1 hp with hp | hp
  · exact h p hp q hq
  · simp at hp; subst hp; exact h' q hq

theorem merge_eq (op : S → S' → R) (z1 : S) (z2 : S') (res : Terms G R) (t₁ : Terms G S) (t₂ : Terms G S')
    (h1 : t₁.Sorted) (h2 : t₂.Sorted) (hr1 : ∀ p ∈ res, ∀ q ∈ t₁, monLt p.1 q.1 = true)
    (hr2 : ∀ p ∈ res, ∀ q ∈ t₂, monLt p.1 q.1 = true) :
    merge op z1 z2 res t₁ t₂ = res ++ mergeL op z1 z2 t₁ t₂ := by
  induction res, t₁, t₂ using (@merge.induct G S S' R _ _ op z1 z2) with
  | case1 res => simp [merge, mergeL]
  | case2 res k v t ih =>
    have h2' := List.pairwise_cons.1 h2
    have he : res.emplace k (op z1 v) = res ++ [(k, op z1 v)] := emplace_end (fun p hp => hr2 p hp _ List.mem_cons_self) _
    rw [merge, mergeL, he]
    rw [he] at ih
    rw [ih h1 h2'.2 (by simp) (app (fun p hp q hq => hr2 p hp q (by simp [hq])) h2'.1)]
    simp
  | case3 res k v t ih =>
    have h1' := List.pairwise_cons.1 h1
    have he : res.emplace k (op v z2) = res ++ [(k, op v z2)] := emplace_end (fun p hp => hr1 p hp _ List.mem_cons_self) _
    rw [merge, mergeL, he]
    rw [he] at ih
    rw [ih h1'.2 h2 (app (fun p hp q hq => hr1 p hp q (by simp [hq])) h1'.1) (by simp)]
    simp
  | case4 res k₁ v₁ t₁ k₂ v₂ t₂ hlt ih =>
    have h1' := List.pairwise_cons.1 h1
    have h2' := List.pairwise_cons.1 h2
    have he : res.emplace k₁ (op v₁ z2) = res ++ [(k₁, op v₁ z2)] :=
      emplace_end (fun p hp => hr1 p hp _ List.mem_cons_self) _
    rw [merge, mergeL]; simp only [hlt, if_true]
    rw [he] at ih ⊢
    rw [ih h1'.2 h2 (app (fun p hp q hq => hr1 p hp q (by simp [hq])) h1'.1) (app hr2 ?_)]
    · simp
    · intro q hq
      rcases List.mem_cons.1 hq with e | e
      · subst e; exact hlt
      · exact monLt_trans hlt (h2'.1 q e)
  | case5 res k₁ v₁ t₁ k₂ v₂ t₂ hn hlt ih =>
    have h1' := List.pairwise_cons.1 h1
    have h2' := List.pairwise_cons.1 h2
    have he : res.emplace k₂ (op z1 v₂) = res ++ [(k₂, op z1 v₂)] :=
      emplace_end (fun p hp => hr2 p hp _ List.mem_cons_self) _
    rw [merge, mergeL]; simp only [hn, hlt, if_true, if_false, Bool.false_eq_true]
    rw [he] at ih ⊢
    rw [ih h1 h2'.2 (app hr1 ?_) (app (fun p hp q hq => hr2 p hp q (by simp [hq])) h2'.1)]
    · simp
    · intro q hq
      rcases List.mem_cons.1 hq with e | e
      · subst e; exact hlt
      · exact monLt_trans hlt (h1'.1 q e)
  | case6 res k₁ v₁ t₁ k₂ v₂ t₂ hn hn' hz ih =>
    have h1' := List.pairwise_cons.1 h1
    have h2' := List.pairwise_cons.1 h2
    rw [merge, mergeL]; simp only [hn, hn', hz, if_true, if_false, Bool.false_eq_true]
    exact ih h1'.2 h2'.2 (fun p hp q hq => hr1 p hp q (by simp [hq])) (fun p hp q hq => hr2 p hp q (by simp [hq]))
  | case7 res k₁ v₁ t₁ k₂ v₂ t₂ hn hn' hz ih =>
    have h1' := List.pairwise_cons.1 h1
    have h2' := List.pairwise_cons.1 h2
    have e := keyEq hn hn'
    have he : res.emplace k₁ (op v₁ v₂) = res ++ [(k₁, op v₁ v₂)] :=
      emplace_end (fun p hp => hr1 p hp _ List.mem_cons_self) _
    rw [merge, mergeL]; simp only [hn, hn', hz, if_true, if_false, Bool.false_eq_true]
    rw [he] at ih ⊢
    rw [ih h1'.2 h2'.2 (app (fun p hp q hq => hr1 p hp q (by simp [hq])) h1'.1)
      (app (fun p hp q hq => hr2 p hp q (by simp [hq])) (by intro q hq; rw [e]; exact h2'.1 q hq))]
    simp

theorem mem_mergeL {op : S → S' → R} {z1 : S} {z2 : S'} {t₁ : Terms G S} {t₂ : Terms G S'} {p : List G × R}
    (h : p ∈ mergeL op z1 z2 t₁ t₂) : (∃ q ∈ t₁, q.1 = p.1) ∨ ∃ q ∈ t₂, q.1 = p.1 := by
  induction t₁, t₂ using (@mergeL.induct G S S' R _ _ op) with
  | case1 => simp [mergeL] at h
  | case2 k v t ih =>
    rw [mergeL] at h
    rcases List.mem_cons.1 h with e | e
    · exact Or.inr ⟨_, List.mem_cons_self, by rw [e]⟩
    · rcases ih e with ⟨q, hq, e⟩ | ⟨q, hq, e⟩
      · exact Or.inl ⟨q, hq, e⟩
      · exact Or.inr ⟨q, by simp [hq], e⟩
  | case3 k v t ih =>
    rw [mergeL] at h
    rcases List.mem_cons.1 h with e | e
    · exact Or.inl ⟨_, List.mem_cons_self, by rw [e]⟩
    · rcases ih e with ⟨q, hq, e⟩ | ⟨q, hq, e⟩
      · exact Or.inl ⟨q, by simp [hq], e⟩
      · exact Or.inr ⟨q, hq, e⟩
  | case4 k₁ v₁ t₁ k₂ v₂ t₂ hlt ih =>
    rw [mergeL, if_pos hlt] at h
    rcases List.mem_cons.1 h with e | e
    · exact Or.inl ⟨_, List.mem_cons_self, by rw [e]⟩
    · rcases ih e with ⟨q, hq, e⟩ | ⟨q, hq, e⟩
      · exact Or.inl ⟨q, by simp [hq], e⟩
      · exact Or.inr ⟨q, hq, e⟩
  | case5 k₁ v₁ t₁ k₂ v₂ t₂ hn hlt ih =>
    rw [mergeL, if_neg hn, if_pos hlt] at h
    rcases List.mem_cons.1 h with e | e
    · exact Or.inr ⟨_, List.mem_cons_self, by rw [e]⟩
    · rcases ih e with ⟨q, hq, e⟩ | ⟨q, hq, e⟩
      · exact Or.inl ⟨q, hq, e⟩
      · exact Or.inr ⟨q, by simp [hq], e⟩
  | case6 k₁ v₁ t₁ k₂ v₂ t₂ hn hn' hz ih =>
    rw [mergeL, if_neg hn, if_neg hn', if_pos hz] at h
    rcases ih h with ⟨q, hq, e⟩ | ⟨q, hq, e⟩
    · exact Or.inl ⟨q, by simp [hq], e⟩
    · exact Or.inr ⟨q, by simp [hq], e⟩
  | case7 k₁ v₁ t₁ k₂ v₂ t₂ hn hn' hz ih =>
    rw [mergeL, if_neg hn, if_neg hn', if_neg hz] at h
    rcases List.mem_cons.1 h with e | e
    · exact Or.inl ⟨_, List.mem_cons_self, by rw [e]⟩
    · rcases ih e with ⟨q, hq, e⟩ | ⟨q, hq, e⟩
      · exact Or.inl ⟨q, by simp [hq], e⟩
      · exact Or.inr ⟨q, by simp [hq], e⟩

theorem sorted_mergeL {op : S → S' → R} {z1 : S} {z2 : S'} {t₁ : Terms G S} {t₂ : Terms G S'}
    (h1 : t₁.Sorted) (h2 : t₂.Sorted) : (mergeL op z1 z2 t₁ t₂).Sorted := by
  have bound : ∀ {t₁ : Terms G S} {t₂ : Terms G S'} {k : List G}, (∀ q ∈ t₁, monLt k q.1 = true) →
      (∀ q ∈ t₂, monLt k q.1 = true) → ∀ p ∈ mergeL op z1 z2 t₁ t₂, monLt k p.1 = true := by
    intro t₁ t₂ k h h' p hp
    rcases mem_mergeL hp with ⟨q, hq, e⟩ | ⟨q, hq, e⟩
    · rw [← e]; exact h q hq
    · rw [← e]; exact h' q hq
  induction t₁, t₂ using (@mergeL.induct G S S' R _ _ op) with
  | case1 => simp [mergeL, Terms.Sorted]
  | case2 k v t ih =>
    have h2' := List.pairwise_cons.1 h2
    rw [mergeL]
    exact List.pairwise_cons.2 ⟨bound (by simp) h2'.1, ih h1 h2'.2⟩
  | case3 k v t ih =>
    have h1' := List.pairwise_cons.1 h1
    rw [mergeL]
    exact List.pairwise_cons.2 ⟨bound h1'.1 (by simp), ih h1'.2 h2⟩
  | case4 k₁ v₁ t₁ k₂ v₂ t₂ hlt ih =>
    have h1' := List.pairwise_cons.1 h1
    have h2' := List.pairwise_cons.1 h2
    rw [mergeL, if_pos hlt]
    refine List.pairwise_cons.2 ⟨bound h1'.1 ?_, ih h1'.2 h2⟩
    intro q hq
    rcases List.mem_cons.1 hq with e | e
    · subst e; exact hlt
    · exact monLt_trans hlt (h2'.1 q e)
  | case5 k₁ v₁ t₁ k₂ v₂ t₂ hn hlt ih =>
    have h1' := List.pairwise_cons.1 h1
    have h2' := List.pairwise_cons.1 h2
    rw [mergeL, if_neg hn, if_pos hlt]
    refine List.pairwise_cons.2 ⟨bound ?_ h2'.1, ih h1 h2'.2⟩
    intro q hq
    rcases List.mem_cons.1 hq with e | e
    · subst e; exact hlt
    · exact monLt_trans hlt (h1'.1 q e)
  | case6 k₁ v₁ t₁ k₂ v₂ t₂ hn hn' hz ih =>
    rw [mergeL, if_neg hn, if_neg hn', if_pos hz]
    exact ih (List.pairwise_cons.1 h1).2 (List.pairwise_cons.1 h2).2
  | case7 k₁ v₁ t₁ k₂ v₂ t₂ hn hn' hz ih =>
    have h1' := List.pairwise_cons.1 h1
    have h2' := List.pairwise_cons.1 h2
    rw [mergeL, if_neg hn, if_neg hn', if_neg hz]
    refine List.pairwise_cons.2 ⟨bound h1'.1 ?_, ih h1'.2 h2'.2⟩
    rw [keyEq hn hn']; exact h2'.1

/-- What a binary operation does to the coefficients of one monomial. -/
def comb (op : S → S' → R) (z1 : S) (z2 : S') : Option S → Option S' → Option R
  | none, none => none
  | some x, none => some (op x z2)
  | none, some y => some (op z1 y)
  | some x, some y => if ScalarOps.isZero (op x y) then none else some (op x y)

theorem find?_mergeL (op : S → S' → R) (z1 : S) (z2 : S') (t₁ : Terms G S) (t₂ : Terms G S')
    (h1 : t₁.Sorted) (h2 : t₂.Sorted) (k : List G) :
    find? k (mergeL op z1 z2 t₁ t₂) = comb op z1 z2 (t₁.find? k) (t₂.find? k) := by
  classical
  have hs := sorted_mergeL (op := op) (z1 := z1) (z2 := z2) h1 h2
  induction t₁, t₂ using (@mergeL.induct G S S' R _ _ op) with
  | case1 => simp [mergeL, find?, comb]
  | case2 k₂ v t ih =>
    have h2' := List.pairwise_cons.1 h2
    rw [mergeL] at hs ⊢
    rw [Terms.find?_cons hs, Terms.find?_cons h2, ih h1 h2'.2 (List.Pairwise.of_cons hs)]
    by_cases e : k = k₂
    · simp [e, comb, find?]
    · simp [e]
  | case3 k₁ v t ih =>
    have h1' := List.pairwise_cons.1 h1
    rw [mergeL] at hs ⊢
    rw [Terms.find?_cons hs, Terms.find?_cons h1, ih h1'.2 h2 (List.Pairwise.of_cons hs)]
    by_cases e : k = k₁
    · simp [e, comb, find?]
    · simp [e]
  | case4 k₁ v₁ t₁ k₂ v₂ t₂ hlt ih =>
    have h1' := List.pairwise_cons.1 h1
    have h2' := List.pairwise_cons.1 h2
    rw [mergeL, if_pos hlt] at hs ⊢
    rw [Terms.find?_cons hs, Terms.find?_cons h1, ih h1'.2 h2 (List.Pairwise.of_cons hs)]
    by_cases e : k = k₁
    · have : find? k ((k₂, v₂) :: t₂) = none := by
        refine find?_eq_none_of_lt ?_
        rw [e]
        intro q hq
        rcases List.mem_cons.1 hq with e | e
        · subst e; exact hlt
        · exact monLt_trans hlt (h2'.1 q e)
      rw [this]; simp [e, comb]
    · simp [e]
  | case5 k₁ v₁ t₁ k₂ v₂ t₂ hn hlt ih =>
    have h1' := List.pairwise_cons.1 h1
    have h2' := List.pairwise_cons.1 h2
    rw [mergeL, if_neg hn, if_pos hlt] at hs ⊢
    rw [Terms.find?_cons hs, Terms.find?_cons h2, ih h1 h2'.2 (List.Pairwise.of_cons hs)]
    by_cases e : k = k₂
    · have : find? k ((k₁, v₁) :: t₁) = none := by
        refine find?_eq_none_of_lt ?_
        rw [e]
        intro q hq
        rcases List.mem_cons.1 hq with e | e
        · subst e; exact hlt
        · exact monLt_trans hlt (h1'.1 q e)
      rw [this]; simp [e, comb]
    · simp [e]
  | case6 k₁ v₁ t₁ k₂ v₂ t₂ hn hn' hz ih =>
    have h1' := List.pairwise_cons.1 h1
    have h2' := List.pairwise_cons.1 h2
    have e12 := keyEq hn hn'
    rw [mergeL, if_neg hn, if_neg hn', if_pos hz] at hs ⊢
    rw [Terms.find?_cons h2, Terms.find?_cons h1, ih h1'.2 h2'.2 hs]
    by_cases e : k = k₁
    · rw [e, if_pos rfl, if_pos e12, find?_eq_none_of_lt h1'.1, find?_eq_none_of_lt (by rw [e12]; exact h2'.1)]
      simp [comb, hz]
    · rw [if_neg e, if_neg (by rw [← e12]; exact e)]
  | case7 k₁ v₁ t₁ k₂ v₂ t₂ hn hn' hz ih =>
    have h1' := List.pairwise_cons.1 h1
    have h2' := List.pairwise_cons.1 h2
    have e12 := keyEq hn hn'
    rw [mergeL, if_neg hn, if_neg hn', if_neg hz] at hs ⊢
    rw [Terms.find?_cons hs, Terms.find?_cons h2, Terms.find?_cons h1, ih h1'.2 h2'.2 (List.Pairwise.of_cons hs)]
    by_cases e : k = k₁
    · rw [e, if_pos rfl, if_pos rfl, if_pos e12]
      simp only [comb]; rw [if_neg hz]
    · rw [if_neg e, if_neg e, if_neg (by rw [← e12]; exact e)]

theorem merge_nil (op : S → S' → R) (z1 : S) (z2 : S') {t₁ : Terms G S} {t₂ : Terms G S'} (h1 : t₁.Sorted)
    (h2 : t₂.Sorted) : merge op z1 z2 [] t₁ t₂ = mergeL op z1 z2 t₁ t₂ := by
  rw [merge_eq op z1 z2 [] t₁ t₂ h1 h2 (by simp) (by simp)]; rfl

/-- The value kept after an assignment (none: erased). -/
def keep (x : S) : Option S := if ScalarOps.isZero x then none else some x

theorem upd_keep (t : Terms G S) (k : List G) (n : S) (f : S → S) :
    (match t.find? k with
      | none => t.emplace k n
      | some v => if ScalarOps.isZero (f v) then t.erase k else t.assign k (f v)) = t.upd k n (fun v => keep (f v)) := by
  simp only [upd, keep]
  cases t.find? k with
  | none => rfl
  | some v =>
    simp only
    by_cases h : ScalarOps.isZero (f v) = true
    · rw [if_pos h, if_pos h]
    · rw [if_neg h, if_neg h]

theorem addAssign_eq (o : AsgOps S S') (a : Expr G S) (b : Expr G S') :
    addAssign o a b = ⟨updAll o.conv (fun v y => keep (o.addAsg v y)) b.terms a.terms⟩ := by
  simp only [addAssign, updAll]; congr 2; funext t p; exact upd_keep t p.1 _ (fun v => o.addAsg v p.2)

theorem subAssign_eq (o : AsgOps S S') (a : Expr G S) (b : Expr G S') :
    subAssign o a b = ⟨updAll (o.sub zero) (fun v y => keep (o.subAsg v y)) b.terms a.terms⟩ := by
  simp only [subAssign, updAll]; congr 2; funext t p; exact upd_keep t p.1 _ (fun v => o.subAsg v p.2)

/-- All pairs stored while multiplying. -/
def mulLog (o : AsgOps S S') (a : Terms G S) (b : Terms G S') : List (List G × S) :=
  a.flatMap fun p => b.flatMap fun q => Any.emits (p.1 ++ q.1) (o.mul p.2 q.2)

theorem mulAssign_eq (o : AsgOps S S') (a : Expr G S) (b : Expr G S') :
    mulAssign o a b = ⟨Any.storeAll (mulLog o a.terms b.terms) []⟩ := by
  simp only [mulAssign, mulLog, Any.storeAll, List.foldl_flatMap, Any.normalize_store]

theorem addScalar_eq (cv : S → R) (o : AsgOps R S') (a : Expr G S) (x : S') : addScalar cv o a x =
    if ScalarOps.isZero x then convert cv a
      else ⟨(convert cv a).terms.upd [] (o.conv x) (fun v => keep (o.addAsg v x))⟩ := by
  simp only [addScalar]; split
  · rfl
  · exact congrArg Expr.mk (upd_keep _ _ _ (fun v => o.addAsg v x))
theorem subScalar_eq (cv : S → R) (o : AsgOps R S') (zs : S' → R) (a : Expr G S) (x : S') : subScalar cv o zs a x =
    if ScalarOps.isZero x then convert cv a
      else ⟨(convert cv a).terms.upd [] (zs x) (fun v => keep (o.subAsg v x))⟩ := by
  simp only [subScalar]; split
  · rfl
  · exact congrArg Expr.mk (upd_keep _ _ _ (fun v => o.subAsg v x))
theorem scalarSub_eq (o : BinOps S' S R) (oa : AsgOps R S') (x : S') (a : Expr G S) : scalarSub o oa x a =
    if ScalarOps.isZero x then convert (o.sub zero) a
      else ⟨(convert (o.sub zero) a).terms.upd [] (oa.conv x) (fun v => keep (oa.addAsg v x))⟩ := by
  simp only [scalarSub]; split
  · rfl
  · exact congrArg Expr.mk (upd_keep _ _ _ (fun v => oa.addAsg v x))
theorem addAssignScalar_eq (o : AsgOps S S') (a : Expr G S) (x : S') : addAssignScalar o a x =
    if ScalarOps.isZero x then a else ⟨a.terms.upd [] (o.addAsg zero x) (fun v => keep (o.addAsg v x))⟩ := by
  simp only [addAssignScalar]; split
  · rfl
  · exact congrArg Expr.mk (upd_keep _ _ _ (fun v => o.addAsg v x))
theorem subAssignScalar_eq (o : AsgOps S S') (a : Expr G S) (x : S') : subAssignScalar o a x =
    if ScalarOps.isZero x then a else ⟨a.terms.upd [] (o.sub zero x) (fun v => keep (o.subAsg v x))⟩ := by
  simp only [subAssignScalar]; split
  · rfl
  · exact congrArg Expr.mk (upd_keep _ _ _ (fun v => o.subAsg v x))

theorem convert_terms (cv : S → R) {a : Expr G S} (ha : a.terms.Sorted) :
    convert cv a = ⟨a.terms.map fun p => (p.1, cv p.2)⟩ := congrArg Expr.mk (foldl_emplace_all (fun p => cv p.2) ha)

variable {P : G → Prop} {Q : List G → Prop}

theorem good_convert (cv : S → R) {a : Expr G S} (ha : Good Q a) : Good Q (convert cv a) := by
  have h0 := good_emplaceFold (S' := R) (fun p => cv p.2) (fun _ => false) ha
  simp only [Bool.false_eq_true, if_false] at h0
  exact h0

theorem good_merge (op : S → S' → R) (z1 : S) (z2 : S') {a : Expr G S} {b : Expr G S'} (ha : Good Q a) (hb : Good Q b) :
    Good Q (⟨merge op z1 z2 [] a.terms b.terms⟩ : Expr G R) := by
  rw [merge_nil op z1 z2 ha.sorted hb.sorted]
  refine ⟨sorted_mergeL ha.sorted hb.sorted, ?_⟩
  intro p hp
  rcases mem_mergeL hp with ⟨q, hq, e⟩ | ⟨q, hq, e⟩
  · rw [← e]; exact ha.canon q hq
  · rw [← e]; exact hb.canon q hq

theorem good_mulAssign (hN : MonInv.{u} P Q) (o : AsgOps S S') {a : Expr G S} {b : Expr G S'} (ha : Good Q a) (hb : Good Q b) :
    Good Q (mulAssign o a b) := by
  rw [mulAssign_eq]
  refine good_storeAll good_zero ?_
  intro p hp
  simp only [mulLog, List.mem_flatMap] at hp
  obtain ⟨q, hq, r, hr, hp⟩ := hp
  refine hN.emits _ ?_ _ p hp
  intro g hg
  rcases List.mem_append.1 hg with h | h
  · exact hN.mem _ (ha.canon q hq) g h
  · exact hN.mem _ (hb.canon r hr) g h

end Mixed

open Any in
/-- Programs over any scalar types only build maps with increasing keys and canonical monomials. -/
theorem good_mixedReachable {G U : Type _} {El : U → Type u} [GenOps G] [LawfulGen G] [F : ScalarFamily U El]
    {P : G → Prop} {Q : List G → Prop} (hN : MonInv.{u} P Q) (hC : ∀ g : G, P g → ∀ p ∈ (GenOps.conj g).terms, P p.1) {s : U} {e : Expr G (El s)}
    (h : MixedReachable P s e) : Good Q e := by
  induction h with
  | zero => exact good_zero
  | const s x => exact good_const hN.nil x
  | constOf s t x =>
    simp only [Mixed.constOf]; split
    · exact good_zero
    · exact ⟨by simp [Terms.Sorted], by intro p hp; simp at hp; subst hp; exact hN.nil⟩
  | ofMonomial s x m hm => exact good_ofMonomial hN x m hm
  | ofMonomialOf s t x m hm =>
    simp only [Mixed.ofMonomialOf]; split
    · exact good_zero
    · rw [Any.normalize_store (S := El s)]; exact good_storeAll (S := El s) good_zero (hN.emits m hm _)
  | convert s t _ ha => exact Mixed.good_convert _ ha
  | addSame s _ _ ha hb => exact good_add ha hb
  | subSame s _ _ ha hb => exact good_sub ha hb
  | mulSame s _ _ ha hb => exact good_mul hN ha hb
  | negSame s _ ha => exact ⟨(good_map ha _).1, (good_map ha _).2⟩
  | smulPrefixSame s x _ ha =>
    simp only [Any.smulPrefix]; split
    · exact good_zero
    · exact ⟨(good_map ha _).1, (good_map ha _).2⟩
  | smulPostfixSame s x _ ha =>
    simp only [Any.smulPostfix]; split
    · exact good_zero
    · exact ⟨(good_map ha (fun v => ScalarOps.mul v x)).1, (good_map ha (fun v => ScalarOps.mul v x)).2⟩
  | addScalarSame s x _ ha =>
    rw [addScalar_upd (S := El s)]; split
    · exact ha
    · exact good_upd ha hN.nil _ _
  | addAssignScalarSame s x _ ha =>
    rw [addAssignScalar_upd (S := El s)]; split
    · exact ha
    · exact good_upd ha hN.nil _ _
  | subScalarSame s x _ ha =>
    rw [subScalar_upd (S := El s)]; split
    · exact ha
    · exact good_upd ha hN.nil _ _
  | scalarSubSame s x _ ha =>
    have h0 := good_emplaceFold (S' := El s) (fun p => ScalarOps.sub zero p.2) (fun _ => false) ha
    simp only [Bool.false_eq_true, if_false] at h0
    rw [scalarSub_upd (S := El s)]; split
    · exact h0
    · exact good_upd h0 hN.nil _ _
  | conj s _ ha => exact good_conj hN hC ha
  | transform s t f _ ha =>
    exact good_emplaceFold (fun p => f p.1 p.2) (fun p => ScalarOps.isZero (f p.1 p.2)) ha
  | addAssign s t _ _ ha hb => rw [Mixed.addAssign_eq (S := El s) (S' := El t)]; exact good_updAll (S := El s) ha _ _ hb.canon
  | subAssign s t _ _ ha hb => rw [Mixed.subAssign_eq (S := El s) (S' := El t)]; exact good_updAll (S := El s) ha _ _ hb.canon
  | mulAssign s t _ _ ha hb => exact Mixed.good_mulAssign hN _ ha hb
  | add s t r _ _ ha hb => exact Mixed.good_merge _ _ _ ha hb
  | sub s t r _ _ ha hb => exact Mixed.good_merge _ _ _ ha hb
  | mul s t r _ _ ha hb => exact Mixed.good_mulAssign hN _ (Mixed.good_convert _ ha) hb
  | neg s r _ ha => exact Mixed.good_convert _ ha
  | smulPostfix s t r x _ ha =>
    simp only [Mixed.smulPostfix]; split
    · exact good_zero
    · exact Mixed.good_convert (fun v => (F.bin s t r).mul v x) ha
  | smulPrefix s t r x _ ha =>
    simp only [Mixed.smulPrefix]; split
    · exact good_zero
    · exact Mixed.good_convert (fun v => (F.bin t s r).mul x v) ha
  | smulAssign s t x _ ha =>
    simp only [Mixed.smulAssign]; split
    · exact good_zero
    · exact ⟨(good_map ha (fun v => (F.asg s t).mulAsg v x)).1, (good_map ha (fun v => (F.asg s t).mulAsg v x)).2⟩
  | addScalar s t r x _ ha =>
    rw [Mixed.addScalar_eq (S := El s) (S' := El t) (R := El r)]; split
    · exact Mixed.good_convert _ ha
    · exact good_upd (S := El r) (Mixed.good_convert _ ha) hN.nil _ _
  | subScalar s t r x _ ha =>
    rw [Mixed.subScalar_eq (S := El s) (S' := El t) (R := El r)]; split
    · exact Mixed.good_convert _ ha
    · exact good_upd (S := El r) (Mixed.good_convert _ ha) hN.nil _ _
  | scalarSub s t r x _ ha =>
    rw [Mixed.scalarSub_eq (S := El s) (S' := El t) (R := El r)]; split
    · exact Mixed.good_convert _ ha
    · exact good_upd (S := El r) (Mixed.good_convert _ ha) hN.nil _ _
  | addAssignScalar s t x _ ha =>
    rw [Mixed.addAssignScalar_eq (S := El s) (S' := El t)]; split
    · exact ha
    · exact good_upd ha hN.nil _ _
  | subAssignScalar s t x _ ha =>
    rw [Mixed.subAssignScalar_eq (S := El s) (S' := El t)]; split
    · exact ha
    · exact good_upd ha hN.nil _ _

end LC
