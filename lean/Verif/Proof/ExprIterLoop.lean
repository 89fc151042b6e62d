import Verif.Proof.ExprIter
/-
Compound assignments of expressions and the nodes they keep.
-/
set_option linter.unusedSectionVars false
set_option linter.unusedSimpArgs false
namespace LC
open Terms NTerms
variable {G S : Type _} [GenOps G] [LawfulGen G] [CommRing S] [DecidableEq S]

namespace ExprMem
variable {m m' : ExprMem G S} {u : S → S → S} {nw : S → S}

theorem updNode_upd (n : Nat) (t : NTerms G S) (k : List G) (c : S) :
    (updNode u nw n t k c).1 = t.upd k (nw c, n) (fun v => if u v.1 c = 0 then none else some (u v.1 c, v.2)) := by
  unfold updNode upd
  cases t.find? k with
  | none => rfl
  | some v =>
    obtain ⟨v, i⟩ := v
    by_cases h : u v c = 0 <;> simp [h]

theorem updNode_values (n : Nat) (t : NTerms G S) (k : List G) (c : S) :
    values (updNode u nw n t k c).1 =
      (values t).upd k (nw c) (fun v => if u v c = 0 then none else some (u v c)) := by
  unfold updNode upd
  rw [find?_values]
  cases t.find? k with
  | none => simp [values_emplace]
  | some v =>
    obtain ⟨v, i⟩ := v
    by_cases h : u v c = 0
    · simp [h, values_erase]
    · simp [h, values_assign]

theorem updNode_sorted {n : Nat} {t : NTerms G S} (hs : t.Sorted) (k : List G) (c : S) : (updNode u nw n t k c).1.Sorted := by
  rw [updNode_upd]; exact sorted_upd hs _ _ _

theorem updNode_le (n : Nat) (t : NTerms G S) (k : List G) (c : S) : n ≤ (updNode u nw n t k c).2 := by
  unfold updNode
  cases t.find? k with
  | none => simp
  | some v =>
    obtain ⟨v, i⟩ := v
    by_cases h : u v c = 0 <;> simp [h]

open Classical in
theorem updNode_find {n : Nat} {t : NTerms G S} (hs : t.Sorted) (k l : List G) (c : S) :
    (updNode u nw n t k c).1.find? l =
      if l = k then
        match t.find? k with
        | none => some (nw c, n)
        | some v => if u v.1 c = 0 then none else some (u v.1 c, v.2)
      else t.find? l := by
  rw [updNode_upd, find?_upd hs]
  split
  · cases t.find? k <;> rfl
  · rfl

theorem updNode_repl (h : m.WF) {v : Nat} {t : NTerms G S} (ht : m.objs v = some t) (k : List G) (c : S) :
    Repl m v (updNode u nw m.next t k c).1 (updNode u nw m.next t k c).2 := by
  have hs := h.sorted _ _ ht
  have hmem : ∀ l x i, (l, (x, i)) ∈ (updNode u nw m.next t k c).1 →
      (∃ c', m.At v l c' i) ∨ (m.next ≤ i ∧ i < (updNode u nw m.next t k c).2 ∧ l = k) := by
    intro l x i hl
    have hf := find?_of_mem (updNode_sorted hs k c) hl
    rw [updNode_find hs] at hf
    split at hf
    · next e =>
      subst e
      cases hk : t.find? l with
      | none =>
        rw [hk] at hf
        simp only [Option.some.injEq, Prod.mk.injEq] at hf
        right
        refine ⟨hf.2.le, ?_, rfl⟩
        simp only [updNode, hk]
        omega
      | some w =>
        rw [hk] at hf
        simp only at hf
        split at hf
        · cases hf
        · simp only [Option.some.injEq, Prod.mk.injEq] at hf
          left
          refine ⟨w.1, t, ht, ?_⟩
          rw [← hf.2]
          exact find?_mem hk
    · left; exact ⟨x, t, ht, find?_mem hf⟩
  refine ⟨updNode_sorted hs k c, updNode_le _ _ _ _, fun l x i hl => (hmem l x i hl).imp_right fun h => ⟨h.1, h.2.1⟩, ?_⟩
  intro l x l' x' i hi a b
  rcases hmem l x i a with ⟨c', h'⟩ | h'
  · have := h.lt _ _ _ _ h'; omega
  · rcases hmem l' x' i b with ⟨c', h''⟩ | h''
    · have := h.lt _ _ _ _ h''; omega
    · rw [h'.2.2, h''.2.2]

theorem updLoop_wf (v w : Nat) (n : Nat) (cur : Option (List G)) (h : m.WF) (hr : updLoop u nw v w n cur m = some m') : m'.WF := by
  induction n generalizing cur m with
  | zero => cases cur <;> simp only [updLoop, Option.some.injEq] at hr <;> exact hr ▸ h
  | succ n ih =>
    cases cur with
    | none => simp only [updLoop, Option.some.injEq] at hr; exact hr ▸ h
    | some k =>
      rw [updLoop] at hr
      cases hv : m.objs v with
      | none => simp [hv] at hr
      | some tv =>
        cases hw : m.objs w with
        | none => simp [hv, hw] at hr
        | some tw =>
          simp only [hv, hw] at hr
          cases hk : tw.find? k with
          | none => simp [hk] at hr
          | some c =>
            simp only [hk] at hr
            cases hw' : (m.put v (some (updNode u nw m.next tv k c.1).1) (updNode u nw m.next tv k c.1).2).objs w with
            | none => simp [hw'] at hr
            | some tw' =>
              simp only [hw'] at hr
              cases hk' : tw'.find? k with
              | none => simp [hk'] at hr
              | some _ =>
                simp only [hk'] at hr
                exact ih _ (h.put (h.lt_vars hv) (updNode_repl h hv k c.1)) hr

/-- The loop, if the operands are different objects. -/
def updFold (u : S → S → S) (nw : S → S) (l : Terms G S) (r : NTerms G S × Nat) : NTerms G S × Nat :=
  l.foldl (fun r p => updNode u nw r.2 r.1 p.1 p.2) r

theorem nextKey_split {T : Type _} {pre : Terms G T} {k : List G} {v : T} {rest : Terms G T}
    (h : Sorted (pre ++ (k, v) :: rest)) : nextKey k (pre ++ (k, v) :: rest) = firstKey rest := by
  induction pre with
  | nil =>
    simp only [List.nil_append, nextKey, monLt_irrefl, Bool.false_eq_true, if_false]
    cases rest with
    | nil => rfl
    | cons p rest =>
      have := (List.pairwise_cons.1 h).1 p (by simp)
      simp [nextKey, firstKey, this]
  | cons p pre ih =>
    have h1 := (List.pairwise_cons.1 h).1 (k, v) (by simp)
    simp only [List.cons_append, nextKey, monLt_asymm h1, Bool.false_eq_true, if_false]
    exact ih (List.pairwise_cons.1 h).2

theorem assign_split {T : Type _} {pre : Terms G T} {k : List G} {v w : T} {rest : Terms G T}
    (h : Sorted (pre ++ (k, v) :: rest)) : assign k w (pre ++ (k, v) :: rest) = pre ++ (k, w) :: rest := by
  induction pre with
  | nil => simp [assign, monLt_irrefl]
  | cons p pre ih =>
    have h1 := (List.pairwise_cons.1 h).1 (k, v) (by simp)
    simp only [List.cons_append, assign, h1, if_true, ih (List.pairwise_cons.1 h).2]

theorem put_put (v : Nat) (t t' : Option (NTerms G S)) (n n' : Nat) : (m.put v t n).put v t' n' = m.put v t' n' := by
  simp [put]

theorem put_self {v : Nat} {t : NTerms G S} (h : m.objs v = some t) : m.put v (some t) m.next = m := by
  cases m
  simp only [put] at *
  rw [← h, Function.update_eq_self]

theorem updLoop_ne {v w : Nat} (hne : v ≠ w) {tw : NTerms G S} (hs : tw.Sorted) (pre rest : NTerms G S) (e : tw = pre ++ rest) (n : Nat)
    (hn : rest.length ≤ n) (tv : NTerms G S) (m : ExprMem G S) (hv : m.objs v = some tv) (hw : m.objs w = some tw) :
    updLoop u nw v w n (firstKey rest) m =
      some (m.put v (some (updFold u nw (values rest) (tv, m.next)).1) (updFold u nw (values rest) (tv, m.next)).2) := by
  induction rest generalizing pre n tv m with
  | nil => cases n <;> simp [firstKey, updLoop, updFold, values, put_self hv]
  | cons p rest ih =>
    obtain ⟨k, c, i⟩ := p
    cases n with
    | zero => simp at hn
    | succ n =>
      have hf : tw.find? k = some (c, i) := find?_of_mem hs (by simp [e])
      rw [firstKey, updLoop]
      simp only [hv, hw, hf]
      have hw' : (m.put v (some (updNode u nw m.next tv k c).1) (updNode u nw m.next tv k c).2).objs w = some tw := by
        simp only [put]; rw [Function.update_of_ne (Ne.symm hne), hw]
      simp only [hw', hf]
      rw [show nextKey k tw = firstKey rest by rw [e]; exact nextKey_split (e ▸ hs)]
      rw [ih (pre ++ [(k, (c, i))]) (by simp [e]) n (by simpa using hn) (updNode u nw m.next tv k c).1 _ (by simp [put]) hw', put_put]
      rfl

theorem updLoop_self {v : Nat} (pre rest : NTerms G S) (hs : Sorted (pre ++ rest)) (n : Nat) (hn : rest.length ≤ n) (m : ExprMem G S)
    (hv : m.objs v = some (pre ++ rest)) :
    updLoop u nw v v n (firstKey rest) m =
      if ∀ p ∈ rest, u p.2.1 p.2.1 ≠ 0 then some (m.put v (some (pre ++ rest.map fun p => (p.1, (u p.2.1 p.2.1, p.2.2)))) m.next)
      else none := by
  induction rest generalizing pre n m with
  | nil =>
    rw [if_pos (by simp)]
    simp only [List.append_nil, List.map_nil] at hv ⊢
    cases n <;> simp [firstKey, updLoop, put_self hv]
  | cons p rest ih =>
    obtain ⟨k, c, i⟩ := p
    cases n with
    | zero => simp at hn
    | succ n =>
      have hf : (pre ++ (k, (c, i)) :: rest).find? k = some (c, i) := find?_of_mem hs (by simp)
      rw [firstKey, updLoop]
      simp only [hv, hf]
      by_cases hc : u c c = 0
      · have e1 : updNode u nw m.next (pre ++ (k, (c, i)) :: rest) k c = ((pre ++ (k, (c, i)) :: rest).erase k, m.next) := by
          unfold updNode; rw [hf]; simp [hc]
        rw [if_neg (by simp [hc])]
        simp only [e1, put, Function.update_self, find?_erase_self hs]
      · have e1 : updNode u nw m.next (pre ++ (k, (c, i)) :: rest) k c = (pre ++ (k, (u c c, i)) :: rest, m.next) := by
          unfold updNode; rw [hf]; simp [hc, assign_split hs]
        have hs' : Sorted (pre ++ (k, (u c c, i)) :: rest) := by
          have := sorted_assign (k := k) (v := (u c c, i)) hs
          rwa [assign_split hs] at this
        have hf' : (pre ++ (k, (u c c, i)) :: rest).find? k = some (u c c, i) := find?_of_mem hs' (by simp)
        simp only [e1]
        have ho : (m.put v (some (pre ++ (k, (u c c, i)) :: rest)) m.next).objs v = some (pre ++ (k, (u c c, i)) :: rest) := by
          simp [put]
        simp only [ho, hf']
        rw [nextKey_split hs']
        rw [ih (pre ++ [(k, (u c c, i))]) (by simpa using hs') n (by simpa using hn) _ (by simp [put])]
        rw [put_put]
        have hiff : (∀ p ∈ (k, (c, i)) :: rest, u p.2.1 p.2.1 ≠ 0) ↔ ∀ p ∈ rest, u p.2.1 p.2.1 ≠ 0 := by
          simp [hc]
        by_cases ha : ∀ p ∈ rest, u p.2.1 p.2.1 ≠ 0
        · rw [if_pos ha, if_pos (hiff.2 ha)]
          simp [put]
        · rw [if_neg ha, if_neg (fun h => ha (hiff.1 h))]

theorem updFold_values (l : Terms G S) (r : NTerms G S × Nat) :
    values (updFold u nw l r).1 = Terms.updAll nw (fun v c => if u v c = 0 then none else some (u v c)) l (values r.1) := by
  induction l generalizing r with
  | nil => rfl
  | cons p l ih =>
    simp only [updFold, List.foldl_cons]
    have := ih (updNode u nw r.2 r.1 p.1 p.2)
    simp only [updFold] at this
    rw [this, updNode_values]
    rfl

theorem updFold_le (l : Terms G S) (r : NTerms G S × Nat) : r.2 ≤ (updFold u nw l r).2 := by
  induction l generalizing r with
  | nil => exact le_refl _
  | cons p l ih => exact le_trans (updNode_le _ _ _ _) (ih (updNode u nw r.2 r.1 p.1 p.2))

theorem updFold_sorted (l : Terms G S) {r : NTerms G S × Nat} (h : r.1.Sorted) : (updFold u nw l r).1.Sorted := by
  induction l generalizing r with
  | nil => exact h
  | cons p l ih => exact ih (r := updNode u nw r.2 r.1 p.1 p.2) (updNode_sorted h _ _)

/-- The nodes that exist before the loop: they keep their identity unless their coefficient becomes zero. -/
theorem updFold_find (l : Terms G S) (hl : l.Sorted) {r : NTerms G S × Nat} (h : r.1.Sorted) {k : List G} {c : S} {i : Nat}
    (hk : r.1.find? k = some (c, i)) :
    (updFold u nw l r).1.find? k =
      match l.find? k with
      | none => some (c, i)
      | some d => if u c d = 0 then none else some (u c d, i) := by
  induction l generalizing r with
  | nil => exact hk
  | cons p l ih =>
    obtain ⟨k', d⟩ := p
    simp only [updFold, List.foldl_cons]
    have hs' := updNode_sorted (u := u) (nw := nw) (n := r.2) h k' d
    have hf := updNode_find (u := u) (nw := nw) (n := r.2) h k' k d
    have hl' := (List.pairwise_cons.1 hl).2
    rw [find?_cons hl]
    by_cases e : k = k'
    · subst e
      rw [if_pos rfl] at hf
      rw [hk] at hf
      simp only [if_pos] at hf ⊢
      by_cases h0 : u c d = 0
      · simp only [h0, if_true] at hf ⊢
        -- erased; no later entry has this key
        have : ∀ (l : Terms G S), (∀ q ∈ l, q.1 ≠ k) → ∀ r : NTerms G S × Nat, r.1.Sorted → r.1.find? k = none →
            (updFold u nw l r).1.find? k = none := by
          intro l
          induction l with
          | nil => intro _ r _ h; exact h
          | cons q l ih2 =>
            intro hq r hr hn
            refine ih2 (fun q' hq' => hq q' (by simp [hq'])) (updNode u nw r.2 r.1 q.1 q.2) (updNode_sorted hr _ _) ?_
            rw [updNode_find hr, if_neg (fun e => hq q (by simp) e.symm), hn]
        exact this l (fun q hq e => by
          have := (List.pairwise_cons.1 hl).1 q hq
          rw [e, monLt_irrefl] at this
          cases this) _ hs' hf
      · simp only [h0, if_false] at hf ⊢
        -- the key does not occur again
        have key : ∀ (l : Terms G S), (∀ q ∈ l, q.1 ≠ k) → ∀ r : NTerms G S × Nat, r.1.Sorted → r.1.find? k = some (u c d, i) →
            (updFold u nw l r).1.find? k = some (u c d, i) := by
          intro l
          induction l with
          | nil => intro _ r _ h; exact h
          | cons q l ih2 =>
            intro hq r hr hn
            refine ih2 (fun q' hq' => hq q' (by simp [hq'])) (updNode u nw r.2 r.1 q.1 q.2) (updNode_sorted hr _ _) ?_
            rw [updNode_find hr, if_neg (fun e => hq q (by simp) e.symm), hn]
        exact key l (fun q hq e => by
          have := (List.pairwise_cons.1 hl).1 q hq
          rw [e, monLt_irrefl] at this
          cases this) _ hs' hf
    · rw [if_neg e] at hf
      rw [if_neg e]
      exact ih hl' hs' (hf.trans hk)

/-- Nodes in the result with an old identity are old nodes with the same monomial. -/
theorem updFold_old (l : Terms G S) {r : NTerms G S × Nat} (h : r.1.Sorted) {k : List G} {c : S} {i : Nat}
    (hk : (k, (c, i)) ∈ (updFold u nw l r).1) (hi : i < r.2) : ∃ c0, (k, (c0, i)) ∈ r.1 := by
  induction l generalizing r with
  | nil => exact ⟨c, hk⟩
  | cons p l ih =>
    obtain ⟨c1, h1⟩ := ih (r := updNode u nw r.2 r.1 p.1 p.2) (updNode_sorted h _ _) hk (lt_of_lt_of_le hi (updNode_le _ _ _ _))
    have hf := find?_of_mem (updNode_sorted h _ _) h1
    rw [updNode_find h] at hf
    split at hf
    · next e =>
      rw [e]
      cases hk : r.1.find? p.1 with
      | none =>
        rw [hk] at hf
        simp only [Option.some.injEq, Prod.mk.injEq] at hf
        omega
      | some w =>
        rw [hk] at hf
        simp only at hf
        split at hf
        · cases hf
        · simp only [Option.some.injEq, Prod.mk.injEq] at hf
          refine ⟨w.1, ?_⟩
          rw [← hf.2]
          exact find?_mem hk
    · exact ⟨c1, find?_mem hf⟩

end ExprMem
end LC
