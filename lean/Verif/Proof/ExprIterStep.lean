import Verif.Proof.ExprIterLoop
import Verif.Proof.Normalize
/-
Operations on expressions keep the memory well formed.
-/
set_option linter.unusedSectionVars false
set_option linter.unusedSimpArgs false
namespace LC
open Terms NTerms
variable {G S : Type _} [GenOps G] [LawfulGen G] [CommRing S] [DecidableEq S] [ConstScalar S]

namespace ExprMem
variable {m m' : ExprMem G S}

/-- The value of a variable. -/
def value (m : ExprMem G S) (o : Nat) : Option (Expr G S) := (m.objs o).map fun t => ⟨t.values⟩

/-- Memories that occur in programs; the values of new variables have sorted maps (as all expressions do, C02). -/
inductive Reach : ExprMem G S → Prop
  | empty : Reach empty
  | step {m m' : ExprMem G S} (op : Op G S) : Reach m → (∀ e, op = .create e → e.terms.Sorted) → ExprMem.step op m = some m' → Reach m'

theorem mulAssign_sorted (a b : Expr G S) : (a.mulAssign b).terms.Sorted := by
  unfold Expr.mulAssign
  have h2 : ∀ (m1 : List G × S) (l : Terms G S) (t : Terms G S), t.Sorted →
      (l.foldl (fun t m2 => normalize Terms.store (m1.1 ++ m2.1) (m1.2 * m2.2) t) t).Sorted := by
    intro m1 l
    induction l with
    | nil => intro t h; exact h
    | cons p l ih => intro t h; exact ih _ (by show Terms.Sorted (normalize Terms.store _ _ t); rw [normalize_store]; exact sorted_storeAll _ h)
  have h1 : ∀ (l : Terms G S) (t : Terms G S), t.Sorted →
      (l.foldl (fun t m1 => b.terms.foldl (fun t m2 => normalize Terms.store (m1.1 ++ m2.1) (m1.2 * m2.2) t) t) t).Sorted := by
    intro l
    induction l with
    | nil => intro t h; exact h
    | cons p l ih => intro t h; exact ih _ (h2 _ _ _ h)
  exact h1 _ _ List.Pairwise.nil

theorem repl_label (m : ExprMem G S) (v : Nat) {t : Terms G S} (hs : t.Sorted) (n : Nat) (hn : n = t.length) :
    Repl m v (label m.next t) (m.next + n) :=
  ⟨sorted_label hs, by omega, fun _ _ _ h => .inr (by have := label_mem h; omega), fun _ _ _ _ _ _ a b => label_uniq a b⟩

theorem repl_nil (m : ExprMem G S) (v : Nat) : Repl m v [] m.next :=
  ⟨List.Pairwise.nil, le_refl _, by simp, by simp⟩

theorem WF.move_push (h : m.WF) {w : Nat} {t : NTerms G S} (ht : m.objs w = some t) : ((m.put w (some []) m.next).push t m.next).WF := by
  have hw := h.lt_vars ht
  have key : ∀ o k c i, ((m.put w (some []) m.next).push t m.next).At o k c i → m.At (if o = m.vars then w else o) k c i ∧ o ≠ w := by
    intro o k c i ha
    rcases at_push.1 ha with ⟨e, hk⟩ | ⟨e, ha⟩
    · change o = m.vars at e
      subst e
      exact ⟨by rw [if_pos rfl]; exact ⟨t, ht, hk⟩, by omega⟩
    · change o ≠ m.vars at e
      rcases at_put.1 ha with ⟨_, t', e', hk⟩ | ⟨e', ha⟩
      · cases e'; simp at hk
      · exact ⟨by rw [if_neg e]; exact ha, e'⟩
  refine ⟨fun o t' ho => ?_, fun o ho => ?_, fun o k c i ha => h.lt _ _ _ _ (key _ _ _ _ ha).1, fun o k c o' k' c' i ha ha' => ?_⟩
  · simp only [ExprMem.push, ExprMem.put] at ho
    by_cases e : o = m.vars
    · subst e; simp at ho; subst ho; exact h.sorted _ _ ht
    · rw [Function.update_of_ne e] at ho
      by_cases e' : o = w
      · subst e'; simp at ho; subst ho; exact List.Pairwise.nil
      · rw [Function.update_of_ne e'] at ho; exact h.sorted o t' ho
  · simp only [ExprMem.push, ExprMem.put] at ho ⊢
    rw [Function.update_of_ne (by omega), Function.update_of_ne (by omega)]
    exact h.vars o (by omega)
  · obtain ⟨a, a'⟩ := key _ _ _ _ ha
    obtain ⟨b, b'⟩ := key _ _ _ _ ha'
    obtain ⟨h1, h2⟩ := h.uniq _ _ _ _ _ _ _ a b
    refine ⟨?_, h2⟩
    split at h1 <;> split at h1 <;> omega

theorem WF.move_put (h : m.WF) {v w : Nat} (hv : v < m.vars) (hne : v ≠ w) {t : NTerms G S} (ht : m.objs w = some t) :
    ((m.put w (some []) m.next).put v (some t) m.next).WF := by
  have hw := h.lt_vars ht
  have key : ∀ o k c i, ((m.put w (some []) m.next).put v (some t) m.next).At o k c i → m.At (if o = v then w else o) k c i ∧ o ≠ w := by
    intro o k c i ha
    rcases at_put.1 ha with ⟨rfl, t', e, hk⟩ | ⟨e, ha⟩
    · cases e
      exact ⟨by rw [if_pos rfl]; exact ⟨t, ht, hk⟩, hne⟩
    · rcases at_put.1 ha with ⟨_, t', e', hk⟩ | ⟨e', ha⟩
      · cases e'; simp at hk
      · exact ⟨by rw [if_neg e]; exact ha, e'⟩
  refine ⟨fun o t' ho => ?_, fun o ho => ?_, fun o k c i ha => h.lt _ _ _ _ (key _ _ _ _ ha).1, fun o k c o' k' c' i ha ha' => ?_⟩
  · simp only [ExprMem.put] at ho
    by_cases e : o = v
    · subst e; simp at ho; subst ho; exact h.sorted _ _ ht
    · rw [Function.update_of_ne e] at ho
      by_cases e' : o = w
      · subst e'; simp at ho; subst ho; exact List.Pairwise.nil
      · rw [Function.update_of_ne e'] at ho; exact h.sorted o t' ho
  · simp only [ExprMem.put] at ho ⊢
    rw [Function.update_of_ne (by omega), Function.update_of_ne (by omega)]
    exact h.vars o (by omega)
  · obtain ⟨a, a'⟩ := key _ _ _ _ ha
    obtain ⟨b, b'⟩ := key _ _ _ _ ha'
    obtain ⟨h1, h2⟩ := h.uniq _ _ _ _ _ _ _ a b
    refine ⟨?_, h2⟩
    split at h1 <;> split at h1 <;> omega

theorem repl_scale (h : m.WF) {v : Nat} {t : NTerms G S} (ht : m.objs v = some t) (f : S → S) :
    Repl m v (t.map fun p => (p.1, (f p.2.1, p.2.2))) m.next := by
  have hmem : ∀ k c i, (k, (c, i)) ∈ t.map (fun p => (p.1, (f p.2.1, p.2.2))) → ∃ c', (k, (c', i)) ∈ t := by
    intro k c i hk
    obtain ⟨p, hp, e⟩ := List.mem_map.1 hk
    obtain ⟨k', c', i'⟩ := p
    simp only [Prod.mk.injEq] at e
    exact ⟨c', by rw [← e.1, ← e.2.2]; exact hp⟩
  refine ⟨?_, le_refl _, fun k c i hk => .inl ?_, fun k c k' c' i hi a b => ?_⟩
  · have := h.sorted _ _ ht
    simpa only [Terms.Sorted, List.pairwise_map] using this
  · obtain ⟨c', hc⟩ := hmem k c i hk; exact ⟨c', t, ht, hc⟩
  · obtain ⟨c', hc⟩ := hmem k c i a
    have := h.lt _ _ _ _ ⟨t, ht, hc⟩; omega

theorem step_wf (op : Op G S) (h : m.WF) (hc : ∀ e, op = .create e → e.terms.Sorted) (hs : step op m = some m') : m'.WF := by
  cases op with
  | create e =>
    simp only [step, Option.some.injEq] at hs; subst hs
    exact h.push (sorted_label (hc e rfl)) (by omega) (fun _ _ _ a => label_mem a) (fun _ _ _ _ _ a b => label_uniq a b)
  | copy w =>
    simp only [step, Option.map_eq_some_iff] at hs
    obtain ⟨t, ht, rfl⟩ := hs
    have e : t.length = (values t).length := by simp [values]
    exact h.push (sorted_label (sorted_values.2 (h.sorted _ _ ht))) (by omega) (fun _ _ _ a => e ▸ label_mem a)
      (fun _ _ _ _ _ a b => label_uniq a b)
  | move w =>
    simp only [step, Option.map_eq_some_iff] at hs
    obtain ⟨t, ht, rfl⟩ := hs
    exact h.move_push ht
  | destroy v =>
    simp only [step, Option.map_eq_some_iff] at hs
    obtain ⟨t, ht, rfl⟩ := hs
    exact h.putNone v
  | copyAssign v w =>
    simp only [step] at hs
    split at hs
    · next t0 t h0 ht =>
      simp only [Option.some.injEq] at hs
      subst hs
      split
      · exact h
      · exact h.put (h.lt_vars h0) (repl_label m v (sorted_values.2 (h.sorted _ _ ht)) _ (by simp [values]))
    · cases hs
  | moveAssign v w =>
    simp only [step] at hs
    split at hs
    · next t0 t h0 ht =>
      split at hs
      · cases hs
      · next hne =>
        simp only [Option.some.injEq] at hs
        subst hs
        exact h.move_put (h.lt_vars h0) hne ht
    · cases hs
  | addAssign v w =>
    simp only [step] at hs
    split at hs
    · exact updLoop_wf _ _ _ _ h hs
    · cases hs
  | subAssign v w =>
    simp only [step] at hs
    split at hs
    · exact updLoop_wf _ _ _ _ h hs
    · cases hs
  | mulAssign v w =>
    simp only [step] at hs
    split at hs
    · next t0 t h0 ht =>
      simp only [Option.some.injEq] at hs
      subst hs
      exact h.put (h.lt_vars h0) (repl_label m v (mulAssign_sorted _ _) _ rfl)
    · cases hs
  | addScalar v x =>
    simp only [step, Option.map_eq_some_iff] at hs
    obtain ⟨t, ht, rfl⟩ := hs
    split
    · exact h
    · exact h.put (h.lt_vars ht) (updNode_repl h ht _ _)
  | subScalar v x =>
    simp only [step, Option.map_eq_some_iff] at hs
    obtain ⟨t, ht, rfl⟩ := hs
    split
    · exact h
    · exact h.put (h.lt_vars ht) (updNode_repl h ht _ _)
  | mulScalar v x =>
    simp only [step, Option.map_eq_some_iff] at hs
    obtain ⟨t, ht, rfl⟩ := hs
    refine h.put (h.lt_vars ht) ?_
    split
    · exact repl_nil m v
    · exact repl_scale h ht (· * x)
  | clear v =>
    simp only [step, Option.map_eq_some_iff] at hs
    obtain ⟨t, ht, rfl⟩ := hs
    exact h.put (h.lt_vars ht) (repl_nil m v)

theorem Reach.wf (h : Reach m) : m.WF := by
  induction h with
  | empty =>
    exact ⟨fun _ _ h => by simp [ExprMem.empty] at h, fun _ _ => rfl, fun _ _ _ _ ⟨_, h, _⟩ => by simp [ExprMem.empty] at h,
      fun _ _ _ _ _ _ _ ⟨_, h, _⟩ => by simp [ExprMem.empty] at h⟩
  | step op _ hc hs ih => exact step_wf op ih hc hs

end ExprMem
end LC
