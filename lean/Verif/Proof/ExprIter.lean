import Verif.Model.ExprIter
import Verif.Proof.AnyLemmas
import Verif.Proof.AnyCoeff
/-
Nodes of expressions: lookup, well-formedness of the memory.
-/
set_option linter.unusedSectionVars false
set_option linter.unusedSimpArgs false
namespace LC
open Terms
variable {G S : Type _} [GenOps G] [LawfulGen G]

namespace NTerms

theorem find?_values (t : NTerms G S) (k : List G) : Terms.find? k (values t) = (t.find? k).map Prod.fst := by
  induction t with
  | nil => rfl
  | cons p t ih =>
    obtain ⟨k', c, i⟩ := p
    simp only [values, List.map_cons, find?]
    simp only [values] at ih
    rw [ih]
    split
    · rfl
    · split <;> rfl

theorem values_emplace (t : NTerms G S) (k : List G) (c : S) (i : Nat) : values (t.emplace k (c, i)) = (values t).emplace k c := by
  induction t with
  | nil => rfl
  | cons p t ih =>
    obtain ⟨k', c', i'⟩ := p
    simp only [values] at ih
    simp only [values, List.map_cons, emplace]
    split
    · rw [List.map_cons, ih]
    · split <;> rfl

theorem values_assign (t : NTerms G S) (k : List G) (c : S) (i : Nat) : values (t.assign k (c, i)) = (values t).assign k c := by
  induction t with
  | nil => rfl
  | cons p t ih =>
    obtain ⟨k', c', i'⟩ := p
    simp only [values] at ih
    simp only [values, List.map_cons, assign]
    split
    · rw [List.map_cons, ih]
    · split <;> rfl

theorem values_erase (t : NTerms G S) (k : List G) : values (t.erase k) = (values t).erase k := by
  induction t with
  | nil => rfl
  | cons p t ih =>
    obtain ⟨k', c', i'⟩ := p
    simp only [values] at ih
    simp only [values, List.map_cons, erase]
    split
    · rw [List.map_cons, ih]
    · split <;> rfl

theorem sorted_values {t : NTerms G S} : (values t).Sorted ↔ t.Sorted := by
  simp only [values, Terms.Sorted, List.pairwise_map]

theorem values_label (n : Nat) (t : Terms G S) : values (label n t) = t := by
  induction t generalizing n with
  | nil => rfl
  | cons p t ih =>
    have := ih (n + 1)
    simp only [values] at this
    simp [values, label, this]

theorem sorted_label {n : Nat} {t : Terms G S} (h : t.Sorted) : (label n t).Sorted := by
  rw [← sorted_values, values_label]; exact h

theorem length_label (n : Nat) (t : Terms G S) : (label n t).length = t.length := by
  induction t generalizing n with
  | nil => rfl
  | cons p t ih => simp [label, ih]

theorem label_mem {n : Nat} {t : Terms G S} {k : List G} {c : S} {i : Nat} (h : (k, (c, i)) ∈ label n t) : n ≤ i ∧ i < n + t.length := by
  induction t generalizing n with
  | nil => simp [label] at h
  | cons p t ih =>
    simp only [label, List.mem_cons, Prod.mk.injEq, List.length_cons] at h ⊢
    rcases h with ⟨_, _, rfl⟩ | h
    · omega
    · have := ih h; omega

theorem label_uniq {n : Nat} {t : Terms G S} {k k' : List G} {c c' : S} {i : Nat} (h : (k, (c, i)) ∈ label n t)
    (h' : (k', (c', i)) ∈ label n t) : k = k' := by
  induction t generalizing n with
  | nil => simp [label] at h
  | cons p t ih =>
    simp only [label, List.mem_cons, Prod.mk.injEq] at h h'
    rcases h with ⟨rfl, _, rfl⟩ | h
    · rcases h' with ⟨rfl, _, _⟩ | h'
      · rfl
      · have := label_mem h'; omega
    · rcases h' with ⟨rfl, _, rfl⟩ | h'
      · have := label_mem h; omega
      · exact ih h h'

/-- Different nodes have different identities. -/
def Uniq (t : NTerms G S) : Prop := ∀ k c k' c' i, (k, (c, i)) ∈ t → (k', (c', i)) ∈ t → k = k'

theorem node_some {t : NTerms G S} {id : Nat} {k : List G} {c : S} (h : node id t = some (k, c)) : (k, (c, id)) ∈ t := by
  induction t with
  | nil => simp [node] at h
  | cons p t ih =>
    obtain ⟨k', c', i⟩ := p
    simp only [node] at h
    split at h
    · next hi => simp only [Option.some.injEq, Prod.mk.injEq] at h; obtain ⟨rfl, rfl⟩ := h; simp [hi]
    · exact List.mem_cons_of_mem _ (ih h)

theorem node_iff {t : NTerms G S} (hs : t.Sorted) (hu : Uniq t) {id : Nat} {k : List G} {c : S} :
    node id t = some (k, c) ↔ (k, (c, id)) ∈ t := by
  refine ⟨node_some, fun h => ?_⟩
  cases hn : node id t with
  | none =>
    exfalso
    clear hs hu
    induction t with
    | nil => simp at h
    | cons p t ih =>
      obtain ⟨k', c', i⟩ := p
      simp only [node] at hn
      split at hn
      · cases hn
      · next hi =>
        simp only [List.mem_cons, Prod.mk.injEq] at h
        rcases h with ⟨_, _, rfl⟩ | h
        · exact hi rfl
        · exact ih h hn
  | some p =>
    obtain ⟨k', c'⟩ := p
    have h' := node_some hn
    have e := hu _ _ _ _ _ h h'
    subst e
    have := (find?_of_mem hs h).symm.trans (find?_of_mem hs h')
    simp only [Option.some.injEq, Prod.mk.injEq] at this
    rw [this.1]

end NTerms

namespace ExprMem
open NTerms

/-- The node `i` belongs to the expression `o` and holds the monomial `k` with coefficient `c`. -/
def At (m : ExprMem G S) (o : Nat) (k : List G) (c : S) (i : Nat) : Prop := ∃ t, m.objs o = some t ∧ (k, (c, i)) ∈ t

/-- What every reachable memory satisfies. -/
structure WF (m : ExprMem G S) : Prop where
  sorted : ∀ o t, m.objs o = some t → t.Sorted
  vars : ∀ o, m.vars ≤ o → m.objs o = none
  lt : ∀ o k c i, m.At o k c i → i < m.next
  uniq : ∀ o k c o' k' c' i, m.At o k c i → m.At o' k' c' i → o = o' ∧ k = k'

variable {m m' : ExprMem G S}

theorem WF.uniqT (h : m.WF) {o : Nat} {t : NTerms G S} (ht : m.objs o = some t) : Uniq t :=
  fun k c k' c' i a b => (h.uniq o k c o k' c' i ⟨t, ht, a⟩ ⟨t, ht, b⟩).2

theorem WF.at_fun (h : m.WF) {o o' : Nat} {k k' : List G} {c c' : S} {i : Nat} (a : m.At o k c i) (b : m.At o' k' c' i) :
    o = o' ∧ k = k' ∧ c = c' := by
  obtain ⟨rfl, rfl⟩ := h.uniq _ _ _ _ _ _ _ a b
  obtain ⟨t, ht, a⟩ := a
  obtain ⟨t', ht', b⟩ := b
  rw [ht] at ht'; cases ht'
  have := (find?_of_mem (h.sorted _ _ ht) a).symm.trans (find?_of_mem (h.sorted _ _ ht) b)
  simp only [Option.some.injEq, Prod.mk.injEq] at this
  exact ⟨rfl, rfl, this.1⟩

theorem locate_iff (h : m.WF) {i o : Nat} {k : List G} {c : S} : m.locate i = some (o, k, c) ↔ m.At o k c i := by
  unfold locate
  constructor
  · intro hl
    obtain ⟨o', ho', hb⟩ := List.exists_of_findSome?_eq_some hl
    cases hm : m.objs o' with
    | none => simp [hm] at hb
    | some t =>
      simp only [hm, Option.bind_some, Option.map_eq_some_iff, Prod.mk.injEq] at hb
      obtain ⟨p, hp, rfl, rfl⟩ := hb
      exact ⟨t, hm, node_some hp⟩
  · intro ha
    cases hl : (List.range m.vars).findSome? fun o => (m.objs o).bind fun t => (t.node i).map fun p => (o, p) with
    | none =>
      exfalso
      rw [List.findSome?_eq_none_iff] at hl
      obtain ⟨t, ht, hk⟩ := ha
      have ho : o < m.vars := by
        by_contra hc
        rw [h.vars o (by omega)] at ht; cases ht
      have := hl o (by simpa using ho)
      rw [ht] at this
      simp only [Option.bind_some, Option.map_eq_none_iff] at this
      rw [(node_iff (h.sorted _ _ ht) (h.uniqT ht)).2 hk] at this
      cases this
    | some r =>
      obtain ⟨o', k', c'⟩ := r
      obtain ⟨o'', ho'', hb⟩ := List.exists_of_findSome?_eq_some hl
      cases hm : m.objs o'' with
      | none => simp [hm] at hb
      | some t =>
        simp only [hm, Option.bind_some, Option.map_eq_some_iff, Prod.mk.injEq] at hb
        obtain ⟨p, hp, rfl, rfl⟩ := hb
        obtain ⟨rfl, rfl, rfl⟩ := h.at_fun ha ⟨t, hm, node_some hp⟩
        rfl

theorem locate_none (h : m.WF) {i : Nat} : m.locate i = none ↔ ∀ o k c, ¬ m.At o k c i := by
  constructor
  · intro hl o k c ha
    rw [(locate_iff h).2 ha] at hl; cases hl
  · intro ha
    cases hl : m.locate i with
    | none => rfl
    | some r =>
      obtain ⟨o, k, c⟩ := r
      exact absurd ((locate_iff h).1 hl) (ha _ _ _)

theorem at_put {v o : Nat} {t : Option (NTerms G S)} {n : Nat} {k : List G} {c : S} {i : Nat} :
    (m.put v t n).At o k c i ↔ (o = v ∧ ∃ t', t = some t' ∧ (k, (c, i)) ∈ t') ∨ (o ≠ v ∧ m.At o k c i) := by
  unfold At put
  by_cases e : o = v
  · subst e; simp
  · simp [e]

theorem at_push {o : Nat} {t : NTerms G S} {n : Nat} {k : List G} {c : S} {i : Nat} :
    (m.push t n).At o k c i ↔ (o = m.vars ∧ (k, (c, i)) ∈ t) ∨ (o ≠ m.vars ∧ m.At o k c i) := by
  unfold At push
  by_cases e : o = m.vars
  · subst e; simp
  · simp [e]

/-- The nodes `t` may replace those of the variable `v`: they are old nodes of `v` or new ones. -/
structure Repl (m : ExprMem G S) (v : Nat) (t : NTerms G S) (n : Nat) : Prop where
  sorted : t.Sorted
  le : m.next ≤ n
  mem : ∀ k c i, (k, (c, i)) ∈ t → (∃ c', m.At v k c' i) ∨ (m.next ≤ i ∧ i < n)
  uniq : ∀ k c k' c' i, m.next ≤ i → (k, (c, i)) ∈ t → (k', (c', i)) ∈ t → k = k'

theorem WF.put (h : m.WF) {v : Nat} (hv : v < m.vars) {t : NTerms G S} {n : Nat} (hr : Repl m v t n) : (m.put v (some t) n).WF := by
  have hlt : ∀ o k c i, (m.put v (some t) n).At o k c i → i < n := by
    intro o k c i ha
    rcases at_put.1 ha with ⟨rfl, t', e, hk⟩ | ⟨_, ha⟩
    · cases e
      rcases hr.mem _ _ _ hk with ⟨c', ha⟩ | h'
      · exact lt_of_lt_of_le (h.lt _ _ _ _ ha) hr.le
      · exact h'.2
    · exact lt_of_lt_of_le (h.lt _ _ _ _ ha) hr.le
  refine ⟨fun o t' ho => ?_, fun o ho => ?_, hlt, ?_⟩
  · simp only [ExprMem.put] at ho
    by_cases e : o = v
    · subst e; simp at ho; subst ho; exact hr.sorted
    · simp [e] at ho; exact h.sorted o t' ho
  · simp only [ExprMem.put] at ho ⊢
    rw [Function.update_of_ne (by omega)]
    exact h.vars o ho
  · intro o k c o' k' c' i ha ha'
    have hold : ∀ o k c, (m.put v (some t) n).At o k c i → i < m.next → ∃ c', m.At o k c' i := by
      intro o k c ha hi
      rcases at_put.1 ha with ⟨rfl, t', e, hk⟩ | ⟨_, ha⟩
      · cases e
        rcases hr.mem _ _ _ hk with h' | h'
        · exact h'
        · omega
      · exact ⟨c, ha⟩
    by_cases hi : i < m.next
    · obtain ⟨_, a⟩ := hold _ _ _ ha hi
      obtain ⟨_, b⟩ := hold _ _ _ ha' hi
      exact h.uniq _ _ _ _ _ _ _ a b
    · rcases at_put.1 ha with ⟨rfl, t', e, hk⟩ | ⟨_, ha⟩
      · cases e
        rcases at_put.1 ha' with ⟨rfl, t', e, hk'⟩ | ⟨_, ha'⟩
        · cases e
          exact ⟨rfl, hr.uniq _ _ _ _ _ (by omega) hk hk'⟩
        · exact absurd (h.lt _ _ _ _ ha') hi
      · exact absurd (h.lt _ _ _ _ ha) hi

theorem WF.putNone (h : m.WF) (v : Nat) : (m.put v none m.next).WF := by
  have hold : ∀ o k c i, (m.put v none m.next).At o k c i → m.At o k c i := by
    intro o k c i ha
    rcases at_put.1 ha with ⟨_, t', e, _⟩ | ⟨_, ha⟩
    · cases e
    · exact ha
  refine ⟨fun o t' ho => ?_, fun o ho => ?_, fun o k c i ha => h.lt _ _ _ _ (hold _ _ _ _ ha), fun o k c o' k' c' i ha ha' =>
    h.uniq _ _ _ _ _ _ _ (hold _ _ _ _ ha) (hold _ _ _ _ ha')⟩
  · simp only [ExprMem.put] at ho
    by_cases e : o = v
    · subst e; simp at ho
    · simp [e] at ho; exact h.sorted o t' ho
  · simp only [ExprMem.put] at ho ⊢
    by_cases e : o = v
    · subst e; simp
    · rw [Function.update_of_ne e]; exact h.vars o ho

theorem WF.push (h : m.WF) {t : NTerms G S} {n : Nat} (hs : t.Sorted) (hn : m.next ≤ n)
    (ht : ∀ k c i, (k, (c, i)) ∈ t → m.next ≤ i ∧ i < n) (hu : ∀ k c k' c' i, (k, (c, i)) ∈ t → (k', (c', i)) ∈ t → k = k') :
    (m.push t n).WF := by
  refine ⟨fun o t' ho => ?_, fun o ho => ?_, fun o k c i ha => ?_, fun o k c o' k' c' i ha ha' => ?_⟩
  · simp only [ExprMem.push] at ho
    by_cases e : o = m.vars
    · subst e; simp at ho; subst ho; exact hs
    · simp [e] at ho; exact h.sorted o t' ho
  · simp only [ExprMem.push] at ho ⊢
    rw [Function.update_of_ne (by omega)]
    exact h.vars o (by omega)
  · rcases at_push.1 ha with ⟨_, hk⟩ | ⟨_, ha⟩
    · exact (ht _ _ _ hk).2
    · exact lt_of_lt_of_le (h.lt _ _ _ _ ha) hn
  · rcases at_push.1 ha with ⟨rfl, hk⟩ | ⟨_, ha⟩
    · rcases at_push.1 ha' with ⟨rfl, hk'⟩ | ⟨_, ha'⟩
      · exact ⟨rfl, hu _ _ _ _ _ hk hk'⟩
      · have := h.lt _ _ _ _ ha'; have := (ht _ _ _ hk).1; omega
    · rcases at_push.1 ha' with ⟨rfl, hk'⟩ | ⟨_, ha'⟩
      · have := h.lt _ _ _ _ ha; have := (ht _ _ _ hk').1; omega
      · exact h.uniq _ _ _ _ _ _ _ ha ha'

theorem WF.lt_vars (h : m.WF) {v : Nat} {t : NTerms G S} (ht : m.objs v = some t) : v < m.vars := by
  by_contra hc
  rw [h.vars v (by omega)] at ht; cases ht

end ExprMem
end LC
