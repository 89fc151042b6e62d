import Verif.Proof.ExprIterStep
import Verif.Props.Expression
/-
C100: iterators over expressions, and references to monomials and coefficients, in programs that modify expressions.
-/
set_option linter.unusedSectionVars false
set_option linter.unusedSimpArgs false
namespace LC
open Terms NTerms
variable {G S : Type _} [GenOps G] [LawfulGen G] [CommRing S] [DecidableEq S] [ConstScalar S]

namespace ExprMem
variable {m m' : ExprMem G S}

/-! ### Iteration -/

theorem succIn_split {o : Nat} {t : NTerms G S} (hu : Uniq t) (hs : t.Sorted) {pre rest : NTerms G S} {k : List G} {c : S} {i : Nat}
    (e : t = pre ++ (k, (c, i)) :: rest) : succIn o i t = some (headIter o rest) := by
  subst e
  induction pre with
  | nil => simp [succIn]
  | cons p pre ih =>
    obtain ⟨k', c', i'⟩ := p
    have hne : i' ≠ i := by
      rintro rfl
      have e := hu k' c' k c i' (by simp) (by simp)
      subst e
      have := (List.pairwise_cons.1 hs).1 (k', (c, i')) (by simp)
      rw [monLt_irrefl] at this; cases this
    rw [List.cons_append, succIn, if_neg hne]
    exact ih (fun a b c d j x y => hu a b c d j (by simp [x]) (by simp [y])) (List.pairwise_cons.1 hs).2

theorem walk_from (h : m.WF) {o : Nat} {t : NTerms G S} (ht : m.objs o = some t) (pre rest : NTerms G S) (e : t = pre ++ rest) (n : Nat)
    (hn : rest.length < n) : m.walk (.fin o) n (headIter o rest) = some rest.values := by
  induction rest generalizing pre n with
  | nil =>
    cases n with
    | zero => simp at hn
    | succ n => simp [walk, headIter, values]
  | cons p rest ih =>
    obtain ⟨k, c, i⟩ := p
    cases n with
    | zero => simp at hn
    | succ n =>
      have hl : m.locate i = some (o, k, c) := (locate_iff h).2 ⟨t, ht, by simp [e]⟩
      have hi : m.incr (.node i) = some (headIter o rest) := by
        simp only [incr, hl, ht, Option.bind_some]
        exact succIn_split (h.uniqT ht) (h.sorted _ _ ht) e
      rw [headIter, walk, if_neg (by simp)]
      simp only [deref, hl, hi, Option.map_some]
      rw [ih (pre ++ [(k, (c, i))]) (by simp [e]) n (by simpa using hn)]
      simp [values]

/-- **C100** A range-based `for` loop over an expression visits its monomials with their coefficients, each once, in increasing order. -/
theorem C100_range_for (hm : Reach m) {o : Nat} {x : Expr G S} (hx : m.value o = some x) :
    ∃ b e, m.begin_ o = some b ∧ m.end_ o = some e ∧ m.walk e (x.terms.length + 1) b = some x.terms := by
  simp only [value, Option.map_eq_some_iff] at hx
  obtain ⟨t, ht, rfl⟩ := hx
  refine ⟨headIter o t, .fin o, by simp [begin_, ht], by simp [end_, ht], ?_⟩
  have := walk_from hm.wf ht [] t rfl (t.length + 1) (by omega)
  simpa [values] using this

theorem predIn_split {t : NTerms G S} (hu : Uniq t) (hs : t.Sorted) {pre rest : NTerms G S} {k : List G} {c : S} {i : Nat}
    (e : t = pre ++ (k, (c, i)) :: rest) (q : Option EIter) :
    predIn i q t = match pre.getLast? with | none => q | some p => some (.node p.2.2) := by
  subst e
  induction pre generalizing q with
  | nil => simp [predIn]
  | cons p pre ih =>
    obtain ⟨k', c', i'⟩ := p
    have hne : i' ≠ i := by
      rintro rfl
      have e := hu k' c' k c i' (by simp) (by simp)
      subst e
      have := (List.pairwise_cons.1 hs).1 (k', (c, i')) (by simp)
      rw [monLt_irrefl] at this; cases this
    rw [List.cons_append, predIn, if_neg hne]
    rw [ih _ (fun a b c d j x y => hu a b c d j (List.mem_cons_of_mem _ x) (List.mem_cons_of_mem _ y)) (List.pairwise_cons.1 hs).2]
    cases pre with
    | nil => simp
    | cons p' pre =>
      rw [List.getLast?_cons_cons]
      cases hgl : (p' :: pre).getLast? with
      | none => simp at hgl
      | some x => rfl

theorem lastIter_eq (t : NTerms G S) : lastIter t = t.getLast?.map fun p => .node p.2.2 := by
  induction t with
  | nil => rfl
  | cons p t ih =>
    cases t with
    | nil => obtain ⟨k, c, i⟩ := p; rfl
    | cons q t => rw [lastIter, ih, List.getLast?_cons_cons]

/-- **C100** `--` undoes `++`, and `++` undoes `--`. -/
theorem C100_increment_decrement (hm : Reach m) (it it' : EIter) : m.incr it = some it' ↔ m.decr it' = some it := by
  have h := hm.wf
  have hsplit : ∀ {o : Nat} {t : NTerms G S} {k c i}, m.objs o = some t → (k, (c, i)) ∈ t → m.locate i = some (o, k, c) :=
    fun ht hk => (locate_iff h).2 ⟨_, ht, hk⟩
  constructor
  · intro hi
    cases it with
    | fin o => simp [incr] at hi
    | node i =>
      simp only [incr] at hi
      cases hl : m.locate i with
      | none => simp [hl] at hi
      | some r =>
        obtain ⟨o, k, c⟩ := r
        obtain ⟨t, ht, hk⟩ := (locate_iff h).1 hl
        obtain ⟨pre, rest, e⟩ := List.append_of_mem hk
        simp only [hl, ht, Option.bind_some] at hi
        rw [succIn_split (h.uniqT ht) (h.sorted _ _ ht) e] at hi
        simp only [Option.some.injEq] at hi
        subst hi
        cases rest with
        | nil =>
          simp only [headIter, decr, ht, Option.bind_some]
          rw [lastIter_eq, e]
          simp
        | cons q rest =>
          obtain ⟨k', c', j⟩ := q
          simp only [headIter, decr, hsplit ht (k := k') (c := c') (i := j) (by simp [e]), ht, Option.bind_some]
          rw [predIn_split (h.uniqT ht) (h.sorted _ _ ht) (pre := pre ++ [(k, (c, i))]) (rest := rest) (k := k') (c := c') (by simp [e])]
          simp
  · intro hd
    cases it' with
    | fin o =>
      simp only [decr] at hd
      cases ht : m.objs o with
      | none => simp [ht] at hd
      | some t =>
        simp only [ht, Option.bind_some] at hd
        rw [lastIter_eq, Option.map_eq_some_iff] at hd
        obtain ⟨p, hp, rfl⟩ := hd
        obtain ⟨k, c, i⟩ := p
        obtain ⟨pre, e⟩ := List.getLast?_eq_some_iff.1 hp
        simp only [incr, hsplit ht (k := k) (c := c) (i := i) (by simp [e]), ht, Option.bind_some]
        rw [succIn_split (h.uniqT ht) (h.sorted _ _ ht) (rest := []) (pre := pre) (k := k) (c := c) (by simp [e])]
        rfl
    | node j =>
      simp only [decr] at hd
      cases hl : m.locate j with
      | none => simp [hl] at hd
      | some r =>
        obtain ⟨o, k', c'⟩ := r
        obtain ⟨t, ht, hk⟩ := (locate_iff h).1 hl
        obtain ⟨pre, rest, e⟩ := List.append_of_mem hk
        simp only [hl, ht, Option.bind_some] at hd
        rw [predIn_split (h.uniqT ht) (h.sorted _ _ ht) e] at hd
        cases hp : pre.getLast? with
        | none => simp [hp] at hd
        | some p =>
          rw [hp] at hd
          simp only [Option.some.injEq] at hd
          subst hd
          obtain ⟨k, c, i⟩ := p
          obtain ⟨pre', e'⟩ := List.getLast?_eq_some_iff.1 hp
          simp only [incr, hsplit ht (k := k) (c := c) (i := i) (by simp [e, e']), ht, Option.bind_some]
          rw [succIn_split (h.uniqT ht) (h.sorted _ _ ht) (rest := (k', (c', j)) :: rest) (pre := pre') (k := k) (c := c)
            (by simp [e, e'])]
          rfl

/-! ### Values -/

/-- What the operations do to the values of the variables. -/
def Op.Effect (m m' : ExprMem G S) : Op G S → Prop
  | .create e => m'.value m.vars = some e ∧ ∀ o, o ≠ m.vars → m'.value o = m.value o
  | .copy w => m'.value m.vars = m.value w ∧ ∀ o, o ≠ m.vars → m'.value o = m.value o
  | .move w => m'.value m.vars = m.value w ∧ m'.value w = some 0 ∧ ∀ o, o ≠ m.vars → o ≠ w → m'.value o = m.value o
  | .destroy v => m'.value v = none ∧ ∀ o, o ≠ v → m'.value o = m.value o
  | .copyAssign v w => m'.value v = m.value w ∧ ∀ o, o ≠ v → m'.value o = m.value o
  | .moveAssign v w => m'.value v = m.value w ∧ m'.value w = some 0 ∧ ∀ o, o ≠ v → o ≠ w → m'.value o = m.value o
  | .addAssign v w => (∃ a b, m.value v = some a ∧ m.value w = some b ∧ m'.value v = some (a + b)) ∧ ∀ o, o ≠ v → m'.value o = m.value o
  | .subAssign v w => (∃ a b, m.value v = some a ∧ m.value w = some b ∧ m'.value v = some (a - b)) ∧ ∀ o, o ≠ v → m'.value o = m.value o
  | .mulAssign v w => (∃ a b, m.value v = some a ∧ m.value w = some b ∧ m'.value v = some (a * b)) ∧ ∀ o, o ≠ v → m'.value o = m.value o
  | .addScalar v x => (∃ a, m.value v = some a ∧ m'.value v = some (a.addAssignScalar x)) ∧ ∀ o, o ≠ v → m'.value o = m.value o
  | .subScalar v x => (∃ a, m.value v = some a ∧ m'.value v = some (a.subAssignScalar x)) ∧ ∀ o, o ≠ v → m'.value o = m.value o
  | .mulScalar v x => (∃ a, m.value v = some a ∧ m'.value v = some (a.smulAssign x)) ∧ ∀ o, o ≠ v → m'.value o = m.value o
  | .clear v => m'.value v = some 0 ∧ ∀ o, o ≠ v → m'.value o = m.value o

theorem value_put (m : ExprMem G S) (v : Nat) (t : NTerms G S) (n : Nat) :
    (m.put v (some t) n).value v = some ⟨t.values⟩ ∧ ∀ o, o ≠ v → (m.put v (some t) n).value o = m.value o := by
  constructor
  · simp [value, put]
  · intro o h; simp [value, put, h]

theorem value_push (m : ExprMem G S) (t : NTerms G S) (n : Nat) :
    (m.push t n).value m.vars = some ⟨t.values⟩ ∧ ∀ o, o ≠ m.vars → (m.push t n).value o = m.value o := by
  constructor
  · simp [value, push]
  · intro o h; simp [value, push, h]

theorem value_of {o : Nat} {t : NTerms G S} (h : m.objs o = some t) : m.value o = some ⟨t.values⟩ := by simp [value, h]

theorem addAssign_upd (a b : Expr G S) :
    (a + b).terms = updAll id (fun v c => if v + c = 0 then none else some (v + c)) b.terms a.terms := by
  show (Expr.addAssign a b).terms = _
  unfold Expr.addAssign updAll
  congr 3
  funext t p
  unfold upd
  cases t.find? p.1 with
  | none => rfl
  | some v => by_cases h : v + p.2 = 0 <;> simp [h]

theorem subAssign_upd (a b : Expr G S) :
    (a - b).terms = updAll (0 - ·) (fun v c => if v - c = 0 then none else some (v - c)) b.terms a.terms := by
  show (Expr.subAssign a b).terms = _
  unfold Expr.subAssign updAll
  congr 3
  funext t p
  unfold upd
  cases t.find? p.1 with
  | none => rfl
  | some v => by_cases h : v - p.2 = 0 <;> simp [h]

theorem updAll_self {u : S → S → S} {nw : S → S} {t : Terms G S} (hs : t.Sorted) (h : ∀ p ∈ t, u p.2 p.2 ≠ 0) :
    updAll nw (fun v c => if u v c = 0 then none else some (u v c)) t t = t.map fun p => (p.1, u p.2 p.2) := by
  have hs1 : (updAll nw (fun v c => if u v c = 0 then none else some (u v c)) t t).Sorted := sorted_updAll _ _ _ hs
  have hs2 : Terms.Sorted (t.map fun p => (p.1, u p.2 p.2)) := by
    simpa only [Terms.Sorted, List.pairwise_map] using hs
  refine eq_of_mem_iff hs1 hs2 fun p => ?_
  obtain ⟨k, c⟩ := p
  rw [← find?_iff hs1, ← find?_iff hs2, find?_updAll _ _ hs hs]
  have hmap : Terms.find? k (t.map fun p => (p.1, u p.2 p.2)) = (t.find? k).map fun c => u c c := by
    clear hs hs1 hs2 h
    induction t with
    | nil => rfl
    | cons p t ih =>
      simp only [List.map_cons, find?, ih]
      split
      · rfl
      · split <;> rfl
  rw [hmap]
  cases hf : t.find? k with
  | none => simp [hf]
  | some v =>
    have := h _ (find?_mem hf)
    simp only at this
    simp [hf, updOpt, this]

theorem upd_effect {u : S → S → S} {nw : S → S} (h : m.WF) {v w : Nat} {tv tw : NTerms G S} (hv : m.objs v = some tv)
    (hw : m.objs w = some tw) (hs : updLoop u nw v w tw.length tw.firstKey m = some m') :
    m'.value v = some ⟨updAll nw (fun v c => if u v c = 0 then none else some (u v c)) tw.values tv.values⟩ ∧
      ∀ o, o ≠ v → m'.value o = m.value o := by
  by_cases e : v = w
  · subst e
    rw [hv] at hw; cases hw
    have := updLoop_self (u := u) (nw := nw) [] tv (h.sorted _ _ hv) tv.length (le_refl _) m hv
    rw [this] at hs
    split at hs
    · next hz =>
      simp only [Option.some.injEq, List.nil_append] at hs
      subst hs
      refine ⟨?_, (value_put _ _ _ _).2⟩
      rw [(value_put _ _ _ _).1, updAll_self (sorted_values.2 (h.sorted _ _ hv))]
      · simp [values]
      · intro p hp
        simp only [values, List.mem_map] at hp
        obtain ⟨q, hq, rfl⟩ := hp
        exact hz q hq
    · cases hs
  · rw [updLoop_ne e (h.sorted _ _ hw) [] tw rfl tw.length (le_refl _) tv m hv hw] at hs
    simp only [Option.some.injEq] at hs
    subst hs
    refine ⟨?_, (value_put _ _ _ _).2⟩
    rw [(value_put _ _ _ _).1, updFold_values]

/-- **C100** The operations change the values as documented, also if the operands are the same object; other variables keep theirs. -/
theorem C100_values (hm : Reach m) (op : Op G S) (hs : step op m = some m') : op.Effect m m' := by
  have h := hm.wf
  cases op with
  | create e =>
    simp only [step, Option.some.injEq] at hs; subst hs
    have := value_push m (label m.next e.terms) (m.next + e.terms.length)
    rw [values_label] at this
    exact this
  | copy w =>
    simp only [step, Option.map_eq_some_iff] at hs
    obtain ⟨t, ht, rfl⟩ := hs
    have := value_push m (label m.next t.values) (m.next + t.length)
    rw [values_label] at this
    exact ⟨by rw [this.1, value_of ht], this.2⟩
  | move w =>
    simp only [step, Option.map_eq_some_iff] at hs
    obtain ⟨t, ht, rfl⟩ := hs
    have hw := h.lt_vars ht
    have h1 := value_push (m.put w (some []) m.next) t m.next
    have h2 := value_put m w [] m.next
    have e : (m.put w (some ([] : NTerms G S)) m.next).vars = m.vars := rfl
    rw [e] at h1
    refine ⟨by rw [h1.1, value_of ht], ?_, fun o a b => ?_⟩
    · rw [h1.2 w (by omega), h2.1]; rfl
    · rw [h1.2 o a, h2.2 o b]
  | destroy v =>
    simp only [step, Option.map_eq_some_iff] at hs
    obtain ⟨t, ht, rfl⟩ := hs
    refine ⟨by simp [value, put], fun o e => by simp [value, put, e]⟩
  | copyAssign v w =>
    simp only [step] at hs
    split at hs
    · next t0 t h0 ht =>
      simp only [Option.some.injEq] at hs
      subst hs
      split
      · next e => subst e; exact ⟨rfl, fun _ _ => rfl⟩
      · have := value_put m v (label m.next t.values) (m.next + t.length)
        rw [values_label] at this
        exact ⟨by rw [this.1, value_of ht], this.2⟩
    · cases hs
  | moveAssign v w =>
    simp only [step] at hs
    split at hs
    · next t0 t h0 ht =>
      split at hs
      · cases hs
      · next hne =>
        simp only [Option.some.injEq] at hs
        subst hs
        have h1 := value_put (m.put w (some []) m.next) v t m.next
        have h2 := value_put m w [] m.next
        refine ⟨by rw [h1.1, value_of ht], ?_, fun o a b => ?_⟩
        · rw [h1.2 w (Ne.symm hne), h2.1]; rfl
        · rw [h1.2 o a, h2.2 o b]
    · cases hs
  | addAssign v w =>
    simp only [step] at hs
    split at hs
    · next t0 t h0 ht =>
      obtain ⟨h1, h2⟩ := upd_effect h h0 ht hs
      refine ⟨⟨_, _, value_of h0, value_of ht, ?_⟩, h2⟩
      rw [h1, Option.some.injEq]
      exact Expr.ext (addAssign_upd _ _).symm
    · cases hs
  | subAssign v w =>
    simp only [step] at hs
    split at hs
    · next t0 t h0 ht =>
      obtain ⟨h1, h2⟩ := upd_effect h h0 ht hs
      refine ⟨⟨_, _, value_of h0, value_of ht, ?_⟩, h2⟩
      rw [h1, Option.some.injEq]
      exact Expr.ext (subAssign_upd _ _).symm
    · cases hs
  | mulAssign v w =>
    simp only [step] at hs
    split at hs
    · next t0 t h0 ht =>
      simp only [Option.some.injEq] at hs
      subst hs
      have := value_put m v (label m.next ((Expr.mk t0.values).mulAssign (Expr.mk t.values)).terms)
        (m.next + ((Expr.mk t0.values).mulAssign (Expr.mk t.values)).terms.length)
      rw [values_label] at this
      exact ⟨⟨_, _, value_of h0, value_of ht, this.1⟩, this.2⟩
    · cases hs
  | addScalar v x =>
    simp only [step, Option.map_eq_some_iff] at hs
    obtain ⟨t, ht, rfl⟩ := hs
    by_cases hx : x = 0
    · subst hx
      rw [if_pos rfl]
      exact ⟨⟨_, value_of ht, by rw [value_of ht]; simp [Expr.addAssignScalar]⟩, fun _ _ => rfl⟩
    · rw [if_neg hx]
      have := value_put m v (updNode (· + ·) (0 + ·) m.next t [] x).1 (updNode (· + ·) (0 + ·) m.next t [] x).2
      refine ⟨⟨_, value_of ht, ?_⟩, this.2⟩
      rw [this.1, updNode_values]
      unfold Expr.addAssignScalar upd
      rw [if_neg hx]
      simp only
      congr 2
      cases (values t).find? [] with
      | none => rfl
      | some v => by_cases h0 : v + x = 0 <;> simp [h0]
  | subScalar v x =>
    simp only [step, Option.map_eq_some_iff] at hs
    obtain ⟨t, ht, rfl⟩ := hs
    by_cases hx : x = 0
    · subst hx
      rw [if_pos rfl]
      exact ⟨⟨_, value_of ht, by rw [value_of ht]; simp [Expr.subAssignScalar]⟩, fun _ _ => rfl⟩
    · rw [if_neg hx]
      have := value_put m v (updNode (· - ·) (0 - ·) m.next t [] x).1 (updNode (· - ·) (0 - ·) m.next t [] x).2
      refine ⟨⟨_, value_of ht, ?_⟩, this.2⟩
      rw [this.1, updNode_values]
      unfold Expr.subAssignScalar upd
      rw [if_neg hx]
      simp only
      congr 2
      cases (values t).find? [] with
      | none => rfl
      | some v => by_cases h0 : v - x = 0 <;> simp [h0]
  | mulScalar v x =>
    simp only [step, Option.map_eq_some_iff] at hs
    obtain ⟨t, ht, rfl⟩ := hs
    have := value_put m v (if x = 0 then [] else t.map fun p => (p.1, (p.2.1 * x, p.2.2))) m.next
    refine ⟨⟨_, value_of ht, ?_⟩, this.2⟩
    rw [this.1]
    unfold Expr.smulAssign
    by_cases hx : x = 0
    · simp [hx, values]
    · simp [hx, values]
  | clear v =>
    simp only [step, Option.map_eq_some_iff] at hs
    obtain ⟨t, ht, rfl⟩ := hs
    exact value_put m v [] m.next

/-! ### Validity of iterators and references -/

/-- The operations that invalidate iterators and references to the monomial `k` of the variable `o`, whose coefficient is `c`. -/
def Op.Kills (m : ExprMem G S) (o : Nat) (k : List G) (c : S) : Op G S → Prop
  | .create _ | .copy _ | .move _ => False
  | .destroy v | .clear v => o = v
  | .copyAssign v w => o = v ∧ v ≠ w
  | .moveAssign v _ => o = v
  | .addAssign v w => o = v ∧ ∃ b d, m.value w = some b ∧ (k, d) ∈ b.terms ∧ c + d = 0
  | .subAssign v w => o = v ∧ ∃ b d, m.value w = some b ∧ (k, d) ∈ b.terms ∧ c - d = 0
  | .mulAssign v _ => o = v
  | .addScalar v x => o = v ∧ k = [] ∧ x ≠ 0 ∧ c + x = 0
  | .subScalar v x => o = v ∧ k = [] ∧ x ≠ 0 ∧ c - x = 0
  | .mulScalar v x => o = v ∧ x = 0

/-- The variable that owns the monomials of `o` afterwards: moving transfers them. -/
def Op.home (m : ExprMem G S) (o : Nat) : Op G S → Nat
  | .move w => if o = w then m.vars else o
  | .moveAssign v w => if o = w then v else o
  | _ => o

theorem upd_stable {u : S → S → S} {nw : S → S} (h : m.WF) (h' : m'.WF) {v w : Nat} {tv tw : NTerms G S} (hv : m.objs v = some tv)
    (hw : m.objs w = some tw) (hs : updLoop u nw v w tw.length tw.firstKey m = some m') {o : Nat} {k : List G} {c : S} {i : Nat}
    (ha : m.At o k c i) :
    ((o = v ∧ ∃ d, (k, d) ∈ tw.values ∧ u c d = 0) → ∀ o k c, ¬ m'.At o k c i) ∧
    (¬ (o = v ∧ ∃ d, (k, d) ∈ tw.values ∧ u c d = 0) → ∃ c', m'.At o k c' i) := by
  have hlt := h.lt _ _ _ _ ha
  by_cases e : v = w
  · subst e
    rw [hv] at hw; cases hw
    have := updLoop_self (u := u) (nw := nw) [] tv (h.sorted _ _ hv) tv.length (le_refl _) m hv
    rw [this] at hs
    split at hs
    · next hz =>
      simp only [Option.some.injEq, List.nil_append] at hs
      subst hs
      constructor
      · rintro ⟨rfl, d, hd, h0⟩
        exfalso
        obtain ⟨t, ht, hk⟩ := ha
        rw [hv] at ht; cases ht
        simp only [values, List.mem_map, Prod.mk.injEq] at hd
        obtain ⟨q, hq, e1, e2⟩ := hd
        have := (find?_of_mem (h.sorted _ _ hv) hk).symm.trans (find?_of_mem (h.sorted _ _ hv) (k := k) (v := q.2) (by rw [← e1]; exact hq))
        simp only [Option.some.injEq] at this
        rw [← this] at e2
        simp only at e2
        subst e2
        exact hz _ hk h0
      · intro _
        by_cases eo : o = v
        · subst eo
          obtain ⟨t, ht, hk⟩ := ha
          rw [hv] at ht; cases ht
          exact ⟨u c c, at_put.2 (.inl ⟨rfl, _, rfl, List.mem_map.2 ⟨_, hk, rfl⟩⟩)⟩
        · exact ⟨c, at_put.2 (.inr ⟨eo, ha⟩)⟩
    · cases hs
  · rw [updLoop_ne e (h.sorted _ _ hw) [] tw rfl tw.length (le_refl _) tv m hv hw] at hs
    simp only [Option.some.injEq] at hs
    subst hs
    have hsw := sorted_values.2 (h.sorted _ _ hw)
    by_cases eo : o = v
    · subst eo
      obtain ⟨t, ht, hk⟩ := ha
      rw [hv] at ht; cases ht
      have hf := updFold_find (u := u) (nw := nw) tw.values hsw (r := (tv, m.next)) (h.sorted _ _ hv)
        (find?_of_mem (h.sorted _ _ hv) hk)
      have hsr := updFold_sorted (u := u) (nw := nw) tw.values (r := (tv, m.next)) (h.sorted _ _ hv)
      constructor
      · rintro ⟨_, d, hd, h0⟩ o' k' c' ha'
        rw [find?_of_mem hsw hd] at hf
        simp only [h0, if_true] at hf
        rcases at_put.1 ha' with ⟨rfl, t', e', hk'⟩ | ⟨hne, ha'⟩
        · cases e'
          obtain ⟨c0, h0'⟩ := updFold_old tw.values (r := (tv, m.next)) (h.sorted _ _ hv) hk' hlt
          have := h.uniqT hv _ _ _ _ _ h0' hk
          subst this
          have := find?_of_mem hsr hk'
          rw [hf] at this; cases this
        · exact hne (h.uniq _ _ _ _ _ _ _ ha' ⟨_, hv, hk⟩).1
      · intro hn
        cases hd : Terms.find? k tw.values with
        | none =>
          rw [hd] at hf
          exact ⟨c, at_put.2 (.inl ⟨rfl, _, rfl, find?_mem hf⟩)⟩
        | some d =>
          rw [hd] at hf
          have h0 : u c d ≠ 0 := fun h0 => hn ⟨rfl, d, find?_mem hd, h0⟩
          simp only [h0, if_false] at hf
          exact ⟨u c d, at_put.2 (.inl ⟨rfl, _, rfl, find?_mem hf⟩)⟩
    · exact ⟨fun hh => absurd hh.1 eo, fun _ => ⟨c, at_put.2 (.inr ⟨eo, ha⟩)⟩⟩

theorem node_stable {u : S → S → S} {nw : S → S} (h : m.WF) {v : Nat} {t : NTerms G S} (ht : m.objs v = some t) {x : S} {o : Nat}
    {k : List G} {c : S} {i : Nat} (ha : m.At o k c i) :
    ((o = v ∧ k = [] ∧ u c x = 0) →
      ∀ o k c, ¬ (m.put v (some (updNode u nw m.next t [] x).1) (updNode u nw m.next t [] x).2).At o k c i) ∧
    (¬ (o = v ∧ k = [] ∧ u c x = 0) →
      ∃ c', (m.put v (some (updNode u nw m.next t [] x).1) (updNode u nw m.next t [] x).2).At o k c' i) := by
  have hsr := updNode_sorted (u := u) (nw := nw) (n := m.next) (h.sorted _ _ ht) [] x
  by_cases eo : o = v
  · subst eo
    obtain ⟨t', ht', hk⟩ := ha
    rw [ht] at ht'; cases ht'
    have hfk := find?_of_mem (h.sorted _ _ ht) hk
    have hf := updNode_find (u := u) (nw := nw) (n := m.next) (h.sorted _ _ ht) [] k x
    constructor
    · rintro ⟨_, rfl, h0⟩ o' k' c' ha'
      rw [if_pos rfl, hfk] at hf
      simp only [h0, if_true] at hf
      rcases at_put.1 ha' with ⟨rfl, t', e', hk'⟩ | ⟨hne, ha'⟩
      · cases e'
        rcases (updNode_repl h ht [] x).mem _ _ _ hk' with ⟨c0, h0'⟩ | hge
        · have := (h.uniq _ _ _ _ _ _ _ h0' ⟨_, ht, hk⟩).2
          subst this
          have := find?_of_mem hsr hk'
          rw [hf] at this; cases this
        · have := h.lt _ _ _ _ ⟨_, ht, hk⟩; omega
      · exact hne (h.uniq _ _ _ _ _ _ _ ha' ⟨_, ht, hk⟩).1
    · intro hn
      by_cases ek : k = []
      · subst ek
        rw [if_pos rfl, hfk] at hf
        have h0 : u c x ≠ 0 := fun h0 => hn ⟨rfl, rfl, h0⟩
        simp only [h0, if_false] at hf
        exact ⟨u c x, at_put.2 (.inl ⟨rfl, _, rfl, find?_mem hf⟩)⟩
      · rw [if_neg ek, hfk] at hf
        exact ⟨c, at_put.2 (.inl ⟨rfl, _, rfl, find?_mem hf⟩)⟩
  · exact ⟨fun hh => absurd hh.1 eo, fun _ => ⟨c, at_put.2 (.inr ⟨eo, ha⟩)⟩⟩

/-- Replacing the nodes of `v` by new ones (or none). -/
theorem fresh_stable (h : m.WF) {v : Nat} {t : Option (NTerms G S)} {n : Nat}
    (ht : ∀ t', t = some t' → ∀ k c i, (k, (c, i)) ∈ t' → m.next ≤ i) {o : Nat} {k : List G} {c : S} {i : Nat} (ha : m.At o k c i) :
    (o = v → ∀ o k c, ¬ (m.put v t n).At o k c i) ∧ (¬ o = v → ∃ c', (m.put v t n).At o k c' i) := by
  have hlt := h.lt _ _ _ _ ha
  constructor
  · rintro rfl o' k' c' ha'
    rcases at_put.1 ha' with ⟨rfl, t', e', hk'⟩ | ⟨hne, ha'⟩
    · have := ht t' e' _ _ _ hk'; omega
    · exact hne (h.uniq _ _ _ _ _ _ _ ha' ha).1
  · intro e
    exact ⟨c, at_put.2 (.inr ⟨e, ha⟩)⟩

theorem at_stable (h : m.WF) (op : Op G S) (hc : ∀ e, op = .create e → e.terms.Sorted) (hs : step op m = some m') {o : Nat} {k : List G}
    {c : S} {i : Nat} (ha : m.At o k c i) :
    (op.Kills m o k c → ∀ o k c, ¬ m'.At o k c i) ∧ (¬ op.Kills m o k c → ∃ c', m'.At (op.home m o) k c' i) := by
  have h' := step_wf op h hc hs
  have hlt := h.lt _ _ _ _ ha
  have hov : o < m.vars := by obtain ⟨t, ht, _⟩ := ha; exact h.lt_vars ht
  cases op with
  | create e =>
    simp only [step, Option.some.injEq] at hs; subst hs
    exact ⟨fun hh => hh.elim, fun _ => ⟨c, at_push.2 (.inr ⟨by simp only [Op.home]; omega, ha⟩)⟩⟩
  | copy w =>
    simp only [step, Option.map_eq_some_iff] at hs
    obtain ⟨t, ht, rfl⟩ := hs
    exact ⟨fun hh => hh.elim, fun _ => ⟨c, at_push.2 (.inr ⟨by simp only [Op.home]; omega, ha⟩)⟩⟩
  | move w =>
    simp only [step, Option.map_eq_some_iff] at hs
    obtain ⟨t, ht, rfl⟩ := hs
    refine ⟨fun hh => hh.elim, fun _ => ⟨c, ?_⟩⟩
    simp only [Op.home]
    by_cases e : o = w
    · subst e
      rw [if_pos rfl]
      obtain ⟨t', ht', hk⟩ := ha
      rw [ht] at ht'; cases ht'
      exact at_push.2 (.inl ⟨rfl, hk⟩)
    · rw [if_neg e]
      refine at_push.2 (.inr ⟨?_, at_put.2 (.inr ⟨e, ha⟩)⟩)
      show o ≠ m.vars
      omega
  | destroy v =>
    simp only [step, Option.map_eq_some_iff] at hs
    obtain ⟨t, ht, rfl⟩ := hs
    exact fresh_stable h (by simp) ha
  | copyAssign v w =>
    simp only [step] at hs
    split at hs
    · next t0 t h0 ht =>
      simp only [Option.some.injEq] at hs
      subst hs
      by_cases e : v = w
      · rw [if_pos e]
        exact ⟨fun hh => absurd e hh.2, fun _ => ⟨c, ha⟩⟩
      · rw [if_neg e]
        have := fresh_stable h (v := v) (t := some (label m.next t.values)) (n := m.next + t.length)
          (by rintro t' e' k c i hk; cases e'; exact (label_mem hk).1) ha
        exact ⟨fun hh => this.1 hh.1, fun hh => this.2 fun e' => hh ⟨e', e⟩⟩
    · cases hs
  | moveAssign v w =>
    simp only [step] at hs
    split at hs
    · next t0 t h0 ht =>
      split at hs
      · cases hs
      · next hne =>
        simp only [Option.some.injEq] at hs
        subst hs
        constructor
        · rintro (rfl : o = v) o' k' c' ha'
          rcases at_put.1 ha' with ⟨rfl, t', e', hk'⟩ | ⟨hne', ha'⟩
          · cases e'
            exact hne (h.uniq _ _ _ _ _ _ _ ha ⟨_, ht, hk'⟩).1
          · rcases at_put.1 ha' with ⟨rfl, t', e', hk'⟩ | ⟨_, ha'⟩
            · cases e'; simp at hk'
            · exact hne' (h.uniq _ _ _ _ _ _ _ ha' ha).1
        · intro hv
          change ¬ o = v at hv
          simp only [Op.home]
          by_cases e : o = w
          · subst e
            rw [if_pos rfl]
            obtain ⟨t', ht', hk⟩ := ha
            rw [ht] at ht'; cases ht'
            exact ⟨c, at_put.2 (.inl ⟨rfl, _, rfl, hk⟩)⟩
          · rw [if_neg e]
            exact ⟨c, at_put.2 (.inr ⟨hv, at_put.2 (.inr ⟨e, ha⟩)⟩)⟩
    · cases hs
  | addAssign v w =>
    simp only [step] at hs
    split at hs
    · next t0 t h0 ht =>
      have := upd_stable h h' h0 ht hs ha
      simp only [Op.Kills, Op.home, value_of ht, Option.some.injEq]
      exact ⟨fun ⟨e, b, d, hb, hd, hz⟩ => this.1 ⟨e, d, by rw [← hb] at hd; exact hd, hz⟩,
        fun hh => this.2 fun ⟨e, d, hd, hz⟩ => hh ⟨e, _, d, rfl, hd, hz⟩⟩
    · cases hs
  | subAssign v w =>
    simp only [step] at hs
    split at hs
    · next t0 t h0 ht =>
      have := upd_stable h h' h0 ht hs ha
      simp only [Op.Kills, Op.home, value_of ht, Option.some.injEq]
      exact ⟨fun ⟨e, b, d, hb, hd, hz⟩ => this.1 ⟨e, d, by rw [← hb] at hd; exact hd, hz⟩,
        fun hh => this.2 fun ⟨e, d, hd, hz⟩ => hh ⟨e, _, d, rfl, hd, hz⟩⟩
    · cases hs
  | mulAssign v w =>
    simp only [step] at hs
    split at hs
    · next t0 t h0 ht =>
      simp only [Option.some.injEq] at hs
      subst hs
      exact fresh_stable h (by rintro t' e' k c i hk; cases e'; exact (label_mem hk).1) ha
    · cases hs
  | addScalar v x =>
    simp only [step, Option.map_eq_some_iff] at hs
    obtain ⟨t, ht, rfl⟩ := hs
    by_cases hx : x = 0
    · rw [if_pos hx]
      exact ⟨fun hh => absurd hx hh.2.2.1, fun _ => ⟨c, ha⟩⟩
    · rw [if_neg hx]
      have := node_stable (u := (· + ·)) (nw := (0 + ·)) (x := x) h ht ha
      exact ⟨fun hh => this.1 ⟨hh.1, hh.2.1, hh.2.2.2⟩, fun hh => this.2 fun ⟨a, b, d⟩ => hh ⟨a, b, hx, d⟩⟩
  | subScalar v x =>
    simp only [step, Option.map_eq_some_iff] at hs
    obtain ⟨t, ht, rfl⟩ := hs
    by_cases hx : x = 0
    · rw [if_pos hx]
      exact ⟨fun hh => absurd hx hh.2.2.1, fun _ => ⟨c, ha⟩⟩
    · rw [if_neg hx]
      have := node_stable (u := (· - ·)) (nw := (0 - ·)) (x := x) h ht ha
      exact ⟨fun hh => this.1 ⟨hh.1, hh.2.1, hh.2.2.2⟩, fun hh => this.2 fun ⟨a, b, d⟩ => hh ⟨a, b, hx, d⟩⟩
  | mulScalar v x =>
    simp only [step, Option.map_eq_some_iff] at hs
    obtain ⟨t, ht, rfl⟩ := hs
    by_cases hx : x = 0
    · rw [if_pos hx]
      have := fresh_stable h (v := v) (t := some []) (n := m.next) (by rintro t' e' k c i hk; cases e'; simp at hk) ha
      exact ⟨fun hh => this.1 hh.1, fun hh => this.2 fun e => hh ⟨e, hx⟩⟩
    · rw [if_neg hx]
      refine ⟨fun hh => absurd hh.2 hx, fun _ => ?_⟩
      simp only [Op.home]
      by_cases e : o = v
      · subst e
        obtain ⟨t', ht', hk⟩ := ha
        rw [ht] at ht'; cases ht'
        exact ⟨c * x, at_put.2 (.inl ⟨rfl, _, rfl, List.mem_map.2 ⟨_, hk, rfl⟩⟩)⟩
      · exact ⟨c, at_put.2 (.inr ⟨e, ha⟩)⟩
  | clear v =>
    simp only [step, Option.map_eq_some_iff] at hs
    obtain ⟨t, ht, rfl⟩ := hs
    exact fresh_stable h (by rintro t' e' k c i hk; cases e'; simp at hk) ha

/-- **C100** An iterator, and the references obtained from it, stays valid until its monomial is removed: by an operation that replaces or
destroys the whole expression, or because its coefficient becomes zero. Otherwise it keeps its monomial, refers to the current
coefficient, and follows its expression when that is moved. -/
theorem C100_validity (hm : Reach m) (op : Op G S) (hc : ∀ e, op = .create e → e.terms.Sorted) (hs : step op m = some m') {o : Nat}
    {k : List G} {c : S} {i : Nat} (hi : m.locate i = some (o, k, c)) :
    (op.Kills m o k c → m'.deref (.node i) = none) ∧
    (¬ op.Kills m o k c → ∃ e d, m'.value (op.home m o) = some e ∧ (k, d) ∈ e.terms ∧ m'.deref (.node i) = some (k, d)) := by
  have h := hm.wf
  have h' := step_wf op h hc hs
  obtain ⟨h1, h2⟩ := at_stable h op hc hs ((locate_iff h).1 hi)
  constructor
  · intro hk
    simp only [deref, (locate_none h').2 (h1 hk), Option.map_none]
  · intro hk
    obtain ⟨d, hd⟩ := h2 hk
    obtain ⟨t, ht, hmem⟩ := hd
    refine ⟨_, d, value_of ht, List.mem_map.2 ⟨_, hmem, rfl⟩, ?_⟩
    simp only [deref, (locate_iff h').2 ⟨t, ht, hmem⟩, Option.map_some]

/-! ### Invalid iterators, other variables, undefined behaviour -/

theorem updLoop_old {u : S → S → S} {nw : S → S} (v w : Nat) (n : Nat) (cur : Option (List G)) (h : m.WF)
    (hr : updLoop u nw v w n cur m = some m') :
    m.next ≤ m'.next ∧ ∀ o k c i, m'.At o k c i → i < m.next → ∃ c0, m.At o k c0 i := by
  induction n generalizing cur m with
  | zero => cases cur <;> simp only [updLoop, Option.some.injEq] at hr <;> subst hr <;> exact ⟨le_refl _, fun o k c i ha _ => ⟨c, ha⟩⟩
  | succ n ih =>
    cases cur with
    | none => simp only [updLoop, Option.some.injEq] at hr; subst hr; exact ⟨le_refl _, fun o k c i ha _ => ⟨c, ha⟩⟩
    | some k =>
      rw [updLoop] at hr
      cases hv : m.objs v with
      | none => simp [hv] at hr
      | some tv =>
        cases hw : m.objs w with
        | none => simp [hv, hw] at hr
        | some tw =>
          simp only [hv, hw] at hr
          cases hk : tw.find? k with
          | none => simp [hk] at hr
          | some c =>
            simp only [hk] at hr
            cases hw' : (m.put v (some (updNode u nw m.next tv k c.1).1) (updNode u nw m.next tv k c.1).2).objs w with
            | none => simp [hw'] at hr
            | some tw' =>
              simp only [hw'] at hr
              cases hk' : tw'.find? k with
              | none => simp [hk'] at hr
              | some _ =>
                simp only [hk'] at hr
                have hrep := updNode_repl (u := u) (nw := nw) h hv k c.1
                obtain ⟨h1, h2⟩ := ih _ (h.put (h.lt_vars hv) hrep) hr
                refine ⟨le_trans hrep.le h1, fun o l x i ha hi => ?_⟩
                obtain ⟨c0, h0⟩ := h2 o l x i ha (lt_of_lt_of_le hi hrep.le)
                rcases at_put.1 h0 with ⟨rfl, t', e', hk'⟩ | ⟨_, h0⟩
                · cases e'
                  rcases hrep.mem _ _ _ hk' with h3 | h3
                  · exact h3
                  · omega
                · exact ⟨c0, h0⟩

theorem put_old {v : Nat} {t : NTerms G S} {n : Nat} (hr : Repl m v t n) :
    m.next ≤ (m.put v (some t) n).next ∧ ∀ o k c i, (m.put v (some t) n).At o k c i → i < m.next → ∃ o0 c0, m.At o0 k c0 i := by
  refine ⟨hr.le, fun o k c i ha hi => ?_⟩
  rcases at_put.1 ha with ⟨rfl, t', e', hk'⟩ | ⟨_, h0⟩
  · cases e'
    rcases hr.mem _ _ _ hk' with ⟨c', h3⟩ | h3
    · exact ⟨_, c', h3⟩
    · omega
  · exact ⟨_, c, h0⟩

theorem push_old {t : NTerms G S} {n : Nat} (hn : m.next ≤ n) (ht : ∀ k c i, (k, (c, i)) ∈ t → m.next ≤ i ∨ ∃ o c, m.At o k c i) :
    m.next ≤ (m.push t n).next ∧ ∀ o k c i, (m.push t n).At o k c i → i < m.next → ∃ o0 c0, m.At o0 k c0 i := by
  refine ⟨hn, fun o k c i ha hi => ?_⟩
  rcases at_push.1 ha with ⟨_, hk⟩ | ⟨_, h0⟩
  · rcases ht _ _ _ hk with h1 | h1
    · omega
    · exact h1
  · exact ⟨_, c, h0⟩

theorem step_old (h : m.WF) (op : Op G S) (hs : step op m = some m') :
    m.next ≤ m'.next ∧ ∀ o k c i, m'.At o k c i → i < m.next → ∃ o0 c0, m.At o0 k c0 i := by
  cases op with
  | create e =>
    simp only [step, Option.some.injEq] at hs; subst hs
    exact push_old (by omega) fun _ _ _ a => .inl (label_mem a).1
  | copy w =>
    simp only [step, Option.map_eq_some_iff] at hs
    obtain ⟨t, ht, rfl⟩ := hs
    exact push_old (by omega) fun _ _ _ a => .inl (label_mem a).1
  | move w =>
    simp only [step, Option.map_eq_some_iff] at hs
    obtain ⟨t, ht, rfl⟩ := hs
    refine ⟨le_refl _, fun o k c i ha hi => ?_⟩
    rcases at_push.1 ha with ⟨_, hk⟩ | ⟨_, h0⟩
    · exact ⟨w, c, t, ht, hk⟩
    · rcases at_put.1 h0 with ⟨_, t', e', hk'⟩ | ⟨_, h0⟩
      · cases e'; simp at hk'
      · exact ⟨_, c, h0⟩
  | destroy v =>
    simp only [step, Option.map_eq_some_iff] at hs
    obtain ⟨t, ht, rfl⟩ := hs
    refine ⟨le_refl _, fun o k c i ha hi => ?_⟩
    rcases at_put.1 ha with ⟨_, t', e', hk'⟩ | ⟨_, h0⟩
    · cases e'
    · exact ⟨_, c, h0⟩
  | copyAssign v w =>
    simp only [step] at hs
    split at hs
    · next t0 t h0 ht =>
      simp only [Option.some.injEq] at hs
      subst hs
      split
      · exact ⟨le_refl _, fun o k c i ha _ => ⟨o, c, ha⟩⟩
      · exact put_old (repl_label m v (sorted_values.2 (h.sorted _ _ ht)) _ (by simp [values]))
    · cases hs
  | moveAssign v w =>
    simp only [step] at hs
    split at hs
    · next t0 t h0 ht =>
      split at hs
      · cases hs
      · simp only [Option.some.injEq] at hs
        subst hs
        refine ⟨le_refl _, fun o k c i ha hi => ?_⟩
        rcases at_put.1 ha with ⟨_, t', e', hk'⟩ | ⟨_, h0⟩
        · cases e'; exact ⟨w, c, t, ht, hk'⟩
        · rcases at_put.1 h0 with ⟨_, t', e', hk'⟩ | ⟨_, h0⟩
          · cases e'; simp at hk'
          · exact ⟨_, c, h0⟩
    · cases hs
  | addAssign v w =>
    simp only [step] at hs
    split at hs
    · obtain ⟨h1, h2⟩ := updLoop_old _ _ _ _ h hs
      exact ⟨h1, fun o k c i ha hi => ⟨o, h2 o k c i ha hi⟩⟩
    · cases hs
  | subAssign v w =>
    simp only [step] at hs
    split at hs
    · obtain ⟨h1, h2⟩ := updLoop_old _ _ _ _ h hs
      exact ⟨h1, fun o k c i ha hi => ⟨o, h2 o k c i ha hi⟩⟩
    · cases hs
  | mulAssign v w =>
    simp only [step] at hs
    split at hs
    · next t0 t h0 ht =>
      simp only [Option.some.injEq] at hs
      subst hs
      exact put_old (repl_label m v (mulAssign_sorted _ _) _ rfl)
    · cases hs
  | addScalar v x =>
    simp only [step, Option.map_eq_some_iff] at hs
    obtain ⟨t, ht, rfl⟩ := hs
    split
    · exact ⟨le_refl _, fun o k c i ha _ => ⟨o, c, ha⟩⟩
    · exact put_old (updNode_repl h ht _ _)
  | subScalar v x =>
    simp only [step, Option.map_eq_some_iff] at hs
    obtain ⟨t, ht, rfl⟩ := hs
    split
    · exact ⟨le_refl _, fun o k c i ha _ => ⟨o, c, ha⟩⟩
    · exact put_old (updNode_repl h ht _ _)
  | mulScalar v x =>
    simp only [step, Option.map_eq_some_iff] at hs
    obtain ⟨t, ht, rfl⟩ := hs
    refine put_old ?_
    split
    · exact repl_nil m v
    · exact repl_scale h ht (· * x)
  | clear v =>
    simp only [step, Option.map_eq_some_iff] at hs
    obtain ⟨t, ht, rfl⟩ := hs
    exact put_old (repl_nil m v)

/-- **C100** An iterator that has become invalid stays invalid, whatever the program does. -/
theorem C100_invalid_forever (hm : Reach m) (ops : List (Op G S)) (hc : ∀ op ∈ ops, ∀ e, op = .create e → e.terms.Sorted)
    (hs : run ops m = some m') {i : Nat} (hi : i < m.next) (hd : m.deref (.node i) = none) : m'.deref (.node i) = none := by
  induction ops generalizing m with
  | nil => simp only [run, Option.some.injEq] at hs; exact hs ▸ hd
  | cons op ops ih =>
    simp only [run, Option.bind_eq_some_iff] at hs
    obtain ⟨m1, h1, h2⟩ := hs
    have hr : Reach m1 := .step op hm (hc op (by simp)) h1
    obtain ⟨hle, hold⟩ := step_old hm.wf op h1
    refine ih hr (fun o ho => hc o (by simp [ho])) h2 (lt_of_lt_of_le hi hle) ?_
    simp only [deref, Option.map_eq_none_iff] at hd ⊢
    rw [locate_none hr.wf]
    intro o k c ha
    obtain ⟨o0, c0, h0⟩ := hold o k c i ha hi
    exact (locate_none hm.wf).1 hd _ _ _ h0

/-- The variables whose nodes an operation may change. -/
def Op.touches (m : ExprMem G S) : Op G S → List Nat
  | .create _ | .copy _ => [m.vars]
  | .move w => [m.vars, w]
  | .destroy v | .clear v | .copyAssign v _ | .addAssign v _ | .subAssign v _ | .mulAssign v _ | .addScalar v _ | .subScalar v _
  | .mulScalar v _ => [v]
  | .moveAssign v w => [v, w]

theorem updLoop_other {u : S → S → S} {nw : S → S} (v w : Nat) (n : Nat) (cur : Option (List G))
    (hr : updLoop u nw v w n cur m = some m') : ∀ o, o ≠ v → m'.objs o = m.objs o := by
  induction n generalizing cur m with
  | zero => cases cur <;> simp only [updLoop, Option.some.injEq] at hr <;> subst hr <;> exact fun _ _ => rfl
  | succ n ih =>
    cases cur with
    | none => simp only [updLoop, Option.some.injEq] at hr; subst hr; exact fun _ _ => rfl
    | some k =>
      rw [updLoop] at hr
      cases hv : m.objs v with
      | none => simp [hv] at hr
      | some tv =>
        cases hw : m.objs w with
        | none => simp [hv, hw] at hr
        | some tw =>
          simp only [hv, hw] at hr
          cases hk : tw.find? k with
          | none => simp [hk] at hr
          | some c =>
            simp only [hk] at hr
            cases hw' : (m.put v (some (updNode u nw m.next tv k c.1).1) (updNode u nw m.next tv k c.1).2).objs w with
            | none => simp [hw'] at hr
            | some tw' =>
              simp only [hw'] at hr
              cases hk' : tw'.find? k with
              | none => simp [hk'] at hr
              | some _ =>
                simp only [hk'] at hr
                intro o ho
                rw [ih _ hr o ho]
                simp [put, ho]

theorem step_other (op : Op G S) (hs : step op m = some m') : ∀ o, o ∉ op.touches m → m'.objs o = m.objs o := by
  intro o ho
  cases op with
  | create e =>
    simp only [Op.touches, List.mem_singleton] at ho
    simp only [step, Option.some.injEq] at hs; subst hs
    simp [push, ho]
  | copy w =>
    simp only [Op.touches, List.mem_singleton] at ho
    simp only [step, Option.map_eq_some_iff] at hs
    obtain ⟨t, ht, rfl⟩ := hs
    simp [push, ho]
  | move w =>
    simp only [Op.touches, List.mem_cons, List.not_mem_nil, or_false, not_or] at ho
    simp only [step, Option.map_eq_some_iff] at hs
    obtain ⟨t, ht, rfl⟩ := hs
    simp [push, put, ho.1, ho.2]
  | destroy v | clear v | mulScalar v x =>
    simp only [Op.touches, List.mem_singleton] at ho
    simp only [step, Option.map_eq_some_iff] at hs
    obtain ⟨t, ht, rfl⟩ := hs
    simp [put, ho]
  | copyAssign v w =>
    simp only [Op.touches, List.mem_singleton] at ho
    simp only [step] at hs
    split at hs
    · simp only [Option.some.injEq] at hs
      subst hs
      split
      · rfl
      · simp [put, ho]
    · cases hs
  | moveAssign v w =>
    simp only [Op.touches, List.mem_cons, List.not_mem_nil, or_false, not_or] at ho
    simp only [step] at hs
    split at hs
    · split at hs
      · cases hs
      · simp only [Option.some.injEq] at hs
        subst hs
        simp [put, ho.1, ho.2]
    · cases hs
  | addAssign v w | subAssign v w =>
    simp only [Op.touches, List.mem_singleton] at ho
    simp only [step] at hs
    split at hs
    · exact updLoop_other _ _ _ _ hs o ho
    · cases hs
  | mulAssign v w =>
    simp only [Op.touches, List.mem_singleton] at ho
    simp only [step] at hs
    split at hs
    · simp only [Option.some.injEq] at hs
      subst hs
      simp [put, ho]
    · cases hs
  | addScalar v x | subScalar v x =>
    simp only [Op.touches, List.mem_singleton] at ho
    simp only [step, Option.map_eq_some_iff] at hs
    obtain ⟨t, ht, rfl⟩ := hs
    split
    · rfl
    · simp [put, ho]

/-- **C100** Iterating over an expression while other expressions are created, modified or destroyed: dereferencing and incrementing an
iterator of `o` gives the same results before and after an operation that does not touch `o`. -/
theorem C100_other_variables (hm : Reach m) (op : Op G S) (hc : ∀ e, op = .create e → e.terms.Sorted) (hs : step op m = some m') {o : Nat}
    (ho : o ∉ op.touches m) {i : Nat} {k : List G} {c : S} (hi : m.locate i = some (o, k, c)) :
    m'.deref (.node i) = m.deref (.node i) ∧ m'.incr (.node i) = m.incr (.node i) ∧ m'.decr (.node i) = m.decr (.node i) ∧
      m'.decr (.fin o) = m.decr (.fin o) := by
  have h := hm.wf
  have h' := step_wf op h hc hs
  have e := step_other op hs o ho
  obtain ⟨t, ht, hk⟩ := (locate_iff h).1 hi
  have hi' : m'.locate i = some (o, k, c) := (locate_iff h').2 ⟨t, by rw [e, ht], hk⟩
  simp only [deref, incr, decr, hi, hi', e, and_self]

/-- **C100** What is undefined: using a variable that does not exist, moving an expression to itself, `e += e` and `e -= e` if a
coefficient of the result is zero (finding F10). -/
theorem C100_defined (hm : Reach m) (op : Op G S) :
    step op m = none ↔
      match op with
      | .create _ => False
      | .copy w | .move w => m.value w = none
      | .destroy v | .clear v | .addScalar v _ | .subScalar v _ | .mulScalar v _ => m.value v = none
      | .copyAssign v w | .mulAssign v w => m.value v = none ∨ m.value w = none
      | .moveAssign v w => m.value v = none ∨ m.value w = none ∨ v = w
      | .addAssign v w => m.value v = none ∨ m.value w = none ∨ (v = w ∧ ∃ a, m.value v = some a ∧ ∃ p ∈ a.terms, p.2 + p.2 = 0)
      | .subAssign v w => m.value v = none ∨ m.value w = none ∨ (v = w ∧ ∃ a, m.value v = some a ∧ a.terms ≠ []) := by
  have h := hm.wf
  have hval : ∀ o, m.value o = none ↔ m.objs o = none := fun o => by simp [value]
  have hupd : ∀ (u : S → S → S) (nw : S → S) (v w : Nat) (tv tw : NTerms G S), m.objs v = some tv → m.objs w = some tw →
      (updLoop u nw v w tw.length tw.firstKey m = none ↔ v = w ∧ ∃ p ∈ tv.values, u p.2 p.2 = 0) := by
    intro u nw v w tv tw hv hw
    by_cases e : v = w
    · subst e
      rw [hv] at hw; cases hw
      have := updLoop_self (u := u) (nw := nw) [] tv (h.sorted _ _ hv) tv.length (le_refl _) m hv
      rw [this]
      constructor
      · intro hh
        split at hh
        · cases hh
        · next hn =>
          push Not at hn
          obtain ⟨p, hp, h0⟩ := hn
          exact ⟨rfl, (p.1, p.2.1), List.mem_map.2 ⟨p, hp, rfl⟩, h0⟩
      · rintro ⟨_, p, hp, h0⟩
        obtain ⟨q, hq, rfl⟩ := List.mem_map.1 hp
        rw [if_neg fun hh => hh q hq h0]
    · rw [updLoop_ne e (h.sorted _ _ hw) [] tw rfl tw.length (le_refl _) tv m hv hw]
      simp [e]
  cases op with
  | create e => simp [step]
  | copy w | move w | destroy w | clear w | addScalar w _ | subScalar w _ | mulScalar w _ => simp [step, hval]
  | copyAssign v w =>
    simp only [step, hval]
    cases hv : m.objs v <;> cases hw : m.objs w <;> simp
  | mulAssign v w =>
    simp only [step, hval]
    cases hv : m.objs v <;> cases hw : m.objs w <;> simp
  | moveAssign v w =>
    simp only [step, hval]
    cases hv : m.objs v <;> cases hw : m.objs w <;> simp
  | addAssign v w =>
    simp only [step, hval]
    cases hv : m.objs v with
    | none => simp
    | some tv =>
      cases hw : m.objs w with
      | none => simp
      | some tw =>
        simp only [hupd _ _ v w tv tw hv hw, value_of hv, Option.some.injEq, reduceCtorEq, false_or, exists_eq_left']
  | subAssign v w =>
    simp only [step, hval]
    cases hv : m.objs v with
    | none => simp
    | some tv =>
      cases hw : m.objs w with
      | none => simp
      | some tw =>
        simp only [hupd _ _ v w tv tw hv hw, value_of hv, Option.some.injEq, reduceCtorEq, false_or, exists_eq_left', sub_self, and_true]
        constructor
        · rintro ⟨e, p, hp⟩
          exact ⟨e, List.ne_nil_of_mem hp⟩
        · rintro ⟨e, hne⟩
          exact ⟨e, List.exists_mem_of_ne_nil _ hne⟩

end ExprMem

/-! ### An example -/

section example_
open ExprMem

/-- `e0 = 2 + 3 c†_1 c_2; e1 = 3 c†_1 c_2; it0, it1 = iterators to the two monomials of e0; e1 += 1; e0 += e1 …`. -/
def iterProgram : List (Op (Gen Nat) ℚ) :=
  [.create ⟨[([], 2), ([.fermion true 1, .fermion false 2], 3)]⟩, .create ⟨[([.fermion true 1, .fermion false 2], 3)]⟩, .addScalar 1 1,
    .addAssign 0 1]

set_option synthInstance.maxSize 2048 in
set_option synthInstance.maxHeartbeats 400000 in
/-- The hypotheses of the theorems are met; after `e0 += e1` both iterators are valid and show the new coefficients; after `e0 -= 3` the
first one is not; after moving `e0` the second one belongs to the new variable. -/
example :
    (∃ m, run iterProgram empty = some m ∧ Reach m) ∧
    ((run iterProgram empty).map fun m => (m.deref (.node 0), m.deref (.node 1), m.locate 1)) =
      some (some ([], 3), some ([.fermion true 1, .fermion false 2], 6), some (0, [.fermion true 1, .fermion false 2], 6)) ∧
    ((run (iterProgram ++ [.subScalar 0 3, .move 0]) empty).map fun m => (m.deref (.node 0), m.locate 1)) =
      some (none, some (2, [.fermion true 1, .fermion false 2], 6)) ∧
    ((run (iterProgram ++ [.subAssign 0 0]) empty).isNone = true) := by
  refine ⟨?_, by decide +kernel, by decide +kernel, by decide +kernel⟩
  have h4 : ∀ ops : List (Op (Gen Nat) ℚ), ∀ m m' : ExprMem (Gen Nat) ℚ, Reach m → (∀ op ∈ ops, ∀ e, op = .create e → e.terms.Sorted) →
      run ops m = some m' → Reach m' := by
    intro ops
    induction ops with
    | nil => intro m m' hm _ h; simp only [run, Option.some.injEq] at h; exact h ▸ hm
    | cons op ops ih =>
      intro m m' hm hc h
      simp only [run, Option.bind_eq_some_iff] at h
      obtain ⟨m1, h1, h2⟩ := h
      exact ih m1 m' (.step op hm (hc op (by simp)) h1) (fun o ho => hc o (by simp [ho])) h2
  have hsome : (run iterProgram empty).isSome = true := by decide +kernel
  obtain ⟨m, hm⟩ := Option.isSome_iff_exists.1 hsome
  refine ⟨m, hm, h4 _ _ _ .empty ?_ hm⟩
  intro op hop e he
  subst he
  simp only [iterProgram, List.mem_cons, Op.create.injEq, reduceCtorEq, List.not_mem_nil, or_false, false_or] at hop
  rcases hop with rfl | rfl
  · simp only [Terms.Sorted]; decide +kernel
  · simp only [Terms.Sorted]; decide +kernel

end example_
end LC
