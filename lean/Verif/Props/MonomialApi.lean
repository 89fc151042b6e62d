import Verif.Proof.MonomialApi
/-!
C87: monomials are values, iterators walk through them, and `append`/`concatenate`/`swap_generators` do what lists do.
-/
namespace LC.MonApi
set_option linter.unusedVariables false

/-- No monomial exists. -/
def noVals : Vals := fun _ => none

/-- C87, values. After any history of constructions, copies, moves, assignments, destructions, `append`s (also of a monomial to itself),
`swap_generators` and `concatenate` calls that meet the preconditions, every monomial is the list of generators it should be, and
nothing undefined and no exception has happened; for every growth policy of `std::vector`. Missing from the full property: ranges of a
monomial appended to this monomial itself (F36). -/
theorem C87_values_partial (grow : Growth) (hg : grow.Suffices) (calls : List Call) (s : Vals) (h : effects noVals calls = some s) :
    ∃ m, run grow Mem.init calls = .ok m ∧ ∀ o, m.gens o = s o := by
  obtain ⟨m, h1, -, h2⟩ := run_spec hg calls Mem.init s wf_init h
  exact ⟨m, h1, fun o => by rw [h2]⟩

/-- The memory after a history of allowed calls, with the values `s`. -/
theorem after_wf {grow : Growth} (hg : grow.Suffices) {calls : List Call} {s : Vals} (h : effects noVals calls = some s) {m : Mem}
    (hr : run grow Mem.init calls = .ok m) : WF m ∧ m.gens = s := by
  obtain ⟨m', h1, wf, h2⟩ := run_spec hg calls Mem.init s wf_init h
  rw [hr] at h1; cases h1
  exact ⟨wf, h2⟩

/-- C87, observers. After any such history: `size()`, `empty()`, `operator[]`, the loop over a monomial and the loop over its reverse
iterators give what they should. -/
theorem C87_observers (grow : Growth) (hg : grow.Suffices) (calls : List Call) (s : Vals) (h : effects noVals calls = some s) (m : Mem)
    (hr : run grow Mem.init calls = .ok m) (o : Nat) (l : List GenObj) (ho : s o = some l) :
    m.size o = .ok l.length ∧ m.empty o = .ok (decide (l = [])) ∧ (∀ (n : Nat) (hn : n < l.length), m.at_ o n = .ok l[n]) ∧
      m.forward o = .ok l ∧ m.backward o = .ok l.reverse := by
  obtain ⟨wf, e⟩ := after_wf hg h hr
  rw [← e] at ho
  obtain ⟨v, hv, hl⟩ := gens_some ho
  refine ⟨by simp [Mem.size, ho], ?_, ?_, ?_, ?_⟩
  · simp only [Mem.empty, ho]
    cases l <;> simp
  · intro n hn
    simp [Mem.at_, ho, List.getElem?_eq_getElem hn]
  · simp only [Mem.forward, Mem.begin_, Mem.end_, Mem.size, hv, hl, ho, Out.bind_ok]
    have := walk_spec hl l.length 0 (l.length + 1) (by omega) (by omega)
    simpa using this
  · simp only [Mem.backward, Mem.begin_, Mem.end_, Mem.size, hv, hl, ho, Out.bind_ok]
    have := rwalk_spec hl l.length (l.length + 1) (by omega) (by omega)
    simpa using this

/-- C87, iterators. The iterators of a monomial are in correspondence with the positions `0 .. size()`: `begin()` is the first, `end()` the
last, dereferencing gives the generator at the position, all arithmetic with signed offsets (which the functions take as unsigned
numbers), differences and comparisons are those of positions, for vectors shorter than 2^63. -/
theorem C87_iterators (grow : Growth) (hg : grow.Suffices) (calls : List Call) (s : Vals) (h : effects noVals calls = some s) (m : Mem)
    (hr : run grow Mem.init calls = .ok m) (o : Nat) (l : List GenObj) (ho : s o = some l) :
    ∃ it : Nat → Iter, m.begin_ o = .ok (it 0) ∧ m.end_ o = .ok (it l.length) ∧
      (∀ (p : Nat) (hp : p < l.length), m.deref (it p) = .ok l[p] ∧ m.incr (it p) = .ok (it (p + 1)) ∧
        m.postIncr (it p) = .ok (it p, it (p + 1)) ∧ m.decr (it (p + 1)) = .ok (it p) ∧
        m.postDecr (it (p + 1)) = .ok (it (p + 1), it p)) ∧
      (∀ p q : Nat, p ≤ l.length → q ≤ l.length →
        m.diff (it p) (it q) = .ok ((p : Int) - q) ∧ m.itEq (it p) (it q) = .ok (decide (p = q)) ∧
        m.itLt (it p) (it q) = .ok (decide (p < q)) ∧ m.itGt (it p) (it q) = .ok (decide (p > q)) ∧
        m.itLe (it p) (it q) = .ok (decide (p ≤ q)) ∧ m.itGe (it p) (it q) = .ok (decide (p ≥ q))) ∧
      (∀ (p q : Nat) (d : Int), p ≤ l.length → q ≤ l.length → (q : Int) = p + d → -2 ^ 63 ≤ d → d < 2 ^ 63 →
        m.plus (it p) (ofDiff d) = .ok (it q) ∧ m.minus (it q) (ofDiff d) = .ok (it p) ∧
        ∀ hq : q < l.length, m.index (it p) (ofDiff d) = .ok l[q]) := by
  obtain ⟨wf, e⟩ := after_wf hg h hr
  rw [← e] at ho
  obtain ⟨v, hv, hl⟩ := gens_some ho
  refine ⟨fun p => ⟨v.buf, p⟩, by simp [Mem.begin_, hv], by simp [Mem.end_, hv, hl], ?_, ?_, ?_⟩
  · intro p hp
    have h1 : m.incr ⟨v.buf, p⟩ = .ok ⟨v.buf, (p + 1 : Nat)⟩ := moveIt_ok hl (by omega) (by omega)
    have h2 : m.decr ⟨v.buf, (p + 1 : Nat)⟩ = .ok ⟨v.buf, p⟩ := by
      rw [Mem.decr, moveIt_ok hl (by omega) (by omega)]
      congr 2; omega
    refine ⟨deref_ok hl hp, h1, ?_, h2, ?_⟩
    · simp only [Mem.postIncr]; rw [h1, Out.bind_ok]
    · simp only [Mem.postDecr]; rw [h2, Out.bind_ok]
  · intro p q hp hq
    have hvp : m.valid ⟨v.buf, p⟩ = true := (valid_iff hl).2 (by omega)
    have hvq : m.valid ⟨v.buf, q⟩ = true := (valid_iff hl).2 (by omega)
    refine ⟨?_, ?_, ?_, ?_, ?_, ?_⟩ <;>
      simp only [Mem.diff, Mem.itEq, Mem.itLt, Mem.itGt, Mem.itLe, Mem.itGe, hvp, hvq, and_self, if_true] <;> (simp; try omega)
  · intro p q d hp hq hd h1 h2
    refine ⟨?_, ?_, ?_⟩
    · rw [Mem.plus, toDiff_ofDiff d h1 h2, moveIt_ok hl (by omega) (by omega)]
      simp only [hd]
    · rw [Mem.minus, toDiff_ofDiff d h1 h2, moveIt_ok hl (by omega) (by omega)]
      congr 2; omega
    · intro hq
      rw [Mem.index, toDiff_ofDiff d h1 h2]
      simp only
      rw [← hd, deref_ok hl hq]

/-- C87, stability. Calls that do not modify, move or destroy a monomial leave its iterators valid and pointing to the same generators;
in particular the arguments of `concatenate` and `append` keep theirs. -/
theorem C87_iterators_stay_valid (grow : Growth) (hg : grow.Suffices) (calls more : List Call) (s s' : Vals)
    (h : effects noVals calls = some s) (h' : effects s more = some s') (m m' : Mem) (hr : run grow Mem.init calls = .ok m)
    (hr' : run grow m more = .ok m') (o : Nat) (l : List GenObj) (ho : s o = some l) (ht : ∀ c ∈ more, ¬ c.touches o) (i : Iter)
    (b : Iter) (hb : m.begin_ o = .ok b) (hi : i.buf = b.buf) :
    m'.begin_ o = .ok b ∧ m'.end_ o = m.end_ o ∧ m'.valid i = m.valid i ∧ m'.deref i = m.deref i := by
  obtain ⟨wf, e⟩ := after_wf hg h hr
  rw [← e] at ho h'
  obtain ⟨v, hv, hl⟩ := gens_some ho
  obtain ⟨h1, h2⟩ := run_stable hg o v more m m' s' wf h' hr' ht hv
  simp only [Mem.begin_, hv, Out.ok.injEq] at hb
  subst hb
  simp only at hi
  refine ⟨by simp [Mem.begin_, h1], by simp [Mem.end_, h1, hv, h2], ?_, ?_⟩
  · simp [Mem.valid, hi, h2]
  · simp [Mem.deref, hi, h2]

theorem swap_get (n1 n2 : Nat) (l : List GenObj) (h1 : n1 < l.length) (h2 : n2 < l.length) (k : Nat) :
    ((l.set n1 l[n2]).set n2 l[n1])[k]? = l[if k = n1 then n2 else if k = n2 then n1 else k]? := by
  rw [List.getElem?_set, List.getElem?_set]
  by_cases e1 : k = n1 <;> by_cases e2 : k = n2
  · subst e1; subst e2; simp [h1]
  · subst e1; simp [Ne.symm e2, h1, h2]
  · subst e2; simp [e1, h1, h2]
  · simp [e1, e2, Ne.symm e1, Ne.symm e2]

theorem swap_perm (n1 n2 : Nat) (l : List GenObj) (h1 : n1 < l.length) (h2 : n2 < l.length) :
    ((l.set n1 l[n2]).set n2 l[n1]).Perm l := by
  rw [List.perm_iff_count]
  intro a
  have hc := fun (l : List GenObj) (n : Nat) (hn : n < l.length) (b : GenObj) => List.count_set (a := b) (b := a) (l := l) (i := n) hn
  rw [hc _ n2 (by simpa using h2), hc l n1 h1]
  have key : (l.set n1 l[n2])[n2]'(by simpa using h2) = l[n2] := by
    rw [List.getElem_set]; split <;> rfl
  rw [key]
  have b1 : (if l[n1] == a then 1 else 0) ≤ l.count a := by
    split
    · rename_i e
      have e : l[n1] = a := by simpa using e
      exact List.one_le_count_iff.2 (e ▸ List.getElem_mem h1)
    · omega
  have b2 : (if l[n2] == a then 1 else 0) ≤ l.count a - (if l[n1] == a then 1 else 0) + (if l[n2] == a then 1 else 0) := by
    split <;> omega
  omega

/-- C87, `swap_generators`: the generators at the two positions are exchanged, the others stay, no iterator becomes invalid; doing it
twice restores the monomial. -/
theorem C87_swap (grow : Growth) (hg : grow.Suffices) (calls : List Call) (s : Vals) (h : effects noVals calls = some s) (m : Mem)
    (hr : run grow Mem.init calls = .ok m) (o n1 n2 : Nat) (l : List GenObj) (ho : s o = some l) (h1 : n1 < l.length)
    (h2 : n2 < l.length) :
    ∃ m' m'' l', m.swapGens o n1 n2 = .ok m' ∧ m'.swapGens o n1 n2 = .ok m'' ∧ m'.gens o = some l' ∧ l'.Perm l ∧
      (∀ k, l'[k]? = l[if k = n1 then n2 else if k = n2 then n1 else k]?) ∧ m'.begin_ o = m.begin_ o ∧ m'.end_ o = m.end_ o ∧
      m''.gens = m.gens := by
  obtain ⟨wf, e⟩ := after_wf hg h hr
  rw [← e] at ho
  obtain ⟨m', hm', hch, hob⟩ := swap_spec wf ho h1 h2
  obtain ⟨m'', hm'', hch', hob'⟩ := swap_spec hch.wf hch.gens (n1 := n1) (n2 := n2) (by simpa using h1) (by simpa using h2)
  obtain ⟨v, hv, hl⟩ := gens_some ho
  have hl' : m'.heap v.buf = some ((l.set n1 l[n2]).set n2 l[n1]) := by
    have := hch.gens
    simpa [Mem.gens, hob, hv] using this
  refine ⟨m', m'', _, hm', hm'', hch.gens, swap_perm n1 n2 l h1 h2, swap_get n1 n2 l h1 h2, by simp [Mem.begin_, hob],
    by simp [Mem.end_, hob, hv, hl, hl'], ?_⟩
  rw [hch'.vals hch.wf, hch.vals wf, Function.update_idem, ← Function.update_eq_self o m.gens, ho]
  rw [Function.update_idem]
  congr 2
  apply List.ext_getElem?
  intro k
  rw [swap_get n1 n2 _ (by simpa using h1) (by simpa using h2) k, swap_get n1 n2 l h1 h2]
  congr 1
  split_ifs <;> omega

/-- C87, ownership. The constructor from generators makes objects owned by `shared_ptr`s, in the order of the arguments; `append` of a
generator that no `shared_ptr` owns throws. -/
theorem C87_ownership (fresh : Nat) (gs : List GenObj) (grow : Growth) (m : Mem) (o : Nat) (g : GenObj) (hg : g.shared = false) :
    (madeShared fresh gs).length = gs.length ∧ (∀ x ∈ madeShared fresh gs, x.shared = true) ∧
      (∀ k, (madeShared fresh gs)[k]? = if k < gs.length then some ⟨fresh + k, true⟩ else none) ∧
      m.appendGen grow o g = .badWeakPtr := by
  refine ⟨?_, ?_, ?_, by simp [Mem.appendGen, GenObj.sharedFromThis, hg, Out.bind]⟩
  · induction gs generalizing fresh with
    | nil => rfl
    | cons a gs ih => simp [madeShared, ih]
  · induction gs generalizing fresh with
    | nil => simp [madeShared]
    | cons a gs ih =>
      intro x hx
      rcases List.mem_cons.1 hx with rfl | hx
      · rfl
      · exact ih _ x hx
  · induction gs generalizing fresh with
    | nil => simp [madeShared]
    | cons a gs ih =>
      intro k
      cases k with
      | zero => simp [madeShared]
      | succ k =>
        simp only [madeShared, List.getElem?_cons_succ, ih, List.length_cons, Nat.add_lt_add_iff_right]
        split
        · congr 2; omega
        · rfl

/-- The loop of `append(range)` over the monomial's own range when no reallocation is needed. -/
theorem own_loop_ok {grow : Growth} (hg : grow.Suffices) (o j : Nat) (v : Vec) : ∀ (n p : Nat) (m : Mem) (l : List GenObj),
    WF m → m.objs o = some v → m.heap v.buf = some l → p + n = j → j ≤ l.length → l.length + n ≤ v.cap →
    ∃ m', Mem.rangeLoop grow o ⟨v.buf, j⟩ n ⟨v.buf, p⟩ m = .ok m' ∧ Changed m m' o (l ++ (l.drop p).take n)
  | 0, p, m, l, wf, hv, hl, hp, hj, hc => ⟨m, rfl, by simpa using Changed.refl wf (gens_of hv hl)⟩
  | n + 1, p, m, l, wf, hv, hl, hp, hj, hc => by
    obtain ⟨l', hl', -, hs⟩ := wf.live o v hv
    rw [hl] at hl'; cases hl'
    have hps : p < l.length := by omega
    obtain ⟨m1, h1, hch, hvv⟩ := emplace_spec hg wf (gens_of hv hl) (g := l[p]) (hs _ (List.getElem_mem hps))
    have hv1 : m1.objs o = some v := hvv v hv (by omega)
    have hl1 : m1.heap v.buf = some (l ++ [l[p]]) := by have := hch.gens; simpa [Mem.gens, hv1] using this
    have hlen : (l ++ [l[p]]).length = l.length + 1 := by simp
    obtain ⟨m2, h2, hch2⟩ := own_loop_ok hg o j v n (p + 1) m1 _ hch.wf hv1 hl1 (by omega) (by omega) (by omega)
    refine ⟨m2, ?_, ?_⟩
    · unfold Mem.rangeLoop
      rw [deref_ok hl hps, Out.bind_ok, shared_ok (hs _ (List.getElem_mem hps)), Out.bind_ok, h1, Out.bind_ok, Mem.incr,
        moveIt_ok hl1 (by omega) (by omega), Out.bind_ok, itEq_ok hl1 (by omega) (by omega), Out.bind_ok]
      exact_mod_cast h2
    · have := hch.trans hch2
      rw [List.drop_append_of_le_length (by omega), List.take_append_of_le_length (by simp; omega)] at this
      rw [drop_take_succ hps]
      simpa using this

/-- The same loop when the capacity does not suffice: the iterators become invalid on the way. -/
theorem own_loop_ub {grow : Growth} (hg : grow.Suffices) (o j : Nat) (v : Vec) : ∀ (n p : Nat) (m : Mem) (l : List GenObj),
    WF m → m.objs o = some v → m.heap v.buf = some l → p + n = j → j ≤ l.length → 0 < n → v.cap < l.length + n →
    Mem.rangeLoop grow o ⟨v.buf, j⟩ n ⟨v.buf, p⟩ m = .ub
  | n + 1, p, m, l, wf, hv, hl, hp, hj, h0, hc => by
    obtain ⟨l', hl', -, hs⟩ := wf.live o v hv
    rw [hl] at hl'; cases hl'
    have hps : p < l.length := by omega
    unfold Mem.rangeLoop
    rw [deref_ok hl hps, Out.bind_ok, shared_ok (hs _ (List.getElem_mem hps)), Out.bind_ok]
    by_cases hlt : l.length < v.cap
    · obtain ⟨m1, h1, hch, hvv⟩ := emplace_spec hg wf (gens_of hv hl) (g := l[p]) (hs _ (List.getElem_mem hps))
      have hv1 : m1.objs o = some v := hvv v hv hlt
      have hl1 : m1.heap v.buf = some (l ++ [l[p]]) := by have := hch.gens; simpa [Mem.gens, hv1] using this
      have hlen : (l ++ [l[p]]).length = l.length + 1 := by simp
      rw [h1, Out.bind_ok, Mem.incr, moveIt_ok hl1 (by omega) (by omega), Out.bind_ok, itEq_ok hl1 (by omega) (by omega),
        Out.bind_ok]
      have := own_loop_ub hg o j v n (p + 1) m1 _ hch.wf hv1 hl1 (by omega) (by omega) (by omega) (by omega)
      exact_mod_cast this
    · have hb : v.buf ≠ m.next := by have := wf.buf_lt hv; omega
      simp only [Mem.emplaceBack, hv, hl, if_neg hlt, Out.bind_ok]
      rw [Mem.incr, Mem.moveIt, if_neg]
      · rfl
      · simp [Mem.valid, Mem.realloc, Function.update_of_ne hb]

/-- C87, own ranges (F36). Appending a nonempty range of a monomial to this monomial itself works exactly if its vector happens to have
enough spare capacity, which the interface does not show; otherwise the behaviour is undefined. -/
theorem C87_own_range (grow : Growth) (hg : grow.Suffices) (calls : List Call) (s : Vals) (h : effects noVals calls = some s) (m : Mem)
    (hr : run grow Mem.init calls = .ok m) (o : Nat) (l : List GenObj) (ho : s o = some l) (v : Vec) (hv : m.objs o = some v)
    (i j : Nat) (hij : i < j) (hj : j ≤ l.length) (h63 : j < 2 ^ 63) :
    (l.length + (j - i) ≤ v.cap → ∃ m', (Call.appendRange o o i j).run grow m = .ok m' ∧ m'.gens o = some (l ++ (l.take j).drop i)) ∧
      (v.cap < l.length + (j - i) → (Call.appendRange o o i j).run grow m = .ub) := by
  obtain ⟨wf, e⟩ := after_wf hg h hr
  rw [← e] at ho
  obtain ⟨v', hv', hl⟩ := gens_some ho
  rw [hv] at hv'; cases hv'
  have e1 := begin_plus hv hl (i := i) (by omega) (by omega)
  have e2 := begin_plus hv hl (i := j) (by omega) (by omega)
  have hd : ((j : Int) - i).toNat = j - i := by omega
  have hrun : (Call.appendRange o o i j).run grow m = Mem.rangeLoop grow o ⟨v.buf, j⟩ (j - i) ⟨v.buf, i⟩ m := by
    simp only [Call.run]
    simp only [Mem.begin_, hv, Out.bind_ok] at e1 e2 ⊢
    rw [e1, Out.bind_ok, e2, Out.bind_ok, Mem.appendRange, diff_ok hl (by omega) (by omega), Out.bind_ok, if_pos (by omega), hd]
  rw [hrun]
  constructor
  · intro hc
    obtain ⟨m', h1, h2⟩ := own_loop_ok hg o j v (j - i) i m l wf hv hl (by omega) hj hc
    exact ⟨m', h1, by rw [List.drop_take]; exact h2.gens⟩
  · intro hc
    exact own_loop_ub hg o j v (j - i) i m l wf hv hl (by omega) hj (by omega) hc

/-- C87, F36: with a policy that allocates what is needed for a new vector, `m.append({m.begin(), m.end()})` of a new monomial of one
generator is undefined. -/
theorem C87_F36_own_range (grow : Growth) (hg : grow.Suffices) (hone : grow 0 1 = 1) :
    run grow Mem.init [.create 0 [⟨7, true⟩], .appendRange 0 0 0 1] = .ub := by
  have h : effects noVals [.create 0 [⟨7, true⟩]] = some (Function.update noVals 0 (some [⟨7, true⟩])) := by
    simp [effects, Call.effect, noVals]
  obtain ⟨m, hr, -⟩ := C87_values_partial grow hg _ _ h
  have hv : m.objs 0 = some ⟨0, 1⟩ := by
    simp only [run, Call.run, Mem.create, Mem.init, Out.bind_ok, Out.ok.injEq] at hr
    subst hr
    simp [hone]
  have hu := (C87_own_range grow hg _ _ h m hr 0 _ (by simp; rfl) _ hv 0 1 (by omega) (by simp) (by omega)).2 (by simp)
  simp only [run, Out.bind] at hr ⊢
  cases hc : (Call.create 0 [⟨7, true⟩]).run grow Mem.init with
  | ok m' =>
    rw [hc] at hr
    simp only [Out.ok.injEq] at hr
    subst hr
    simp only [hu]
  | badWeakPtr => rw [hc] at hr; cases hr
  | ub => rw [hc] at hr

/-- Doubling, as in many implementations. -/
def doubling : Growth := fun c n => max (2 * c) n

theorem doubling_suffices : doubling.Suffices := fun _ _ => Nat.le_max_right _ _

/-- Generators for the examples. -/
def G (n : Nat) : GenObj := ⟨n, true⟩

/-- A history with all kinds of calls. -/
def sampleCalls : List Call :=
  [.create 0 [G 1, G 2, G 3], .create 1 (madeShared 10 [⟨0, false⟩, ⟨1, false⟩]), .appendMono 0 0, .copy 2 0, .appendRange 1 0 1 3,
   .swap 0 0 2, .concat 3 [.gen (G 7), .mono 1, .range 2 4 6, .mono 0], .move 4 1, .assign 1 3, .moveAssign 2 4, .appendGen 4 (G 5),
   .destroy 0]

/-- The hypotheses of the theorems above are met by it. -/
example : ∃ s, effects noVals sampleCalls = some s ∧ s 3 = some [G 7, G 10, G 11, G 2, G 3, G 2, G 3, G 3, G 2, G 1, G 1, G 2, G 3] ∧
    s 4 = some [G 5] ∧ s 2 = some [G 10, G 11, G 2, G 3] ∧ s 1 = s 3 ∧ s 0 = none := by
  refine ⟨_, rfl, ?_⟩
  decide +kernel

/-- And the hypotheses of the stability theorem: the iterators of monomial 0 survive four calls that use it. -/
example : (∃ s s', effects noVals [.create 0 [G 1, G 2]] = some s ∧
    effects s [.copy 1 0, .appendMono 1 0, .concat 2 [.mono 0, .range 0 0 1], .appendRange 2 0 0 2] = some s') ∧
    ∀ c ∈ [Call.copy 1 0, .appendMono 1 0, .concat 2 [.mono 0, .range 0 0 1], .appendRange 2 0 0 2], ¬ c.touches 0 := by
  refine ⟨⟨_, _, rfl, rfl⟩, ?_⟩
  simp [Call.touches]

/-- Own ranges that fit: with the doubling policy, the third generator leaves room for one more. -/
example : (match run doubling Mem.init [.create 0 [G 1, G 2], .appendGen 0 (G 3), .appendRange 0 0 1 2] with
    | .ok m => m.gens 0
    | _ => none) = some [G 1, G 2, G 3, G 2] := by decide +kernel

end LC.MonApi
