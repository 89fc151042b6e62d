import Verif.Spec.Faults
import Verif.Proof.MixedLemmas
/-
Programs with exceptions: loops of atomic steps, and the in-place operations of expressions.
-/
set_option linter.unusedSectionVars false
set_option linter.unusedSimpArgs false
namespace LC
namespace Flt
variable {σ τ α β : Type _}

/-- All or nothing; and something is thrown only if the oracle says so. -/
structure Atomic (p : Flt σ Unit) (f : σ → σ) : Prop where
  out : ∀ o n s, (∃ n', p o n s = (some (), n', f s)) ∨ (∃ n', p o n s = (none, n', s))
  quiet : ∀ o n s, (∀ k, o k = false) → ∃ n', p o n s = (some (), n', f s)

theorem point_out (o : Nat → Bool) (n : Nat) (s : σ) :
    point o n s = (some (), n + 1, s) ∨ (point o n s = (none, n + 1, s) ∧ o n = true) := by
  unfold point
  cases h : o n <;> simp

theorem bind_some {p : Flt σ α} {f : α → Flt σ β} {o : Nat → Bool} {n n' : Nat} {s s' : σ} {a : α}
    (h : p o n s = (some a, n', s')) : (p >>= f) o n s = f a o n' s' := by
  show (match p o n s with
    | (none, n', s') => (none, n', s')
    | (some a, n', s') => f a o n' s') = _
  rw [h]

theorem bind_none {p : Flt σ α} {f : α → Flt σ β} {o : Nat → Bool} {n n' : Nat} {s s' : σ}
    (h : p o n s = (none, n', s')) : (p >>= f) o n s = (none, n', s') := by
  show (match p o n s with
    | (none, n', s') => (none, n', s')
    | (some a, n', s') => f a o n' s') = _
  rw [h]

theorem modify_bind (f : σ → σ) (p : Unit → Flt σ β) (o : Nat → Bool) (n : Nat) (s : σ) :
    (modify f >>= p) o n s = p () o n (f s) := rfl

theorem read_bind (p : σ → Flt σ β) (o : Nat → Bool) (n : Nat) (s : σ) : (read >>= p) o n s = p s o n s := rfl

theorem withLocal_none {p : Flt τ Unit} {init x : τ} {o : Nat → Bool} {n n' : Nat} {s : σ} (h : p o n init = (none, n', x)) :
    (withLocal init p : Flt σ τ) o n s = (none, n', s) := by
  simp only [withLocal, h]

theorem withLocal_some {p : Flt τ Unit} {init x : τ} {o : Nat → Bool} {n n' : Nat} {s : σ} {u : Unit}
    (h : p o n init = (some u, n', x)) : (withLocal init p : Flt σ τ) o n s = (some x, n', s) := by
  simp only [withLocal, h]

theorem pure_apply (a : α) (o : Nat → Bool) (n : Nat) (s : σ) : (pure a : Flt σ α) o n s = (some a, n, s) := rfl

theorem modify_apply (f : σ → σ) (o : Nat → Bool) (n : Nat) (s : σ) : modify f o n s = (some (), n, f s) := rfl

theorem atomic_pure : Atomic (pure () : Flt σ Unit) id :=
  ⟨fun _ n _ => Or.inl ⟨n, rfl⟩, fun _ n _ _ => ⟨n, rfl⟩⟩

theorem atomic_modify (f : σ → σ) : Atomic (modify f) f :=
  ⟨fun _ n _ => Or.inl ⟨n, rfl⟩, fun _ n _ _ => ⟨n, rfl⟩⟩

/-- Operations that may throw before an atomic program. -/
theorem atomic_point {p : Unit → Flt σ Unit} {f : σ → σ} (h : Atomic (p ()) f) : Atomic (point >>= p) f := by
  constructor
  · intro o n s
    rcases point_out o n s with e | ⟨e, _⟩
    · rw [bind_some e]; exact h.out o _ s
    · exact Or.inr ⟨_, bind_none e⟩
  · intro o n s hq
    rcases point_out o n s with e | ⟨_, e'⟩
    · rw [bind_some e]; exact h.quiet o _ s hq
    · rw [hq] at e'; cases e'

/-- A program whose continuation depends on the current value of the object. -/
theorem atomic_read {p : σ → Flt σ Unit} {f : σ → σ} (h : ∀ s, ∃ g, Atomic (p s) g ∧ g s = f s) : Atomic (read >>= p) f := by
  constructor
  · intro o n s
    rw [read_bind]
    obtain ⟨g, hg, e⟩ := h s
    rw [← e]; exact hg.out o n s
  · intro o n s hq
    rw [read_bind]
    obtain ⟨g, hg, e⟩ := h s
    rw [← e]; exact hg.quiet o n s hq

/-- A modification followed by a modification. -/
theorem atomic_modify_if (f g : σ → σ) (b : Bool) :
    Atomic (do modify f; if b then modify g else pure ()) (fun s => if b then g (f s) else f s) := by
  constructor
  · intro o n s
    left
    refine ⟨n, ?_⟩
    cases b <;> rfl
  · intro o n s _
    refine ⟨n, ?_⟩
    cases b <;> rfl

/-- A loop of atomic steps: an exception leaves the effect of an initial segment of the list. -/
theorem each_out {body : α → Flt σ Unit} {f : α → σ → σ} (h : ∀ a, Atomic (body a) (f a)) (l : List α) :
    ∀ (o : Nat → Bool) (n : Nat) (s : σ),
      ((∃ n', each l body o n s = (some (), n', l.foldl (fun s a => f a s) s)) ∨
        (∃ n' k, k < l.length ∧ each l body o n s = (none, n', (l.take k).foldl (fun s a => f a s) s))) ∧
      ((∀ k, o k = false) → ∃ n', each l body o n s = (some (), n', l.foldl (fun s a => f a s) s)) := by
  induction l with
  | nil => intro o n s; exact ⟨Or.inl ⟨n, rfl⟩, fun _ => ⟨n, rfl⟩⟩
  | cons a l ih =>
    intro o n s
    constructor
    · rcases (h a).out o n s with ⟨n', e⟩ | ⟨n', e⟩
      · rcases (ih o n' (f a s)).1 with ⟨n'', e'⟩ | ⟨n'', k, hk, e'⟩
        · exact Or.inl ⟨n'', by rw [each, bind_some e, e']; rfl⟩
        · exact Or.inr ⟨n'', k + 1, by simpa using hk, by rw [each, bind_some e, e']; rfl⟩
      · exact Or.inr ⟨n', 0, by simp, by rw [each, bind_none e]; rfl⟩
    · intro hq
      obtain ⟨n', e⟩ := (h a).quiet o n s hq
      obtain ⟨n'', e'⟩ := (ih o n' (f a s)).2 hq
      exact ⟨n'', by rw [each, bind_some e, e']; rfl⟩

/-- A loop whose steps satisfy an arbitrary relation when they finish; used for local variables. -/
theorem each_ok {body : α → Flt σ Unit} {f : α → σ → σ}
    (h : ∀ a o n s n' s', body a o n s = (some (), n', s') → s' = f a s)
    (hq : ∀ a o n s, (∀ k, o k = false) → ∃ n' s', body a o n s = (some (), n', s')) (l : List α) :
    ∀ (o : Nat → Bool) (n : Nat) (s : σ),
      (∀ n' s', each l body o n s = (some (), n', s') → s' = l.foldl (fun s a => f a s) s) ∧
      ((∀ k, o k = false) → ∃ n' s', each l body o n s = (some (), n', s')) := by
  induction l with
  | nil =>
    intro o n s
    refine ⟨fun n' s' e => ?_, fun _ => ⟨n, s, rfl⟩⟩
    have e' : ((some (), n, s) : Option Unit × Nat × σ) = (some (), n', s') := e
    cases e'; rfl
  | cons a l ih =>
    intro o n s
    constructor
    · intro n' s' e
      cases hb : body a o n s with
      | mk r rest =>
        obtain ⟨n1, s1⟩ := rest
        cases r with
        | none =>
          have := bind_none (f := fun _ => each l body) hb
          rw [each] at e
          rw [this] at e; cases e
        | some u =>
          have := bind_some (f := fun _ => each l body) hb
          rw [each] at e
          rw [this] at e
          have h1 := h a o n s n1 s1 hb
          subst h1
          exact (ih o n1 _).1 _ _ e
    · intro hq'
      obtain ⟨n1, s1, e⟩ := hq a o n s hq'
      obtain ⟨n2, s2, e2⟩ := (ih o n1 s1).2 hq'
      exact ⟨n2, s2, by rw [each, bind_some e, e2]⟩

end Flt

namespace Terms
variable {G S : Type _} [GenOps G]

theorem erase_assign (k : List G) (v : S) (t : Terms G S) : (t.assign k v).erase k = t.erase k := by
  induction t with
  | nil => rfl
  | cons p t ih =>
    obtain ⟨k', v'⟩ := p
    by_cases h1 : monLt k' k = true
    · simp [assign, erase, h1, ih]
    · by_cases h2 : monLt k k' = true
      · simp [assign, erase, h1, h2]
      · simp [assign, erase, h1, h2]

end Terms

namespace Faults
open Flt Terms
variable {G S S' : Type _} [GenOps G] [ScalarOps S]

/-- One step of `+=`. -/
def addStep (o : AsgOps S S') (p : List G × S') (t : Terms G S) : Terms G S :=
  match t.find? p.1 with
  | none => t.emplace p.1 (o.conv p.2)
  | some v => if ScalarOps.isZero (o.addAsg v p.2) then t.erase p.1 else t.assign p.1 (o.addAsg v p.2)

/-- One step of `-=`. -/
def subStep (o : AsgOps S S') (p : List G × S') (t : Terms G S) : Terms G S :=
  match t.find? p.1 with
  | none => t.emplace p.1 (o.sub Any.zero p.2)
  | some v => if ScalarOps.isZero (o.subAsg v p.2) then t.erase p.1 else t.assign p.1 (o.subAsg v p.2)

theorem addAssign_body (o : AsgOps S S') (p : List G × S') :
    Atomic (do
      point
      let t ← read
      match t.find? p.1 with
      | none => do
          point
          modify (·.emplace p.1 (o.conv p.2))
      | some v => do
          point
          modify (·.assign p.1 (o.addAsg v p.2))
          if ScalarOps.isZero (o.addAsg v p.2) then modify (·.erase p.1) else pure ()) (addStep o p) := by
  refine atomic_point (atomic_read fun t => ?_)
  unfold addStep
  cases h : t.find? p.1 with
  | none => exact ⟨_, atomic_point (atomic_modify _), rfl⟩
  | some v =>
    refine ⟨_, atomic_point (atomic_modify_if _ _ _), ?_⟩
    simp only [erase_assign]

theorem subAssign_body (o : AsgOps S S') (p : List G × S') :
    Atomic (do
      point
      let t ← read
      match t.find? p.1 with
      | none => do
          point
          modify (·.emplace p.1 (o.sub Any.zero p.2))
      | some v => do
          point
          modify (·.assign p.1 (o.subAsg v p.2))
          if ScalarOps.isZero (o.subAsg v p.2) then modify (·.erase p.1) else pure ()) (subStep o p) := by
  refine atomic_point (atomic_read fun t => ?_)
  unfold subStep
  cases h : t.find? p.1 with
  | none => exact ⟨_, atomic_point (atomic_modify _), rfl⟩
  | some v =>
    refine ⟨_, atomic_point (atomic_modify_if _ _ _), ?_⟩
    simp only [erase_assign]

theorem addSteps_eq (o : AsgOps S S') (a : Expr G S) (l : Terms G S') :
    l.foldl (fun s p => addStep o p s) a.terms = (Mixed.addAssign o a ⟨l⟩).terms := rfl

theorem subSteps_eq (o : AsgOps S S') (a : Expr G S) (l : Terms G S') :
    l.foldl (fun s p => subStep o p s) a.terms = (Mixed.subAssign o a ⟨l⟩).terms := rfl

theorem addAssign_out (asg : AsgOps S S') (b : Expr G S') (o : Nat → Bool) (n : Nat) (a : Expr G S) :
    ((∃ n', addAssign asg b o n a.terms = (some (), n', (Mixed.addAssign asg a b).terms)) ∨
      (∃ n' k, k < b.terms.length ∧
        addAssign asg b o n a.terms = (none, n', (Mixed.addAssign asg a ⟨b.terms.take k⟩).terms))) ∧
    ((∀ k, o k = false) → ∃ n', addAssign asg b o n a.terms = (some (), n', (Mixed.addAssign asg a b).terms)) :=
  each_out (fun p => addAssign_body asg p) b.terms o n a.terms

theorem subAssign_out (asg : AsgOps S S') (b : Expr G S') (o : Nat → Bool) (n : Nat) (a : Expr G S) :
    ((∃ n', subAssign asg b o n a.terms = (some (), n', (Mixed.subAssign asg a b).terms)) ∨
      (∃ n' k, k ≤ b.terms.length ∧
        subAssign asg b o n a.terms = (none, n', (Mixed.subAssign asg a ⟨b.terms.take k⟩).terms))) ∧
    ((∀ k, o k = false) → ∃ n', subAssign asg b o n a.terms = (some (), n', (Mixed.subAssign asg a b).terms)) := by
  have key := fun n => each_out (fun p => subAssign_body asg p) b.terms o n a.terms
  constructor
  · rcases point_out o n a.terms with e | ⟨e, _⟩
    · rw [subAssign, bind_some e]
      rcases (key (n + 1)).1 with h | ⟨n', k, hk, h⟩
      · exact Or.inl h
      · exact Or.inr ⟨n', k, hk.le, h⟩
    · refine Or.inr ⟨n + 1, 0, by simp, ?_⟩
      rw [subAssign, bind_none e]; rfl
  · intro hq
    rcases point_out o n a.terms with e | ⟨_, e'⟩
    · rw [subAssign, bind_some e]; exact (key (n + 1)).2 hq
    · rw [hq] at e'; cases e'

theorem store_atomic (k : List G) (c : S) : Atomic (store k c) (Any.store k c) := by
  refine atomic_point (atomic_read fun t => ?_)
  unfold Any.store
  cases h : t.find? k with
  | none => exact ⟨_, atomic_modify _, rfl⟩
  | some v =>
    refine ⟨_, atomic_modify_if _ _ _, ?_⟩
    simp only [erase_assign]

/-- The store that does nothing after an exception. -/
def storeOr (o : Nat → Bool) (k : List G) (c : S) (r : Option Unit × Nat × Terms G S) : Option Unit × Nat × Terms G S :=
  match r with
  | (none, n, t) => (none, n, t)
  | (some _, n, t) => store k c o n t

theorem storeOr_foldl (o : Nat → Bool) (l : List (List G × S)) : ∀ r : Option Unit × Nat × Terms G S,
    (∀ n' t', l.foldl (fun r p => storeOr o p.1 p.2 r) r = (some (), n', t') →
      r.1 = some () ∧ t' = l.foldl (fun t p => Any.store p.1 p.2 t) r.2.2) ∧
    ((∀ k, o k = false) → r.1 = some () → ∃ n' t', l.foldl (fun r p => storeOr o p.1 p.2 r) r = (some (), n', t')) := by
  induction l with
  | nil =>
    intro r
    refine ⟨fun n' t' e => ?_, fun _ e => ⟨r.2.1, r.2.2, ?_⟩⟩
    · have e : r = (some (), n', t') := e
      rw [e]; exact ⟨rfl, rfl⟩
    · show r = _; rw [← e]
  | cons p l ih =>
    intro r
    obtain ⟨u, n, t⟩ := r
    constructor
    · intro n' t' e
      have e1 := (ih (storeOr o p.1 p.2 (u, n, t))).1 n' t' e
      cases u with
      | none => simp [storeOr] at e1
      | some u =>
        refine ⟨rfl, ?_⟩
        have e2 : storeOr o p.1 p.2 (some u, n, t) = store p.1 p.2 o n t := rfl
        rcases (store_atomic p.1 p.2).out o n t with ⟨n1, h⟩ | ⟨n1, h⟩
        · rw [e2, h] at e1
          exact e1.2
        · rw [e2, h] at e1; cases e1.1
    · intro hq hu
      cases u with
      | none => cases hu
      | some u =>
        obtain ⟨n1, h⟩ := (store_atomic p.1 p.2).quiet o n t hq
        refine (ih (storeOr o p.1 p.2 (some u, n, t))).2 hq ?_
        show (store p.1 p.2 o n t).1 = _
        rw [h]

theorem normalize_eq_storeOr [LawfulGen G] (m : List G) (c : S) (o : Nat → Bool) (n : Nat) (t : Terms G S) :
    normalize m c o n t = (Any.emits m c).foldl (fun r p => storeOr o p.1 p.2 r) (some (), n, t) := by
  have := Any.normalize_eq_foldl (storeOr o) m c (some (), n, t)
  exact this

theorem normalize_ok [LawfulGen G] (m : List G) (c : S) (o : Nat → Bool) (n : Nat) (t : Terms G S) :
    (∀ n' t', normalize m c o n t = (some (), n', t') → t' = Any.normalize Any.store m c t) ∧
    ((∀ k, o k = false) → ∃ n' t', normalize m c o n t = (some (), n', t')) := by
  rw [normalize_eq_storeOr]
  have h := storeOr_foldl o (Any.emits m c) (some (), n, t)
  refine ⟨fun n' t' e => ?_, fun hq => h.2 hq rfl⟩
  rw [Any.normalize_eq_foldl]
  exact (h.1 n' t' e).2

theorem normalizeBody_ok [LawfulGen G] (m : List G) (c : S) (o : Nat → Bool) (n : Nat) (t : Terms G S) :
    (∀ n' t', (do point; normalize m c; point : Flt (Terms G S) Unit) o n t = (some (), n', t') →
      t' = Any.normalize Any.store m c t) ∧
    ((∀ k, o k = false) → ∃ n' t', (do point; normalize m c; point : Flt (Terms G S) Unit) o n t = (some (), n', t')) := by
  constructor
  · intro n' t' e
    rcases point_out o n t with h | ⟨h, _⟩
    · rw [bind_some h] at e
      cases hn : normalize m c o (n + 1) t with
      | mk u r =>
        obtain ⟨n1, t1⟩ := r
        cases u with
        | none => rw [bind_none hn] at e; cases e
        | some u =>
          rw [bind_some hn] at e
          have := (normalize_ok m c o (n + 1) t).1 n1 t1 hn
          rcases point_out o n1 t1 with h | ⟨h, _⟩
          · rw [h] at e; cases e; exact this
          · rw [h] at e; cases e
    · rw [bind_none h] at e; cases e
  · intro hq
    rcases point_out o n t with h | ⟨_, h⟩
    · obtain ⟨n1, t1, hn⟩ := (normalize_ok m c o (n + 1) t).2 hq
      refine ⟨n1 + 1, t1, ?_⟩
      rw [bind_some h, bind_some hn]
      rcases point_out o n1 t1 with h | ⟨_, h⟩
      · exact h
      · rw [hq] at h; cases h
    · rw [hq] at h; cases h

theorem mulAssign_out [LawfulGen G] (asg : AsgOps S S') (b : Expr G S') (o : Nat → Bool) (n : Nat) (a : Expr G S) :
    ((∃ n', mulAssign asg b o n a.terms = (some (), n', (Mixed.mulAssign asg a b).terms)) ∨
      (∃ n', mulAssign asg b o n a.terms = (none, n', a.terms))) ∧
    ((∀ k, o k = false) → ∃ n', mulAssign asg b o n a.terms = (some (), n', (Mixed.mulAssign asg a b).terms)) := by
  have inner : ∀ (m1 : List G × S) (o : Nat → Bool) (n : Nat) (t : Terms G S), _ := fun m1 o n t =>
    each_ok (body := fun m2 : List G × S' => (do
        point
        normalize (m1.1 ++ m2.1) (asg.mul m1.2 m2.2)
        point : Flt (Terms G S) Unit))
      (f := fun m2 t => Any.normalize Any.store (m1.1 ++ m2.1) (asg.mul m1.2 m2.2) t)
      (fun m2 o n s n' s' e => (normalizeBody_ok _ _ o n s).1 n' s' e)
      (fun m2 o n s hq => (normalizeBody_ok _ _ o n s).2 hq) b.terms o n t
  have outer := fun (n : Nat) => each_ok (body := fun m1 : List G × S => each b.terms fun m2 => (do
        point
        normalize (m1.1 ++ m2.1) (asg.mul m1.2 m2.2)
        point : Flt (Terms G S) Unit))
      (f := fun m1 t => b.terms.foldl (fun t m2 => Any.normalize Any.store (m1.1 ++ m2.1) (asg.mul m1.2 m2.2) t) t)
      (fun m1 o n s n' s' e => (inner m1 o n s).1 n' s' e)
      (fun m1 o n s hq => (inner m1 o n s).2 hq) a.terms o n ([] : Terms G S)
  have hrun : ∀ r, (each a.terms fun m1 => each b.terms fun m2 => (do
        point
        normalize (m1.1 ++ m2.1) (asg.mul m1.2 m2.2)
        point : Flt (Terms G S) Unit)) o n [] = r →
      mulAssign asg b o n a.terms = match r with
        | (none, n', _) => (none, n', a.terms)
        | (some _, n', x) => (some (), n', x) := by
    intro r hr
    rw [mulAssign, read_bind]
    obtain ⟨u, n', x⟩ := r
    cases u with
    | none => exact bind_none (withLocal_none hr)
    | some u => exact bind_some (withLocal_some hr)
  constructor
  · cases hr : (each a.terms fun m1 => each b.terms fun m2 => (do
        point
        normalize (m1.1 ++ m2.1) (asg.mul m1.2 m2.2)
        point : Flt (Terms G S) Unit)) o n [] with
    | mk u r =>
      obtain ⟨n', x⟩ := r
      cases u with
      | none => exact Or.inr ⟨n', hrun _ hr⟩
      | some u =>
        have := (outer n).1 n' x hr
        refine Or.inl ⟨n', ?_⟩
        rw [hrun _ hr, this]; rfl
  · intro hq
    obtain ⟨n', x, hr⟩ := (outer n).2 hq
    have := (outer n).1 n' x hr
    refine ⟨n', ?_⟩
    rw [hrun _ hr, this]; rfl

/-- The first `j` coefficients are multiplied. -/
def scaled [ScalarOps S'] (mulAsg : S → S' → S) (x : S') (j : Nat) (t : Terms G S) : Terms G S :=
  (t.take j).map (fun p => (p.1, mulAsg p.2 x)) ++ t.drop j

theorem scaled_modify [ScalarOps S'] (mulAsg : S → S' → S) (x : S') (j : Nat) (t : Terms G S) :
    (scaled mulAsg x j t).modify j (fun p => (p.1, mulAsg p.2 x)) = scaled mulAsg x (j + 1) t := by
  induction t generalizing j with
  | nil => simp [scaled]
  | cons p t ih =>
    cases j with
    | zero => simp [scaled]
    | succ j =>
      have := ih j
      simpa [scaled] using this

theorem scaled_foldl [ScalarOps S'] (mulAsg : S → S' → S) (x : S') (t : Terms G S) (j : Nat) :
    (List.range j).foldl (fun s i => s.modify i fun p => (p.1, mulAsg p.2 x)) t = scaled mulAsg x j t := by
  induction j with
  | zero => simp [scaled]
  | succ j ih => rw [List.range_succ, List.foldl_append, ih]; exact scaled_modify mulAsg x j t

theorem smulAssign_out [ScalarOps S'] (mulAsg : S → S' → S) (x : S') (o : Nat → Bool) (n : Nat) (a : Expr G S) :
    ((∃ n', smulAssign mulAsg x o n a.terms = (some (), n', (Mixed.smulAssign mulAsg a x).terms)) ∨
      (∃ n' k, k < a.terms.length ∧ ScalarOps.isZero x = false ∧
        smulAssign mulAsg x o n a.terms = (none, n', scaled mulAsg x k a.terms))) ∧
    ((∀ k, o k = false) → ∃ n', smulAssign mulAsg x o n a.terms = (some (), n', (Mixed.smulAssign mulAsg a x).terms)) := by
  cases hz : ScalarOps.isZero x with
  | true =>
    have h : ∀ n, smulAssign (G := G) mulAsg x o n a.terms = (some (), n, (Mixed.smulAssign mulAsg a x).terms) := by
      intro n
      simp only [smulAssign, hz, Mixed.smulAssign, if_true]
      rfl
    exact ⟨Or.inl ⟨n, h n⟩, fun _ => ⟨n, h n⟩⟩
  | false =>
    have key := each_out (fun i : Nat => atomic_point (p := fun _ => modify (fun t : Terms G S => t.modify i fun p => (p.1, mulAsg p.2 x)))
      (atomic_modify _)) (List.range a.terms.length) o n a.terms
    have e1 : smulAssign (G := G) mulAsg x o n a.terms = each (List.range a.terms.length) (fun i => (do
        point
        modify (fun t : Terms G S => t.modify i fun p => (p.1, mulAsg p.2 x)))) o n a.terms := by
      simp only [smulAssign, hz]
      rfl
    have e2 : (List.range a.terms.length).foldl (fun s i => s.modify i fun p => (p.1, mulAsg p.2 x)) a.terms
        = (Mixed.smulAssign mulAsg a x).terms := by
      rw [scaled_foldl]
      simp [scaled, Mixed.smulAssign, hz]
    rw [e1]
    constructor
    · rcases key.1 with ⟨n', h⟩ | ⟨n', k, hk, h⟩
      · exact Or.inl ⟨n', by rw [← e2]; exact h⟩
      · refine Or.inr ⟨n', k, by simpa using hk, rfl, ?_⟩
        rw [← scaled_foldl]
        rw [List.take_range] at h
        have hm : min k a.terms.length = k := by
          have : k < a.terms.length := by simpa using hk
          omega
        rw [hm] at h
        exact h
    · intro hq
      obtain ⟨n', h⟩ := key.2 hq
      exact ⟨n', by rw [← e2]; exact h⟩

theorem addAssignScalar_atomic [ScalarOps S'] (asg : AsgOps S S') (x : S') :
    Atomic (addAssignScalar (G := G) asg x) (fun t => (Mixed.addAssignScalar asg ⟨t⟩ x).terms) := by
  unfold addAssignScalar Mixed.addAssignScalar
  cases hz : ScalarOps.isZero x with
  | true => exact atomic_pure
  | false =>
    refine atomic_point (atomic_read fun t => ?_)
    simp only [Bool.false_eq_true, if_false]
    cases h : t.find? [] with
    | none => exact ⟨_, atomic_point (atomic_modify _), rfl⟩
    | some v =>
      refine ⟨_, atomic_point (atomic_modify_if _ _ _), ?_⟩
      simp only [erase_assign]

theorem subAssignScalar_atomic [ScalarOps S'] (asg : AsgOps S S') (x : S') :
    Atomic (subAssignScalar (G := G) asg x) (fun t => (Mixed.subAssignScalar asg ⟨t⟩ x).terms) := by
  unfold subAssignScalar Mixed.subAssignScalar
  refine atomic_point ?_
  cases hz : ScalarOps.isZero x with
  | true => exact atomic_pure
  | false =>
    simp only [Bool.false_eq_true, if_false]
    refine atomic_read fun t => ?_
    cases h : t.find? [] with
    | none => exact ⟨_, atomic_point (atomic_modify _), rfl⟩
    | some v =>
      refine ⟨_, atomic_point (atomic_modify_if _ _ _), ?_⟩
      simp only [erase_assign]

theorem assignConv_out (cv : S' → S) (b : Expr G S') (o : Nat → Bool) (n : Nat) (a : Expr G S) :
    ((∃ n', assignConv cv b o n a.terms = (some (), n', (Mixed.convert cv b).terms)) ∨
      (∃ n' k, k < b.terms.length ∧
        assignConv cv b o n a.terms = (none, n', (Mixed.convert cv ⟨b.terms.take k⟩).terms))) ∧
    ((∀ k, o k = false) → ∃ n', assignConv cv b o n a.terms = (some (), n', (Mixed.convert cv b).terms)) :=
  each_out (f := fun (p : List G × S') (t : Terms G S) => t.emplace p.1 (cv p.2))
    (fun _ => atomic_point (atomic_modify (σ := Terms G S) _)) b.terms o n []

end Faults
end LC
