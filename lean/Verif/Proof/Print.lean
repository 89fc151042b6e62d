import Mathlib.Data.List.Basic
import Verif.Model.Print
import Verif.Spec.Print
import Verif.Proof.Order
import Mathlib.Data.Rat.Defs
/-
Printed texts can be read back.
-/
set_option linter.unusedSectionVars false
namespace LC

/-- Splitting at the first character that does not satisfy `p`. -/
theorem span_unique {p : Char → Prop} {a a' r r' : Text} (ha : ∀ c ∈ a, p c) (ha' : ∀ c ∈ a', p c)
    (hr : ∀ c ∈ r.head?, ¬ p c) (hr' : ∀ c ∈ r'.head?, ¬ p c) (h : a ++ r = a' ++ r') : a = a' ∧ r = r' := by
  induction a generalizing a' with
  | nil =>
    cases a' with
    | nil => exact ⟨rfl, h⟩
    | cons c a' =>
      exfalso
      have : r = c :: (a' ++ r') := h
      exact hr c (by rw [this]; rfl) (ha' c (by simp))
  | cons c a ih =>
    cases a' with
    | nil =>
      exfalso
      have : r' = c :: (a ++ r) := h.symm
      exact hr' c (by rw [this]; rfl) (ha c (by simp))
    | cons c' a' =>
      simp only [List.cons_append, List.cons.injEq] at h
      obtain ⟨rfl, h⟩ := h
      obtain ⟨rfl, e⟩ := ih (fun x hx => ha x (by simp [hx])) (fun x hx => ha' x (by simp [hx])) h
      exact ⟨rfl, e⟩

theorem natText_inj {m n : Nat} (h : natText m = natText n) : m = n := by
  have := congrArg (fun t => Nat.ofDigitChars 10 t 0) h
  simpa [natText, Nat.ofDigitChars_ten_toDigits] using this

theorem natText_digit {n : Nat} {c : Char} (h : c ∈ natText n) : c.isDigit = true :=
  Nat.isDigit_of_mem_toDigits (by decide) (by decide) h

theorem natText_ne_nil (n : Nat) : natText n ≠ [] := Nat.toDigits_ne_nil

theorem intText_inj {i j : Int} (h : intText i = intText j) : i = j := by
  have key : ∀ m n : Nat, natText m ≠ '-' :: natText n := by
    intro m n e
    have : ('-' : Char).isDigit = true := natText_digit (n := m) (by rw [e]; simp)
    exact absurd this (by decide)
  cases i with
  | ofNat m =>
    cases j with
    | ofNat n => rw [natText_inj h]
    | negSucc n => exact absurd h (key _ _)
  | negSucc m =>
    cases j with
    | ofNat n => exact absurd h.symm (key _ _)
    | negSucc n =>
      have : natText (m + 1) = natText (n + 1) := (List.cons.injEq _ _ _ _ ▸ h).2
      have := natText_inj this
      congr 1; omega

theorem intText_chars {i : Int} {c : Char} (h : c ∈ intText i) : c.isDigit = true ∨ c = '-' := by
  cases i with
  | ofNat m => exact .inl (natText_digit h)
  | negSucc m =>
    rcases List.mem_cons.1 h with h | h
    · exact .inr h
    · exact .inl (natText_digit h)

theorem intText_ne_nil (i : Int) : intText i ≠ [] := by
  cases i with
  | ofNat m => exact natText_ne_nil m
  | negSucc m => simp [intText]

theorem multText_chars {n : Nat} {c : Char} (h : c ∈ multText n) : c.isDigit = true ∨ c = '-' ∨ c = '/' := by
  unfold multText at h
  split_ifs at h
  · rcases List.mem_append.1 h with h | h
    · rcases intText_chars h with h | h
      · exact .inl h
      · exact .inr (.inl h)
    · simp only [List.mem_cons, List.not_mem_nil, or_false] at h
      rcases h with rfl | rfl
      · exact .inr (.inr rfl)
      · exact .inl (by decide)
  · rcases intText_chars h with h | h
    · exact .inl h
    · exact .inr (.inl h)
  · simp at h

theorem multText_inj {m n : Nat} (h : multText m = multText n) : m = n := by
  have noslash : ∀ i : Int, '/' ∉ intText i := fun i hc => by
    rcases intText_chars hc with h | h
    · exact absurd h (by decide)
    · exact absurd h (by decide)
  unfold multText at h
  split_ifs at h with h1 h2 h3 h4 h5 h6 h7 h8
  · have := intText_inj (List.append_cancel_right h)
    omega
  · exact absurd (show '/' ∈ intText _ by rw [← h]; simp) (noslash _)
  · exact absurd h (by simp)
  · exact absurd (show '/' ∈ intText _ by rw [h]; simp) (noslash _)
  · have := intText_inj h
    omega
  · exact absurd h (intText_ne_nil _)
  · exact absurd h.symm (by simp)
  · exact absurd h.symm (intText_ne_nil _)
  · omega

/-- What is needed of the texts of generators. -/
structure ReadableGen {G : Type _} (gt : G → Text) : Prop where
  inj : ∀ g h, gt g = gt h → g = h
  closed : ∀ g, ∃ x, gt g = x ++ [')'] ∧ ')' ∉ x
  start : ∀ g, ∃ c ∈ (gt g).head?, c ≠ '[' ∧ c ≠ ' ' ∧ c.isDigit = false

theorem ReadableGen.split {G : Type _} {gt : G → Text} (hg : ReadableGen gt) {g g' : G} {r r' : Text} (h : gt g ++ r = gt g' ++ r') :
    g = g' ∧ r = r' := by
  obtain ⟨x, hx, nx⟩ := hg.closed g
  obtain ⟨x', hx', nx'⟩ := hg.closed g'
  rw [hx, hx', List.append_assoc, List.append_assoc] at h
  obtain ⟨e1, e2⟩ := span_unique (p := fun c => c ≠ ')') (fun c hc e => nx (e ▸ hc)) (fun c hc e => nx' (e ▸ hc))
    (by simp) (by simp) h
  refine ⟨hg.inj _ _ (by rw [hx, hx', e1]), ?_⟩
  simpa using e2

section
variable {G S : Type _} [GenOps G] [LawfulGen G] {gt : G → Text}

/-- The maximal runs of equal generators. -/
def runs : List G → Nat → List (G × Nat)
  | [], _ => []
  | g :: l, power =>
    if endsRun g l then (g, power) :: runs l 1
    else runs l (power + 1)

/-- The text of a power. -/
def runText (gt : G → Text) (r : G × Nat) : Text :=
  if r.2 > 1 then ['['] ++ gt r.1 ++ [']', '^'] ++ natText r.2 else gt r.1

theorem monLoop_eq (m : List G) (p : Nat) : monLoop gt m p = (runs m p).flatMap (runText gt) := by
  induction m generalizing p with
  | nil => rfl
  | cons g l ih =>
    rw [monLoop, runs]
    split_ifs with h1 h2
    · rw [List.flatMap_cons, runText, if_pos h2, ih]; simp
    · rw [List.flatMap_cons, runText, if_neg h2, ih]; simp
    · exact ih _

theorem runs_pos (m : List G) (p : Nat) (hp : 1 ≤ p) : ∀ r ∈ runs m p, 1 ≤ r.2 := by
  induction m generalizing p with
  | nil => simp [runs]
  | cons g l ih =>
    rw [runs]
    split_ifs with h1
    · intro r hr
      rcases List.mem_cons.1 hr with rfl | hr
      · exact hp
      · exact ih 1 le_rfl r hr
    · exact ih _ (by omega)

theorem runs_expand (m : List G) (p : Nat) : ∀ g l, m = g :: l →
    (runs m (p + 1)).flatMap (fun r => List.replicate r.2 r.1) = List.replicate p g ++ m := by
  induction m generalizing p with
  | nil => simp
  | cons g l ih =>
    rintro _ _ ⟨⟩
    rw [runs]
    cases l with
    | nil => simp [runs, endsRun, List.replicate_succ']
    | cons h l =>
      split_ifs with h1
      · rw [List.flatMap_cons, show (1 : Nat) = 0 + 1 from rfl, ih 0 h l rfl]
        simp [List.replicate_succ']
      · have e : h = g := by
          rw [endsRun, Bool.not_eq_true, Bool.not_eq_false'] at h1
          exact (LawfulGen.eq_iff _ _).1 h1
        subst e
        rw [ih (p + 1) h l rfl, List.replicate_succ', List.append_assoc]; rfl

theorem runs_flat (m : List G) : (runs m 1).flatMap (fun r => List.replicate r.2 r.1) = m := by
  cases m with
  | nil => rfl
  | cons g l => exact runs_expand (g :: l) 0 g l rfl

theorem runs_distinct (m : List G) (p : Nat) : (runs m p).IsChain (fun r s => r.1 ≠ s.1) ∧ ∀ g l, m = g :: l → ∃ n rs, runs m p = (g, n) :: rs := by
  induction m generalizing p with
  | nil => exact ⟨by simp [runs], by simp⟩
  | cons g l ih =>
    rw [runs]
    split_ifs with h1
    · refine ⟨?_, fun g' l' e => ⟨p, runs l 1, by rw [(List.cons.inj e).1]⟩⟩
      cases l with
      | nil => simp [runs]
      | cons h l =>
        obtain ⟨n, rs, e⟩ := (ih 1).2 h l rfl
        have hc := (ih 1).1
        rw [e] at hc ⊢
        refine hc.cons_cons ?_
        rintro rfl
        simp only [endsRun, Bool.not_eq_true'] at h1
        have := (LawfulGen.eq_iff g g).2 rfl
        rw [this] at h1; cases h1
    · refine ⟨(ih _).1, ?_⟩
      rintro _ _ ⟨⟩
      cases l with
      | nil => simp [endsRun] at h1
      | cons h l =>
        obtain ⟨n, rs, e⟩ := (ih (p + 1)).2 h l rfl
        refine ⟨n, rs, ?_⟩
        rw [e]
        simp only [endsRun, Bool.not_eq_true, Bool.not_eq_false'] at h1
        rw [(LawfulGen.eq_iff _ _).1 h1]

/-- The end of a monomial in the text of an expression. -/
def Ends (r : Text) : Prop := r = [] ∨ ∃ s, r = ' ' :: s

theorem runs_head (hg : ReadableGen gt) (rs : List (G × Nat)) (r : Text) (hr : Ends r) :
    ∀ c ∈ (rs.flatMap (runText gt) ++ r).head?, c.isDigit = false := by
  intro c hc
  cases rs with
  | nil =>
    rcases hr with rfl | ⟨s, rfl⟩
    · simp at hc
    · simp only [List.flatMap_nil, List.nil_append, List.head?_cons, Option.mem_some_iff] at hc
      rw [← hc]; decide
  | cons q rs =>
    obtain ⟨d, hd, _, _, h3⟩ := hg.start q.1
    rw [List.flatMap_cons, runText] at hc
    split_ifs at hc with h
    · simp only [List.cons_append, List.nil_append, List.head?_cons, Option.mem_some_iff] at hc
      rw [← hc]; decide
    · cases hq : gt q.1 with
      | nil => rw [hq] at hd; simp at hd
      | cons x l =>
        rw [hq] at hc hd
        simp only [List.cons_append, List.head?_cons, Option.mem_some_iff] at hc hd
        rw [← hc, hd]; exact h3

theorem runText_head (hg : ReadableGen gt) (q : G × Nat) : ∃ c l, runText gt q = c :: l ∧ c ≠ ' ' ∧ (c = '[' ↔ q.2 > 1) := by
  obtain ⟨d, hd, h1, h2, _⟩ := hg.start q.1
  rw [runText]
  split_ifs with h
  · exact ⟨'[', gt q.1 ++ [']', '^'] ++ natText q.2, rfl, by decide, by simp [h]⟩
  · cases hq : gt q.1 with
    | nil => rw [hq] at hd; simp at hd
    | cons x l =>
      rw [hq] at hd
      simp only [List.head?_cons, Option.mem_some_iff] at hd
      subst hd
      exact ⟨x, l, rfl, h2, by simp [h, h1]⟩

theorem runs_inj (hg : ReadableGen gt) (rs rs' : List (G × Nat)) (hp : ∀ q ∈ rs, 1 ≤ q.2) (hp' : ∀ q ∈ rs', 1 ≤ q.2) (r r' : Text) (hr : Ends r)
    (hr' : Ends r') (h : rs.flatMap (runText gt) ++ r = rs'.flatMap (runText gt) ++ r') : rs = rs' ∧ r = r' := by
  have hend : ∀ (q : G × Nat) (t r : Text), Ends r → runText gt q ++ t ≠ r := by
    intro q t r hr e
    obtain ⟨c, l, e1, e2, -⟩ := runText_head hg q
    rw [e1] at e
    rcases hr with rfl | ⟨s, rfl⟩
    · cases e
    · exact e2 (List.cons.inj e).1
  induction rs generalizing rs' with
  | nil =>
    cases rs' with
    | nil => exact ⟨rfl, h⟩
    | cons q rs' =>
      rw [List.flatMap_nil, List.nil_append, List.flatMap_cons, List.append_assoc] at h
      exact absurd h.symm (hend _ _ _ hr)
  | cons q rs ih =>
    cases rs' with
    | nil =>
      rw [List.flatMap_nil, List.nil_append, List.flatMap_cons, List.append_assoc] at h
      exact absurd h (hend _ _ _ hr')
    | cons q' rs' =>
      rw [List.flatMap_cons, List.flatMap_cons, List.append_assoc, List.append_assoc] at h
      have hpow : q.2 > 1 ↔ q'.2 > 1 := by
        obtain ⟨c, l, e1, -, e2⟩ := runText_head hg q
        obtain ⟨c', l', e1', -, e2'⟩ := runText_head hg q'
        rw [e1, e1'] at h
        rw [← e2, ← e2', (List.cons.inj h).1]
      have key : q = q' ∧ rs.flatMap (runText gt) ++ r = rs'.flatMap (runText gt) ++ r' := by
        obtain ⟨g, n⟩ := q
        obtain ⟨g', n'⟩ := q'
        by_cases hn : n > 1
        · have hn' := hpow.1 hn
          rw [runText, runText, if_pos hn, if_pos hn'] at h
          simp only [List.append_assoc, List.cons_append, List.nil_append, List.cons.injEq, true_and] at h
          obtain ⟨e0, h2⟩ := hg.split h
          subst e0
          simp only [List.cons.injEq, true_and] at h2
          obtain ⟨e1, e2⟩ := span_unique (p := fun c => c.isDigit = true) (fun c hc => natText_digit hc) (fun c hc => natText_digit hc)
            (fun c hc => by rw [runs_head hg rs r hr c hc]; decide) (fun c hc => by rw [runs_head hg rs' r' hr' c hc]; decide) h2
          exact ⟨by rw [natText_inj e1], e2⟩
        · have hn' : ¬ n' > 1 := fun h => hn (hpow.2 h)
          rw [runText, runText, if_neg hn, if_neg hn'] at h
          obtain ⟨e0, h2⟩ := hg.split h
          subst e0
          have := hp (g, n) (by simp)
          have := hp' (g, n') (by simp)
          simp only at *
          exact ⟨by congr 1; omega, h2⟩
      obtain ⟨e0, h2⟩ := key
      obtain ⟨e1, e2⟩ := ih rs' (fun x hx => hp x (by simp [hx])) (fun x hx => hp' x (by simp [hx])) h2
      exact ⟨by rw [e0, e1], e2⟩

theorem monText_inj (hg : ReadableGen gt) (m m' : List G) (r r' : Text) (hr : Ends r) (hr' : Ends r')
    (h : monText gt m ++ r = monText gt m' ++ r') : m = m' ∧ r = r' := by
  rw [monText, monText, monLoop_eq, monLoop_eq] at h
  obtain ⟨e1, e2⟩ := runs_inj hg _ _ (runs_pos m 1 le_rfl) (runs_pos m' 1 le_rfl) r r' hr hr' h
  refine ⟨?_, e2⟩
  rw [← runs_flat m, ← runs_flat m', e1]

theorem monText_nil_iff (hg : ReadableGen gt) {m : List G} : monText gt m = [] ↔ m = [] := by
  constructor
  · intro h
    exact (monText_inj hg m [] [] [] (.inl rfl) (.inl rfl) (by rw [h]; rfl)).1
  · rintro rfl; rfl

variable {cs : S → Text}

theorem termsText_ends (l : List (List G × S)) : Ends (termsText gt cs true l) := by
  cases l with
  | nil => exact .inl rfl
  | cons p l => exact .inr ⟨_, rfl⟩

/-- What follows a coefficient. -/
theorem coeff_end (m : List G) (l : List (List G × S)) :
    ∀ c ∈ ((if m.isEmpty then [] else ['*']) ++ monText gt m ++ termsText gt cs true l).head?, ¬ (c ≠ '*' ∧ c ≠ ' ') := by
  intro c hc
  cases m with
  | nil =>
    rcases termsText_ends (gt := gt) (cs := cs) l with h | ⟨s, h⟩
    · rw [h] at hc; simp [monText, monLoop] at hc
    · rw [h] at hc
      simp only [monText, monLoop, List.isEmpty_nil, if_true, List.nil_append, List.head?_cons, Option.mem_some_iff] at hc
      rw [← hc]; simp
  | cons g m =>
    simp only [List.isEmpty_cons, Bool.false_eq_true, if_false, List.cons_append, List.nil_append, List.head?_cons, Option.mem_some_iff] at hc
    rw [← hc]; simp

theorem termsText_inj (hg : ReadableGen gt) (hc : ReadableCoeff cs) (l l' : List (List G × S)) (b : Bool)
    (hb : b = true ∨ (l = [] ↔ l' = [])) (h : termsText gt cs b l = termsText gt cs b l') : l = l' := by
  induction l generalizing l' b with
  | nil =>
    cases l' with
    | nil => rfl
    | cons p l' =>
      rcases hb with rfl | hb
      · cases h
      · simp at hb
  | cons p l ih =>
    obtain ⟨m, x⟩ := p
    cases l' with
    | nil =>
      rcases hb with rfl | hb
      · cases h
      · simp at hb
    | cons p' l' =>
      obtain ⟨m', x'⟩ := p'
      rw [termsText, termsText] at h
      simp only [List.append_assoc] at h
      have h := List.append_cancel_left h
      have e0 := coeff_end (gt := gt) (cs := cs) m l
      have e0' := coeff_end (gt := gt) (cs := cs) m' l'
      rw [List.append_assoc] at e0 e0'
      obtain ⟨e1, e2⟩ := span_unique (p := fun c => c ≠ '*' ∧ c ≠ ' ')
        (fun c hx => ⟨fun e => (hc.chars x).1 (e ▸ hx), fun e => (hc.chars x).2 (e ▸ hx)⟩)
        (fun c hx => ⟨fun e => (hc.chars x').1 (e ▸ hx), fun e => (hc.chars x').2 (e ▸ hx)⟩) e0 e0' h
      have hx := hc.inj _ _ e1
      subst hx
      have key : m = m' ∧ termsText gt cs true l = termsText gt cs true l' := by
        have ends := termsText_ends (gt := gt) (cs := cs) l
        have ends' := termsText_ends (gt := gt) (cs := cs) l'
        cases m with
        | nil =>
          cases m' with
          | nil => exact ⟨rfl, by simpa [monText, monLoop] using e2⟩
          | cons g' m' =>
            exfalso
            simp only [List.isEmpty_nil, if_true, monText, monLoop, List.nil_append, List.isEmpty_cons, Bool.false_eq_true, if_false,
              List.cons_append] at e2
            rcases ends with h | ⟨s, h⟩
            · rw [h] at e2; cases e2
            · rw [h] at e2; exact absurd (List.cons.inj e2).1 (by decide)
        | cons g m =>
          cases m' with
          | nil =>
            exfalso
            simp only [List.isEmpty_nil, if_true, monText, monLoop, List.nil_append, List.isEmpty_cons, Bool.false_eq_true, if_false,
              List.cons_append] at e2
            rcases ends' with h | ⟨s, h⟩
            · rw [h] at e2; cases e2
            · rw [h] at e2; exact absurd (List.cons.inj e2).1.symm (by decide)
          | cons g' m' =>
            simp only [List.isEmpty_cons, Bool.false_eq_true, if_false, List.cons_append, List.nil_append, List.cons.injEq, true_and] at e2
            exact monText_inj hg _ _ _ _ ends ends' e2
      obtain ⟨e3, h2⟩ := key
      rw [ih l' true (.inl rfl) h2, e3]

end

theorem tupleText_inj {α : Type _} {el : α → Text} (hi : Function.Injective el) (hc : ∀ x, ',' ∉ el x) (hn : ∀ x, el x ≠ []) :
    Function.Injective (tupleText el) := by
  have hne : ∀ x l, tupleText el (x :: l) ≠ [] := by
    intro x l
    cases l with
    | nil => exact hn x
    | cons y l => simp [tupleText]
  intro l
  induction l with
  | nil =>
    intro l' h
    cases l' with
    | nil => rfl
    | cons y l' => exact absurd h.symm (hne _ _)
  | cons x l ih =>
    intro l' h
    cases l' with
    | nil => exact absurd h (hne _ _)
    | cons y l' =>
      have e : ∀ z (k : List α), tupleText el (z :: k) = el z ++ (if k = [] then [] else ',' :: tupleText el k) := by
        intro z k
        cases k with
        | nil => simp [tupleText]
        | cons w k => simp [tupleText]
      rw [e, e] at h
      obtain ⟨e1, e2⟩ := span_unique (p := fun c => c ≠ ',') (fun c hx e => hc x (e ▸ hx)) (fun c hx e => hc y (e ▸ hx))
        (by split_ifs <;> simp) (by split_ifs <;> simp) h
      have e1 := hi e1
      subst e1
      congr 1
      split_ifs at e2 with h1 h2 h3
      · rw [h1, h2]
      · exact ih (List.cons.inj e2).2

theorem readableGen_predefined {ι : Type _} {ix : ι → Text} (hi : Function.Injective ix) (hc : ∀ i, ')' ∉ ix i) :
    ReadableGen (Gen.text ix) where
  inj := by
    have par : ∀ n, ∀ c ∈ multText n, c ≠ '(' := fun n c hc e => by
      subst e
      rcases multText_chars hc with h | h | h <;> revert h <;> decide
    have parC : ∀ c : SpinComp, c.text.length = 1 ∧ ∀ x ∈ c.text, x ≠ '(' := by
      intro c; cases c <;> exact ⟨rfl, by decide⟩
    have cinj : ∀ c d : SpinComp, c.text = d.text → c = d := by
      intro c d; cases c <;> cases d <;> simp [SpinComp.text]
    -- the text before the opening parenthesis, and the rest
    let pre : Gen ι → Text := fun
      | .fermion d _ => ['C'] ++ (if d then ['+'] else [])
      | .boson d _ => ['A'] ++ (if d then ['+'] else [])
      | .spin n c _ => ['S'] ++ multText n ++ c.text
    let ind : Gen ι → ι := fun
      | .fermion _ i => i
      | .boson _ i => i
      | .spin _ _ i => i
    have key : ∀ g, Gen.text ix g = pre g ++ ('(' :: (ix (ind g) ++ [')'])) := by
      intro g; cases g <;> simp [Gen.text, pre, ind]
    have hpre : ∀ g, ∀ c ∈ pre g, c ≠ '(' := by
      intro g
      cases g with
      | fermion d i => cases d <;> simp [pre]
      | boson d i => cases d <;> simp [pre]
      | spin n c i =>
        intro x hx
        simp only [pre, List.mem_append, List.mem_singleton] at hx
        rcases hx with (rfl | hx) | hx
        · decide
        · exact par n x hx
        · exact (parC c).2 x hx
    intro g h e
    rw [key, key] at e
    obtain ⟨e1, e2⟩ := span_unique (p := fun c => c ≠ '(') (hpre g) (hpre h) (by simp) (by simp) e
    have e3 : ind g = ind h := hi (List.append_cancel_right (List.cons.inj e2).2)
    cases g with
    | fermion d i =>
      cases h with
      | fermion d' i' =>
        have : i = i' := e3
        subst this
        cases d <;> cases d' <;> simp_all [pre]
      | boson d' i' => simp [pre] at e1
      | spin n c i' => simp [pre] at e1
    | boson d i =>
      cases h with
      | boson d' i' =>
        have : i = i' := e3
        subst this
        cases d <;> cases d' <;> simp_all [pre]
      | fermion d' i' => simp [pre] at e1
      | spin n c i' => simp [pre] at e1
    | spin n c i =>
      cases h with
      | fermion d' i' => simp [pre] at e1
      | boson d' i' => simp [pre] at e1
      | spin n' c' i' =>
        have : i = i' := e3
        subst this
        simp only [pre, List.cons_append, List.nil_append, List.cons.injEq, true_and] at e1
        obtain ⟨e4, e5⟩ := List.append_inj' e1 (by rw [(parC c).1, (parC c').1])
        rw [multText_inj e4, cinj _ _ e5]
  closed := by
    have parC : ∀ c : SpinComp, ')' ∉ c.text := by intro c; cases c <;> decide
    have par : ∀ n, ')' ∉ multText n := fun n hc => by
      rcases multText_chars hc with h | h | h <;> revert h <;> decide
    intro g
    cases g with
    | fermion d i => exact ⟨_, rfl, by cases d <;> simp [hc]⟩
    | boson d i => exact ⟨_, rfl, by cases d <;> simp [hc]⟩
    | spin n c i => exact ⟨_, rfl, by simp [hc, par, parC]⟩
  start := by
    intro g
    cases g with
    | fermion d i => exact ⟨'C', by simp [Gen.text], by decide⟩
    | boson d i => exact ⟨'A', by simp [Gen.text], by decide⟩
    | spin n c i => exact ⟨'S', by simp [Gen.text], by decide⟩

theorem readableCoeff_int : ReadableCoeff intText where
  inj _ _ h := intText_inj h
  chars x := ⟨fun h => by rcases intText_chars h with h | h <;> revert h <;> decide,
    fun h => by rcases intText_chars h with h | h <;> revert h <;> decide⟩

theorem readableCoeff_rat : ReadableCoeff ratText where
  inj x y h := by
    unfold ratText at h
    simp only [List.append_assoc] at h
    obtain ⟨e1, e2⟩ := span_unique (p := fun c => c ≠ '/')
      (fun c hc e => by subst e; rcases intText_chars hc with h | h <;> revert h <;> decide)
      (fun c hc e => by subst e; rcases intText_chars hc with h | h <;> revert h <;> decide) (by simp) (by simp) h
    exact Rat.ext (intText_inj e1) (natText_inj (by simpa using e2))
  chars x := by
    unfold ratText
    have h1 : ∀ c ∈ intText x.num ++ ['/'] ++ natText x.den, c.isDigit = true ∨ c = '-' ∨ c = '/' := by
      intro c hc
      simp only [List.append_assoc, List.mem_append, List.mem_singleton] at hc
      rcases hc with hc | hc | hc
      · rcases intText_chars hc with h | h
        · exact .inl h
        · exact .inr (.inl h)
      · exact .inr (.inr hc)
      · exact .inl (natText_digit hc)
    exact ⟨fun h => by rcases h1 _ h with h | h | h <;> revert h <;> decide,
      fun h => by rcases h1 _ h with h | h | h <;> revert h <;> decide⟩

theorem readableCoeff_complex {S : Type _} {cs : S → Text} (h : ReadableCoeff cs) (hc : ∀ x, ',' ∉ cs x) :
    ReadableCoeff (complexText cs) where
  inj x y e := by
    unfold complexText at e
    simp only [List.append_assoc, List.cons_append, List.nil_append, List.cons.injEq, true_and] at e
    obtain ⟨e1, e2⟩ := span_unique (p := fun c => c ≠ ',') (fun c h e => hc _ (e ▸ h)) (fun c h e => hc _ (e ▸ h)) (by simp) (by simp) e
    simp only [List.cons.injEq, true_and] at e2
    exact Prod.ext (h.inj _ _ e1) (h.inj _ _ (List.append_cancel_right e2))
  chars x := by simp [complexText, (h.chars x.1).1, (h.chars x.1).2, (h.chars x.2).1, (h.chars x.2).2]

end LC
