import Mathlib.Tactic.Ring
import Verif.Proof.MapLemmas
/-
Unfolding equations of `normalize`/`reduce`, and their factorisation through the list of stored pairs.
-/
set_option linter.unusedSectionVars false
set_option linter.unusedSimpArgs false
namespace LC
variable {G S T T' : Type _} [GenOps G] [CommRing S] [DecidableEq S] [ConstScalar S]

def PassRes.map (φ : T → T') : PassRes G S T → PassRes G S T'
  | .done t => .done (φ t)
  | .cont m c sw t => .cont m c sw (φ t)

theorem foldl_hom {α : Type _} (φ : T → T') (f : T → α → T) (g : T' → α → T') (l : List α)
    (h : ∀ a ∈ l, ∀ t, g (φ t) a = φ (f t a)) (t : T) : l.foldl g (φ t) = φ (l.foldl f t) := by
  induction l generalizing t with
  | nil => rfl
  | cons a l ih =>
    rw [List.foldl_cons, List.foldl_cons, h a (by simp), ih (fun b hb => h b (by simp [hb]))]

theorem processF_hom {φ : T → T'} {N : List G → S → T → T} {N' : List G → S → T' → T'} {L : Nat}
    (h : ∀ m c t, m.length < L → N' m c (φ t) = φ (N m c t)) (pre post : List G) (hl : pre.length + post.length + 1 < L)
    (f : LinFun G) (c : S) (t : T) : processF N' pre post f c (φ t) = φ (processF N pre post f c t) := by
  simp only [processF]
  rw [← foldl_hom φ _ (fun t gv => N' (pre ++ gv.1 :: post) (c * ConstScalar.makeConst gv.2) t) f.terms
    (fun a _ t => h (pre ++ a.1 :: post) (c * ConstScalar.makeConst a.2) t (by simp; omega))]
  congr 1
  split
  · rfl
  · exact h _ _ _ (by simp; omega)

theorem pass_hom {φ : T → T'} {N : List G → S → T → T} {N' : List G → S → T' → T'} {L : Nat}
    (h : ∀ m c t, m.length < L → N' m c (φ t) = φ (N m c t)) (cnt : Nat) (pre : List G) (x : G) (rest : List G)
    (hl : pre.length + 1 + rest.length ≤ L) (c : S) (sw : Bool) (t : T) :
    pass N' cnt pre x rest c sw (φ t) = (pass N cnt pre x rest c sw t).map φ := by
  induction cnt generalizing pre x rest c sw t with
  | zero => simp [pass, PassRes.map]
  | succ cnt ih =>
    cases rest with
    | nil => simp [pass, PassRes.map]
    | cons y rest =>
      simp only [List.length_cons] at hl
      simp only [pass]
      split
      · rw [processF_hom h _ _ (by omega)]
        split
        · rfl
        · exact ih _ _ _ (by simp; omega) _ _ _
      · split
        · rw [processF_hom h _ _ (by omega)]; rfl
        · exact ih _ _ _ (by simp; omega) _ _ _

theorem pass_length {N : List G → S → T → T} (cnt : Nat) (pre : List G) (x : G) (rest : List G)
    (c : S) (sw : Bool) (t : T) {m' c' sw' t'} (h : pass N cnt pre x rest c sw t = .cont m' c' sw' t') :
    m'.length = pre.length + 1 + rest.length := by
  induction cnt generalizing pre x rest c sw t with
  | zero => simp [pass] at h; rw [← h.1]; simp; omega
  | succ cnt ih =>
    cases rest with
    | nil => simp [pass] at h; rw [← h.1]; simp
    | cons y rest =>
      simp only [pass] at h
      split at h
      · split at h
        · simp at h
        · rw [ih _ _ _ _ _ _ h]; simp; omega
      · split at h
        · simp at h
        · rw [ih _ _ _ _ _ _ h]; simp; omega

/-- A pass only permutes the monomial. -/
theorem pass_perm {N : List G → S → T → T} (cnt : Nat) (pre : List G) (x : G) (rest : List G)
    (c : S) (sw : Bool) (t : T) {m' c' sw' t'} (h : pass N cnt pre x rest c sw t = .cont m' c' sw' t') :
    m'.Perm (pre ++ x :: rest) := by
  induction cnt generalizing pre x rest c sw t with
  | zero => simp [pass] at h; rw [← h.1]
  | succ cnt ih =>
    cases rest with
    | nil => simp [pass] at h; rw [← h.1]
    | cons y rest =>
      simp only [pass] at h
      split at h
      · split at h
        · simp at h
        · refine (ih _ _ _ _ _ _ h).trans ?_
          simp only [List.append_assoc, List.cons_append, List.nil_append]
          exact List.Perm.append_left _ (List.Perm.swap ..)
      · split at h
        · simp at h
        · have := ih _ _ _ _ _ _ h
          simpa using this

theorem sortLoop_hom {φ : T → T'} {N : List G → S → T → T} {N' : List G → S → T' → T'} {L : Nat}
    (h : ∀ m c t, m.length < L → N' m c (φ t) = φ (N m c t)) (nmax : Nat) (m : List G)
    (hl : m.length ≤ L) (c : S) (t : T) :
    sortLoop N' nmax m c (φ t) = (sortLoop N nmax m c t).map φ := by
  induction nmax generalizing m c t with
  | zero =>
    cases m with
    | nil => simp [sortLoop, PassRes.map]
    | cons x rest =>
      simp only [sortLoop]
      rw [pass_hom h 0 [] x rest (by simp at hl ⊢; omega)]
      cases pass N 0 [] x rest c false t with
      | done t' => rfl
      | cont m' c' sw t' => cases sw <;> rfl
  | succ nmax ih =>
    cases m with
    | nil => simp [sortLoop, PassRes.map]
    | cons x rest =>
      simp only [sortLoop]
      rw [pass_hom h _ [] x rest (by simp at hl ⊢; omega)]
      cases hp : pass N (nmax + 1) [] x rest c false t with
      | done t' => rfl
      | cont m' c' sw t' =>
        cases sw
        · rfl
        · simp only [PassRes.map]
          refine ih _ ?_ _ _
          rw [pass_length _ _ _ _ _ _ _ hp]; simp at hl ⊢; omega

theorem sortLoop_length {N : List G → S → T → T} (nmax : Nat) (m : List G) (c : S) (t : T) {m' c' sw' t'}
    (h : sortLoop N nmax m c t = .cont m' c' sw' t') : m'.length = m.length := by
  induction nmax generalizing m c t with
  | zero =>
    cases m with
    | nil => simp [sortLoop] at h; simp [← h.1]
    | cons x rest =>
      simp only [sortLoop] at h
      split at h
      · simp at h
      · rename_i hp; cases h; rw [pass_length _ _ _ _ _ _ _ hp]; simp; omega
      · rename_i hp; cases h; rw [pass_length _ _ _ _ _ _ _ hp]; simp; omega
  | succ nmax ih =>
    cases m with
    | nil => simp [sortLoop] at h; simp [← h.1]
    | cons x rest =>
      simp only [sortLoop] at h
      split at h
      · simp at h
      · rename_i hp; cases h; rw [pass_length _ _ _ _ _ _ _ hp]; simp; omega
      · rename_i hp; rw [ih _ _ _ h, pass_length _ _ _ _ _ _ _ hp]; simp; omega

theorem sortLoop_perm {N : List G → S → T → T} (nmax : Nat) (m : List G) (c : S) (t : T) {m' c' sw' t'}
    (h : sortLoop N nmax m c t = .cont m' c' sw' t') : m'.Perm m := by
  induction nmax generalizing m c t with
  | zero =>
    cases m with
    | nil => simp [sortLoop] at h; simp [← h.1]
    | cons x rest =>
      simp only [sortLoop] at h
      split at h
      · simp at h
      · rename_i hp; cases h; simpa using pass_perm _ _ _ _ _ _ _ hp
      · rename_i hp; cases h; simpa using pass_perm _ _ _ _ _ _ _ hp
  | succ nmax ih =>
    cases m with
    | nil => simp [sortLoop] at h; simp [← h.1]
    | cons x rest =>
      simp only [sortLoop] at h
      split at h
      · simp at h
      · rename_i hp; cases h; simpa using pass_perm _ _ _ _ _ _ _ hp
      · rename_i hp; exact (ih _ _ _ h).trans (by simpa using pass_perm _ _ _ _ _ _ _ hp)

theorem normStep_hom {φ : T → T'} {N R : List G → S → T → T} {N' R' : List G → S → T' → T'} {L : Nat}
    (h : ∀ m c t, m.length < L → N' m c (φ t) = φ (N m c t))
    (hR : ∀ m c t, m.length ≤ L → R' m c (φ t) = φ (R m c t)) (m : List G)
    (hl : m.length ≤ L) (c : S) (t : T) : normStep N' R' m c (φ t) = φ (normStep N R m c t) := by
  simp only [normStep]
  split
  · rw [sortLoop_hom h _ _ hl]
    cases hp : sortLoop N (m.length - 1) m c t with
    | done t' => rfl
    | cont m' c' sw t' =>
      simp only [PassRes.map]
      split
      · rfl
      · exact hR _ _ _ (by rw [sortLoop_length _ _ _ _ hp]; exact hl)
  · exact hR _ _ _ hl

theorem reduceLoop_hom {φ : T → T'} {st N R : List G → S → T → T} {st' N' R' : List G → S → T' → T'} {L : Nat}
    (hst : ∀ m c t, st' m c (φ t) = φ (st m c t))
    (h : ∀ m c t, m.length < L → N' m c (φ t) = φ (N m c t))
    (hR : ∀ m c t, m.length < L → R' m c (φ t) = φ (R m c t))
    (pre run : List G) (x : G) (rest : List G) (hr : 1 ≤ run.length)
    (hl : pre.length + run.length + rest.length ≤ L) (f : LinFun G) (c : S) (t : T) :
    reduceLoop st' N' R' pre run x rest f c (φ t) = φ (reduceLoop st N R pre run x rest f c t) := by
  induction rest generalizing pre run x f with
  | nil => simp [reduceLoop, hst]
  | cons y rest ih =>
    simp only [List.length_cons] at hl
    simp only [reduceLoop]
    split
    · split
      · split
        · split
          · rfl
          · rw [← foldl_hom φ _ (fun t gv => if (ConstScalar.makeConst gv.2 : S) = 0 then t
              else N' (pre ++ gv.1 :: rest) (c * ConstScalar.makeConst gv.2) t)]
            rotate_left
            · intro a _ t
              split
              · rfl
              · exact h (pre ++ a.1 :: rest) (c * ConstScalar.makeConst a.2) t (by simp; omega)
            congr 1
            split
            · rfl
            · exact hR _ _ _ (by simp; omega)
        · exact ih _ _ _ (by simp) (by simp; omega) _
      · exact ih _ _ _ (by simp) (by simp; omega) _
    · exact ih _ _ _ (by simp) (by simp; omega) _

theorem reduceStep_hom {φ : T → T'} {st N R : List G → S → T → T} {st' N' R' : List G → S → T' → T'} {L : Nat}
    (hst : ∀ m c t, st' m c (φ t) = φ (st m c t))
    (h : ∀ m c t, m.length < L → N' m c (φ t) = φ (N m c t))
    (hR : ∀ m c t, m.length < L → R' m c (φ t) = φ (R m c t)) (m : List G)
    (hl : m.length ≤ L) (c : S) (t : T) : reduceStep st' N' R' m c (φ t) = φ (reduceStep st N R m c t) := by
  cases m with
  | nil => simp [reduceStep, hst]
  | cons x rest =>
    simp only [reduceStep]
    exact reduceLoop_hom hst h hR _ _ _ _ (by simp) (by simp at hl ⊢; omega) _ _ _

/-- Enough depth is as good as any other depth. -/
theorem both_stable (st : List G → S → T → T) : ∀ (n n' : Nat) (m : List G), m.length < n → m.length < n' →
    ∀ c t, (both st n).1 m c t = (both st n').1 m c t ∧ (both st n).2 m c t = (both st n').2 m c t
  | 0, _, _, h, _ => by omega
  | _, 0, _, _, h => by omega
  | n + 1, n' + 1, m, h, h' => by
    intro c t
    have ih : ∀ k, k.length < min n n' → ∀ c t, (both st n).1 k c t = (both st n').1 k c t ∧
        (both st n).2 k c t = (both st n').2 k c t :=
      fun k hk => both_stable st n n' k (by omega) (by omega)
    have hR : ∀ k c t, k.length ≤ min n n' → (both st (n+1)).2 k c t = (both st (n'+1)).2 k c t := by
      intro k c t hk
      simp only [both]
      exact reduceStep_hom (φ := id) (st := st) (st' := st) (L := min n n') (fun _ _ _ => rfl) (fun k c t hk => (ih k hk c t).1)
        (fun k c t hk => (ih k hk c t).2) k hk c t
    refine ⟨?_, hR m c t (by omega)⟩
    simp only [both] at hR ⊢
    exact normStep_hom (φ := id) (L := min n n') (fun k c t hk => (ih k hk c t).1) hR m (by omega) c t

/-- `normalize` satisfies the recursion equation of `normalize_and_store` (no depth bound). -/
theorem normalize_eq (st : List G → S → T → T) (m : List G) (c : S) (t : T) :
    normalize st m c t = normStep (normalize st) (reduce st) m c t := by
  have hR : ∀ k c t, k.length ≤ m.length → reduceStep st (both st m.length).1 (both st m.length).2 k c t
      = reduce st k c t := fun k c t hk =>
    (both_stable st (m.length + 1) (k.length + 1) k (by omega) (by omega) c t).2
  simp only [normalize, both]
  exact normStep_hom (φ := id) (L := m.length)
    (fun k c t hk => (both_stable st m.length (k.length + 1) k (by omega) (by omega) c t).1) hR m (le_refl _) c t

/-- `reduce` satisfies the recursion equation of `reduce_powers_and_store`. -/
theorem reduce_eq (st : List G → S → T → T) (m : List G) (c : S) (t : T) :
    reduce st m c t = reduceStep st (normalize st) (reduce st) m c t := by
  simp only [reduce, both]
  exact reduceStep_hom (φ := id) (st := st) (st' := st) (L := m.length) (fun _ _ _ => rfl)
    (fun k c t hk => (both_stable st m.length (k.length + 1) k (by omega) (by omega) c t).1)
    (fun k c t hk => (both_stable st m.length (k.length + 1) k (by omega) (by omega) c t).2) m (le_refl _) c t

theorem both_hom (st : List G → S → T → T) (st' : List G → S → T' → T') (φ : T → T')
    (h : ∀ m c t, st' m c (φ t) = φ (st m c t)) (n : Nat) :
    (∀ m c t, (both st' n).1 m c (φ t) = φ ((both st n).1 m c t)) ∧
    (∀ m c t, (both st' n).2 m c (φ t) = φ ((both st n).2 m c t)) := by
  induction n with
  | zero => exact ⟨fun _ _ _ => rfl, fun _ _ _ => rfl⟩
  | succ n ih =>
    have hR : ∀ m c t, (both st' (n+1)).2 m c (φ t) = φ ((both st (n+1)).2 m c t) := by
      intro m c t
      simp only [both]
      exact reduceStep_hom (L := m.length) h (fun k c t _ => ih.1 k c t) (fun k c t _ => ih.2 k c t) m (le_refl _) c t
    refine ⟨fun m c t => ?_, hR⟩
    simp only [both] at hR ⊢
    exact normStep_hom (L := m.length) (fun k c t _ => ih.1 k c t) (fun k c t _ => hR k c t) m (le_refl _) c t

/-- Storing into a log instead of a map. -/
def logStore (m : List G) (c : S) (l : List (List G × S)) : List (List G × S) := l ++ [(m, c)]

/-- The sequence of `store_monomial` calls made by `normalize_and_store(m, c, …)`. -/
def emits (m : List G) (c : S) : List (List G × S) := normalize logStore m c []

/-- The sequence of `store_monomial` calls made by `reduce_powers_and_store(m, c, …)`. -/
def emitsR (m : List G) (c : S) : List (List G × S) := reduce logStore m c []

theorem normalize_hom (st : List G → S → T → T) (st' : List G → S → T' → T') (φ : T → T')
    (h : ∀ m c t, st' m c (φ t) = φ (st m c t)) (m : List G) (c : S) (t : T) :
    normalize st' m c (φ t) = φ (normalize st m c t) := (both_hom st st' φ h _).1 m c t

theorem reduce_hom (st : List G → S → T → T) (st' : List G → S → T' → T') (φ : T → T')
    (h : ∀ m c t, st' m c (φ t) = φ (st m c t)) (m : List G) (c : S) (t : T) :
    reduce st' m c (φ t) = φ (reduce st m c t) := (both_hom st st' φ h _).2 m c t

theorem normalize_eq_foldl (st : List G → S → T → T) (m : List G) (c : S) (t : T) :
    normalize st m c t = (emits m c).foldl (fun t p => st p.1 p.2 t) t :=
  normalize_hom logStore st (fun l : List (List G × S) => l.foldl (fun t (p : List G × S) => st p.1 p.2 t) t)
    (by intro m c l; simp [logStore]) m c []

theorem reduce_eq_foldl (st : List G → S → T → T) (m : List G) (c : S) (t : T) :
    reduce st m c t = (emitsR m c).foldl (fun t p => st p.1 p.2 t) t :=
  reduce_hom logStore st (fun l : List (List G × S) => l.foldl (fun t (p : List G × S) => st p.1 p.2 t) t)
    (by intro m c l; simp [logStore]) m c []

theorem foldl_log (l l' : List (List G × S)) : l'.foldl (fun t p => logStore p.1 p.2 t) l = l ++ l' := by
  induction l' generalizing l with
  | nil => simp
  | cons p l' ih => rw [List.foldl_cons, ih]; simp [logStore]

theorem normalize_log (m : List G) (c : S) (l : List (List G × S)) : normalize logStore m c l = l ++ emits m c := by
  rw [normalize_eq_foldl, foldl_log]

theorem reduce_log (m : List G) (c : S) (l : List (List G × S)) : reduce logStore m c l = l ++ emitsR m c := by
  rw [reduce_eq_foldl, foldl_log]

/-- The library's `normalize_and_store` is a sequence of `store_monomial` calls. -/
theorem normalize_store (m : List G) (c : S) (t : Terms G S) :
    normalize Terms.store m c t = Terms.storeAll (emits m c) t := normalize_eq_foldl _ m c t

end LC
