import Verif.Proof.AnyExact
import Verif.Proof.AnyCoeff
import Verif.Proof.ExprLemmas
/-
Exact arithmetic with a tolerance in the zero test: what is stored differs from the exact computation by dropped
negligible contributions.
-/
set_option linter.unusedSectionVars false
set_option linter.unusedSimpArgs false
namespace LC
open Terms

namespace Any
variable {G S T T' : Type _} [GenOps G] [LawfulGen G] [CommRing S] [DecidableEq S] [ConstScalar S] [ScalarOps S]

/-- Outcomes of two passes that agree on everything but the target. -/
inductive PRel (D : T → T' → Prop) : PassRes G S T → PassRes G S T' → Prop
  | done {t t'} : D t t' → PRel D (.done t) (.done t')
  | cont (m c sw) {t t'} : D t t' → PRel D (.cont m c sw t) (.cont m c sw t')

theorem foldl_rel {α : Type _} {D : T → T' → Prop} {f : T → α → T} {g : T' → α → T'} (l : List α) {t : T} {t' : T'}
    (h : ∀ a ∈ l, ∀ t t', D t t' → D (f t a) (g t' a)) (h0 : D t t') : D (l.foldl f t) (l.foldl g t') := by
  induction l generalizing t t' with
  | nil => exact h0
  | cons a l ih =>
    exact ih (fun b hb => h b (List.mem_cons_of_mem _ hb)) (h a (List.mem_cons_self ..) _ _ h0)

section
variable {P : G → Prop} (hN : NFGen P) (he : ExactArith S) {D : T → T' → Prop}
include hN he

theorem processF_rel {N : List G → S → T → T} {N' : List G → S → T' → T'} {L : Nat}
    (h : ∀ m c t t', m.length < L → (∀ g ∈ m, P g) → D t t' → D (N m c t) (N' m c t')) (pre post : List G)
    (hl : pre.length + post.length + 1 < L) (hpre : ∀ g ∈ pre, P g) (hpost : ∀ g ∈ post, P g)
    (f : LinFun G) (hf : ∀ p ∈ f.terms, P p.1) (c : S) {t : T} {t' : T'} (ht : D t t') :
    D (LC.processF N pre post f c t) (processF N' pre post f c t') := by
  simp only [processF, LC.processF, he.mul, he.makeConst]
  apply foldl_rel
  · intro p hp t t' ht
    refine h _ _ _ _ (by simp; omega) ?_ ht
    intro g hg
    simp only [List.mem_append, List.mem_cons] at hg
    rcases hg with hg | hg | hg
    · exact hpre g hg
    · rw [hg]; exact hf p hp
    · exact hpost g hg
  · split
    · exact ht
    · refine h _ _ _ _ (by simp; omega) ?_ ht
      intro g hg
      rcases List.mem_append.1 hg with hg | hg
      · exact hpre g hg
      · exact hpost g hg

theorem pass_rel {N : List G → S → T → T} {N' : List G → S → T' → T'} {L : Nat}
    (h : ∀ m c t t', m.length < L → (∀ g ∈ m, P g) → D t t' → D (N m c t) (N' m c t')) (cnt : Nat) (pre : List G) (x : G)
    (rest : List G) (hl : pre.length + 1 + rest.length ≤ L) (hP : ∀ g ∈ pre ++ x :: rest, P g)
    (c : S) (sw : Bool) {t : T} {t' : T'} (ht : D t t') :
    PRel D (LC.pass N cnt pre x rest c sw t) (pass N' cnt pre x rest c sw t') := by
  induction cnt generalizing pre x rest c sw t t' with
  | zero => exact .cont _ _ _ ht
  | succ cnt ih =>
    cases rest with
    | nil => exact .cont _ _ _ ht
    | cons y rest =>
      simp only [List.length_cons] at hl
      have hx : P x := hP x (by simp)
      have hy : P y := hP y (by simp)
      have hpre : ∀ g ∈ pre, P g := fun g hg => hP g (by simp [hg])
      have hrest : ∀ g ∈ rest, P g := fun g hg => hP g (by simp [hg])
      simp only [pass, LC.pass]
      by_cases hgt : GenOps.gt x y = true
      · rw [if_pos hgt, if_pos hgt]
        have ht' := processF_rel hN he h pre rest (by omega) hpre hrest _ (hN.swap_mem x y hx hy hgt) c ht
        by_cases h0 : (GenOps.swapWith x y).1.eq (.integer 0) = true
        · rw [if_pos h0, if_pos h0]; exact .done ht'
        · rw [if_neg h0, if_neg h0, he.mul, he.makeConst]
          refine ih (pre ++ [y]) x rest (by simp; omega) ?_ _ _ ht'
          intro g hg
          apply hP
          simp only [List.mem_append, List.mem_cons, List.not_mem_nil, or_false] at hg ⊢
          tauto
      · rw [if_neg hgt, if_neg hgt]
        cases hs : GenOps.simplifyProd x y with
        | some f =>
          exact .done (processF_rel hN he h pre rest (by omega) hpre hrest _
            (hN.simp_mem x y f hx hy (by simpa using hgt) hs) c ht)
        | none => exact ih (pre ++ [x]) y rest (by simp; omega) (by simpa using hP) _ _ ht

theorem sortLoop_rel {N : List G → S → T → T} {N' : List G → S → T' → T'} {L : Nat}
    (h : ∀ m c t t', m.length < L → (∀ g ∈ m, P g) → D t t' → D (N m c t) (N' m c t')) (nmax : Nat) (m : List G)
    (hl : m.length ≤ L) (hP : ∀ g ∈ m, P g) (c : S) {t : T} {t' : T'} (ht : D t t') :
    PRel D (LC.sortLoop N nmax m c t) (sortLoop N' nmax m c t') := by
  induction nmax generalizing m c t t' with
  | zero =>
    cases m with
    | nil => unfold LC.sortLoop sortLoop; exact .cont _ _ _ ht
    | cons x rest => simp only [LC.sortLoop, sortLoop, LC.pass, pass]; exact .cont _ _ _ ht
  | succ nmax ih =>
    cases m with
    | nil => unfold LC.sortLoop sortLoop; exact .cont _ _ _ ht
    | cons x rest =>
      have hp := pass_rel hN he h (nmax + 1) [] x rest (by simp at hl ⊢; omega) (by simpa using hP) c false ht
      simp only [LC.sortLoop, sortLoop]
      generalize e1 : LC.pass N (nmax + 1) [] x rest c false t = r1 at hp ⊢
      generalize pass N' (nmax + 1) [] x rest c false t' = r2 at hp ⊢
      cases hp with
      | done hd => exact .done hd
      | cont m' c' sw hd =>
        cases sw with
        | false => exact .cont _ _ _ hd
        | true =>
          refine ih m' ?_ ?_ c' hd
          · have := LC.pass_length _ _ _ _ _ _ _ e1
            rw [this]; simp at hl ⊢; omega
          · have := LC.pass_perm _ _ _ _ _ _ _ e1
            intro g hg
            exact hP g (by simpa using this.mem_iff.1 hg)

/-- The loop that reduces powers either stores the whole monomial or nothing. -/
theorem reduceLoop_rel {st N R : List G → S → T → T} {st' N' R' : List G → S → T' → T'} (c : S) {t : T} {t' : T'}
    (ht : D t t') (hst : ∀ m, D (st m c t) (st' m c t')) (pre run : List G) (x : G) (rest : List G) (hx : P x)
    (hP : ∀ g ∈ rest, P g) :
    D (LC.reduceLoop st N R pre run x rest LinFun.zero c t) (reduceLoop st' N' R' pre run x rest LinFun.zero c t') := by
  induction rest generalizing pre run x with
  | nil => exact hst _
  | cons y rest ih =>
    have hy : P y := hP y (by simp)
    have hr : ∀ g ∈ rest, P g := fun g hg => hP g (by simp [hg])
    simp only [LC.reduceLoop, reduceLoop]
    by_cases e : GenOps.eq y x = true
    · rw [if_pos e, if_pos e]
      by_cases h2 : run.length + 1 > 2
      · rw [if_pos h2, if_pos h2]
        by_cases hv : (GenOps.reducePower x (run.length + 1) LinFun.zero).1 = true
        · rw [if_pos hv, if_pos hv, if_pos (hN.red_vanish x _ hx h2 hv), if_pos (hN.red_vanish x _ hx h2 hv)]
          exact ht
        · rw [if_neg hv, if_neg hv, hN.red_false x _ _ hx h2 (by simpa using hv)]
          exact ih _ _ _ hy hr
      · rw [if_neg h2, if_neg h2]; exact ih _ _ _ hy hr
    · rw [if_neg e, if_neg e]; exact ih _ _ _ hy hr

omit he in
/-- The exact loop, for a coefficient that the other computation has dropped. -/
theorem reduceLoop_drop {st N R : List G → S → T → T} (c : S) {t : T} {t' : T'}
    (ht : D t t') (hst : ∀ m, D (st m c t) t') (pre run : List G) (x : G) (rest : List G) (hx : P x)
    (hP : ∀ g ∈ rest, P g) :
    D (LC.reduceLoop st N R pre run x rest LinFun.zero c t) t' := by
  induction rest generalizing pre run x with
  | nil => exact hst _
  | cons y rest ih =>
    have hy : P y := hP y (by simp)
    have hr : ∀ g ∈ rest, P g := fun g hg => hP g (by simp [hg])
    simp only [LC.reduceLoop]
    by_cases e : GenOps.eq y x = true
    · rw [if_pos e]
      by_cases h2 : run.length + 1 > 2
      · rw [if_pos h2]
        by_cases hv : (GenOps.reducePower x (run.length + 1) LinFun.zero).1 = true
        · rw [if_pos hv, if_pos (hN.red_vanish x _ hx h2 hv)]
          exact ht
        · rw [if_neg hv, hN.red_false x _ _ hx h2 (by simpa using hv)]
          exact ih _ _ _ hy hr
      · rw [if_neg h2]; exact ih _ _ _ hy hr
    · rw [if_neg e]; exact ih _ _ _ hy hr

theorem normalize_rel (h0 : ScalarOps.isZero (0 : S) = true) (st : List G → S → T → T) (st' : List G → S → T' → T')
    (hst : ∀ m c t t', D t t' → D (st m c t) (st' m c t'))
    (hdrop : ∀ m c t t', ScalarOps.isZero c = true → D t t' → D (st m c t) t') (L : Nat) :
    ∀ (m : List G) (c : S) (t : T) (t' : T'), m.length < L → (∀ g ∈ m, P g) → D t t' →
      D (LC.normalize st m c t) (normalize st' m c t') := by
  have hR : ∀ (m : List G) (c : S) (t : T) (t' : T'), (∀ g ∈ m, P g) → D t t' →
      D (LC.reduce st m c t) (reduce st' m c t') := by
    intro m c t t' hP ht
    rw [LC.reduce_eq, reduce_eq]
    cases m with
    | nil => exact hst _ _ _ _ ht
    | cons x rest =>
      exact reduceLoop_rel hN he c ht (fun m => hst m c t t' ht) _ _ _ _ (hP x (by simp)) (fun g hg => hP g (by simp [hg]))
  have hR0 : ∀ (m : List G) (c : S) (t : T) (t' : T'), (∀ g ∈ m, P g) → ScalarOps.isZero c = true → D t t' →
      D (LC.reduce st m c t) t' := by
    intro m c t t' hP hc ht
    rw [LC.reduce_eq]
    cases m with
    | nil => exact hdrop _ _ _ _ hc ht
    | cons x rest =>
      exact reduceLoop_drop hN c ht (fun m => hdrop m c t t' hc ht) _ _ _ _ (hP x (by simp))
        (fun g hg => hP g (by simp [hg]))
  induction L with
  | zero => intro m c t t' h; omega
  | succ L ih =>
    intro m c t t' hl hP ht
    rw [LC.normalize_eq, normalize_eq]
    simp only [LC.normStep, normStep]
    by_cases h2 : 2 ≤ m.length
    · rw [if_pos h2, if_pos h2]
      have hp := sortLoop_rel hN he ih (m.length - 1) m (by omega) hP c ht
      generalize e1 : LC.sortLoop (LC.normalize st) (m.length - 1) m c t = r1 at hp ⊢
      generalize sortLoop (normalize st') (m.length - 1) m c t' = r2 at hp ⊢
      cases hp with
      | done hd => exact hd
      | cont m' c' sw hd =>
        have hP' : ∀ g ∈ m', P g := fun g hg => hP g ((LC.sortLoop_perm _ _ _ _ e1).mem_iff.1 hg)
        simp only
        by_cases hc : c' = 0
        · subst hc
          rw [if_pos rfl, if_pos h0]; exact hd
        · rw [if_neg hc]
          by_cases hz : ScalarOps.isZero c' = true
          · rw [if_pos hz]; exact hR0 _ _ _ _ hP' hz hd
          · rw [if_neg hz]; exact hR _ _ _ _ hP' hd
    · rw [if_neg h2, if_neg h2]; exact hR _ _ _ _ hP ht

end

/-- `l'` is `l` without some negligible entries. -/
inductive Dropped : List (List G × S) → List (List G × S) → Prop
  | nil : Dropped [] []
  | keep (p) {l l'} : Dropped l l' → Dropped (p :: l) (p :: l')
  | drop (p) {l l'} : ScalarOps.isZero p.2 = true → Dropped l l' → Dropped (p :: l) l'

theorem Dropped.append {l l' m m' : List (List G × S)} (h : Dropped l l') (h' : Dropped m m') :
    Dropped (l ++ m) (l' ++ m') := by
  induction h with
  | nil => exact h'
  | keep p _ ih => exact .keep p ih
  | drop p hp _ ih => exact .drop p hp ih

theorem emits_dropped {P : G → Prop} (hN : NFGen P) (he : ExactArith S) (h0 : ScalarOps.isZero (0 : S) = true)
    (m : List G) (c : S) (hP : ∀ g ∈ m, P g) : Dropped (LC.emits m c) (emits m c) := by
  refine normalize_rel hN he (D := Dropped) h0 LC.logStore logStore ?_ ?_ (m.length + 1) m c [] [] (by omega) hP .nil
  · intro m c t t' ht
    exact ht.append (.keep _ .nil)
  · intro m c t t' hc ht
    have := ht.append (m := [(m, c)]) (.drop _ hc .nil)
    rw [List.append_nil] at this
    exact this

theorem mulLog_dropped {P : G → Prop} (hN : NFGen P) (he : ExactArith S) (h0 : ScalarOps.isZero (0 : S) = true)
    (a b : Terms G S) (ha : ∀ p ∈ a, ∀ g ∈ p.1, P g) (hb : ∀ p ∈ b, ∀ g ∈ p.1, P g) :
    Dropped (Expr.mulLog a b) (mulLog a b) := by
  simp only [Expr.mulLog, mulLog, he.mul]
  induction a with
  | nil => exact .nil
  | cons p a ih =>
    rw [List.flatMap_cons, List.flatMap_cons]
    refine Dropped.append ?_ (ih fun q hq => ha q (by simp [hq]))
    have hp := ha p (by simp)
    clear ih ha
    induction b with
    | nil => exact .nil
    | cons q b ih =>
      rw [List.flatMap_cons, List.flatMap_cons]
      refine Dropped.append (emits_dropped hN he h0 _ _ ?_) (ih fun r hr => hb r (by simp [hr]))
      intro g hg
      rcases List.mem_append.1 hg with h | h
      · exact hp g h
      · exact hb q (by simp) g h

/-! ### Error bounds -/

open Classical in
/-- Number of entries with the key `k`. -/
noncomputable def countAt (l : List (List G × S)) (k : List G) : Nat := l.countP fun p => decide (p.1 = k)

section
variable {ν : S → ℝ} {ε : ℝ} (h : ExactUpTo S ν ε)
include h

theorem ExactUpTo.eps_nonneg : 0 ≤ ε := by have := h.small 0 h.isZero_zero; rwa [h.size_zero] at this

open Classical in
theorem coeff_store_err {t : Terms G S} (hs : t.Sorted) (k l : List G) (c : S) :
    ν ((store k c t).coeff l - (t.coeff l + if l = k then c else 0)) ≤ if k = l then ε else 0 := by
  rw [store_upd]
  simp only [Terms.coeff]
  rw [find?_upd hs]
  by_cases e : l = k
  · subst e
    simp only [if_pos]
    cases t.find? l with
    | none => simp [updOpt, h.size_zero, ExactUpTo.eps_nonneg h]
    | some v =>
      simp only [updOpt, plus, h.add, Option.getD_some]
      by_cases hz : ScalarOps.isZero (v + c) = true
      · rw [if_pos hz]
        simp only [Option.getD_none, zero_sub]
        rw [h.size_neg]; exact h.small _ hz
      · rw [if_neg hz]
        simp [h.size_zero, ExactUpTo.eps_nonneg h]
  · simp [e, Ne.symm e, h.size_zero]

open Classical in
theorem coeff_storeAll_err {l l' : List (List G × S)} (hd : Dropped l l') {t : Terms G S} (hs : t.Sorted) (k : List G) :
    ν ((storeAll l' t).coeff k - (t.coeff k + sumAt l k)) ≤ ε * countAt l k := by
  induction hd generalizing t with
  | nil => simp [storeAll, h.size_zero, countAt]
  | keep p hd ih =>
    rename_i l l'
    have hs' : (store p.1 p.2 t).Sorted := by rw [store_upd]; exact sorted_upd hs _ _ _
    have h1 := ih hs'
    have h2 := coeff_store_err h hs p.1 k p.2
    rw [sumAt_cons]
    simp only [storeAll, List.foldl_cons] at h1 ⊢
    have : (List.foldl (fun t p => store p.1 p.2 t) (store p.1 p.2 t) l').coeff k
        - (t.coeff k + ((if k = p.1 then p.2 else 0) + sumAt l k))
        = ((List.foldl (fun t p => store p.1 p.2 t) (store p.1 p.2 t) l').coeff k
            - ((store p.1 p.2 t).coeff k + sumAt l k))
          + ((store p.1 p.2 t).coeff k - (t.coeff k + if k = p.1 then p.2 else 0)) := by ring
    rw [this]
    refine le_trans (h.size_add _ _) (le_trans (add_le_add h1 h2) ?_)
    simp only [countAt, List.countP_cons]
    by_cases e : p.1 = k
    · simp [e]; ring_nf; exact le_refl _
    · simp [e]
  | drop p hp hd ih =>
    rename_i l l'
    have h1 := ih hs
    rw [sumAt_cons]
    by_cases e : p.1 = k
    · have : (storeAll l' t).coeff k - (t.coeff k + ((if k = p.1 then p.2 else 0) + sumAt l k))
          = ((storeAll l' t).coeff k - (t.coeff k + sumAt l k)) + (- p.2) := by simp [e]; ring
      rw [this]
      refine le_trans (h.size_add _ _) ?_
      rw [h.size_neg]
      refine le_trans (add_le_add h1 (h.small _ hp)) ?_
      simp only [countAt, List.countP_cons, e]
      simp; ring_nf; exact le_refl _
    · have e' : ¬ k = p.1 := fun h => e h.symm
      simp only [countAt, List.countP_cons]
      simp only [e', if_false, zero_add, e, decide_false, Bool.false_eq_true, add_zero]
      exact h1

end
end Any
end LC
