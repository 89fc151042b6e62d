import Verif.Proof.AnyNormalize
import Verif.Proof.Canonical
/-
Everything stored by normalisation is in canonical form, for any scalar type.
-/
set_option linter.unusedSectionVars false
set_option linter.unusedSimpArgs false
namespace LC.Any
variable {G S T : Type _} [GenOps G] [LawfulGen G] [ScalarOps S]

/-- Outcome of a pass over `A` (of length `cnt+1+|pre|`) followed by `B`. -/
def PassPost (I : T → Prop) (L : Nat) (B : List G) : PassRes G S T → Prop
  | .done t => I t
  | .cont m' _ sw t => I t ∧ ∃ A' x, m' = A' ++ x :: B ∧ A'.length = L ∧ PassInv A' x ∧
      (sw = false → (A' ++ [x]).IsChain OKPair)

section
variable {P : G → Prop} (hN : NFGen P) {I : T → Prop}
include hN

theorem processF_canon {N : List G → S → T → T} {L : Nat}
    (h : ∀ m c t, m.length < L → (∀ g ∈ m, P g) → I t → I (N m c t)) (pre post : List G)
    (hl : pre.length + post.length + 1 < L) (hpre : ∀ g ∈ pre, P g) (hpost : ∀ g ∈ post, P g)
    (f : LinFun G) (hf : ∀ p ∈ f.terms, P p.1) (c : S) (t : T) (ht : I t) :
    I (processF N pre post f c t) := by
  simp only [processF]
  apply foldl_inv
  · intro p hp t ht
    refine h _ _ _ (by simp; omega) ?_ ht
    intro g hg
    simp only [List.mem_append, List.mem_cons] at hg
    rcases hg with hg | hg | hg
    · exact hpre g hg
    · rw [hg]; exact hf p hp
    · exact hpost g hg
  · split
    · exact ht
    · refine h _ _ _ (by simp; omega) ?_ ht
      intro g hg
      rcases List.mem_append.1 hg with hg | hg
      · exact hpre g hg
      · exact hpost g hg

theorem pass_canon {N : List G → S → T → T} {L : Nat}
    (h : ∀ m c t, m.length < L → (∀ g ∈ m, P g) → I t → I (N m c t)) (pre : List G) (x : G) (rest B : List G)
    (hl : pre.length + 1 + (rest ++ B).length ≤ L) (hP : ∀ g ∈ pre ++ x :: (rest ++ B), P g)
    (c : S) (sw : Bool) (t : T) (ht : I t) (hinv : PassInv pre x)
    (hsw : sw = false → (pre ++ [x]).IsChain OKPair) :
    PassPost I (pre.length + rest.length) B (pass N rest.length pre x (rest ++ B) c sw t) := by
  induction rest generalizing pre x c sw t with
  | nil =>
    simp only [List.length_nil, List.nil_append, pass, PassPost]
    exact ⟨ht, pre, x, rfl, by simp, hinv, hsw⟩
  | cons y rest ih =>
    simp only [List.length_cons, List.cons_append] at hl hP ⊢
    have hx : P x := hP x (by simp)
    have hy : P y := hP y (by simp)
    have hpre : ∀ g ∈ pre, P g := fun g hg => hP g (by simp [hg])
    have hrest : ∀ g ∈ rest ++ B, P g := fun g hg => hP g (by
      simp only [List.mem_append, List.mem_cons] at hg ⊢; tauto)
    simp only [pass]
    split
    · rename_i hgt
      have ht' := processF_canon hN h pre (rest ++ B) (by omega) hpre hrest _ (hN.swap_mem x y hx hy hgt) c t ht
      split
      · exact ht'
      · rename_i h0
        have := ih (pre ++ [y]) x (by simp only [List.length_append, List.length_singleton] at hl ⊢; omega) (by
            intro g hg
            apply hP
            simp only [List.mem_append, List.mem_cons, List.not_mem_nil, or_false] at hg ⊢
            tauto) (ScalarOps.mul c (ScalarOps.makeConst (GenOps.swapWith x y).1)) true _ ht'
          (passInv_swap hN hx hy hinv hgt (by simpa using h0)) (by simp)
        simp only [List.length_append, List.length_singleton] at this
        rw [show pre.length + (rest.length + 1) = pre.length + 1 + rest.length by omega]
        exact this
    · rename_i hgt
      have hgt : GenOps.gt x y = false := by simpa using hgt
      split
      · rename_i f hf
        exact processF_canon hN h pre (rest ++ B) (by omega) hpre hrest _ (hN.simp_mem x y f hx hy hgt hf) c t ht
      · rename_i hf
        have hok : OKPair x y := ⟨hgt, hf⟩
        have := ih (pre ++ [x]) y (by simp only [List.length_append, List.length_singleton] at hl ⊢; omega)
          (by simpa using hP) c sw t ht (passInv_keep hinv hok) (by
            intro hs
            have := hsw hs
            rw [List.isChain_append] at this ⊢
            refine ⟨hsw hs, by simp, ?_⟩
            intro a ha b hb
            simp at ha hb
            subst ha hb; exact hok)
        simp only [List.length_append, List.length_singleton] at this
        rw [show pre.length + (rest.length + 1) = pre.length + 1 + rest.length by omega]
        exact this

/-- Outcome of the sorting loop. -/
def SortPost (I : T → Prop) : PassRes G S T → Prop
  | .done t => I t
  | .cont m' _ _ t => I t ∧ m'.IsChain OKPair

theorem sortLoop_canon {N : List G → S → T → T} {L : Nat}
    (h : ∀ m c t, m.length < L → (∀ g ∈ m, P g) → I t → I (N m c t)) (nmax : Nat) (A B : List G)
    (hA : A.length = nmax + 1) (hl : (A ++ B).length ≤ L) (hP : ∀ g ∈ A ++ B, P g) (hs : SortInv A B)
    (c : S) (t : T) (ht : I t) : SortPost I (sortLoop N nmax (A ++ B) c t) := by
  induction nmax generalizing A B c t with
  | zero =>
    cases A with
    | nil => simp at hA
    | cons x rest =>
      simp at hA; subst hA
      simp only [List.cons_append, List.nil_append, sortLoop, pass, SortPost]
      exact ⟨ht, sortPost_finish (A' := []) hs ⟨by simp, by simp⟩ (by simp)⟩
  | succ nmax ih =>
    cases A with
    | nil => simp at hA
    | cons x rest =>
      have hrl : rest.length = nmax + 1 := by simpa using hA
      simp only [List.cons_append, sortLoop]
      have hp := pass_canon hN h [] x rest B (by simp at hl ⊢; omega) (by simpa using hP) c false t ht
        ⟨by simp, by simp⟩ (by simp)
      rw [hrl] at hp
      cases hpass : pass N (nmax + 1) [] x (rest ++ B) c false t with
      | done t' => rw [hpass] at hp; exact hp
      | cont m' c' sw t' =>
        rw [hpass] at hp
        obtain ⟨ht', A', y, rfl, hlen, hinv, hch⟩ := hp
        have hperm : (A' ++ [y]).Perm (x :: rest) := by
          have := pass_perm _ _ _ _ _ _ _ hpass
          have e1 : A' ++ y :: B = (A' ++ [y]) ++ B := by simp
          have e2 : [] ++ x :: (rest ++ B) = (x :: rest) ++ B := by simp
          rw [e1, e2] at this
          exact (List.perm_append_right_iff B).1 this
        have hs' := sortInv_perm hperm hs
        cases sw with
        | false => exact ⟨ht', sortPost_finish hs' hinv (hch rfl)⟩
        | true =>
          refine ih A' (y :: B) (by simp at hlen; omega) ?_ ?_ (sortInv_next hs' hinv) c' t' ht'
          · have := pass_length _ _ _ _ _ _ _ hpass
            rw [this]; simp at hl ⊢; omega
          · have := pass_perm _ _ _ _ _ _ _ hpass
            intro g hg
            exact hP g (by simpa using this.mem_iff.1 hg)

open Classical in
theorem reduceLoop_canon {st N R : List G → S → T → T}
    (c : S) (t : T) (ht : I t) (m : List G) (hP : ∀ g ∈ m, P g) (hch : m.IsChain OKPair)
    (hst : CanonMon P m → I (st m c t))
    (pre : List G) (n : Nat) (x : G) (rest : List G)
    (hm : m = pre ++ List.replicate (n + 1) x ++ rest)
    (hpre : ∀ g ∈ pre, g ≠ x ∧ ∀ p, 2 < p → p ≤ pre.countP (GenOps.eq g) →
      (GenOps.reducePower g p LinFun.zero).1 = false)
    (hrun : ∀ p, 2 < p → p ≤ n + 1 → (GenOps.reducePower x p LinFun.zero).1 = false) :
    I (reduceLoop st N R pre (List.replicate (n + 1) x) x rest LinFun.zero c t) := by
  have eqr : ∀ a : G, GenOps.eq a a = true := fun a => (LawfulGen.eq_iff a a).2 rfl
  have cnt_rep : ∀ (g y : G) (k : Nat), (List.replicate k y).countP (GenOps.eq g) = if g = y then k else 0 := by
    intro g y k
    rw [List.countP_replicate]
    simp only [LawfulGen.eq_iff]
  have cnt_zero : ∀ (l : List G) (g : G), g ∉ l → l.countP (GenOps.eq g) = 0 := by
    intro l g hg
    rw [List.countP_eq_zero]
    intro a ha h
    rw [LawfulGen.eq_iff] at h
    exact hg (h ▸ ha)
  induction rest generalizing pre n x with
  | nil =>
    simp only [reduceLoop]
    simp only [List.append_nil] at hm
    rw [← hm]
    refine hst ⟨hP, hch, ?_⟩
    intro g hg p hp hpc
    rw [hm, List.countP_append, cnt_rep] at hpc
    rw [hm] at hg
    by_cases hgx : g = x
    · subst hgx
      have : pre.countP (GenOps.eq g) = 0 := cnt_zero _ _ fun hg => (hpre g hg).1 rfl
      rw [this] at hpc
      simp at hpc
      exact hrun p hp hpc
    · simp only [hgx, if_false, add_zero] at hpc
      rcases List.mem_append.1 hg with h | h
      · exact (hpre g h).2 p hp hpc
      · exact absurd (List.eq_of_mem_replicate h) hgx
  | cons y rest ih =>
    simp only [reduceLoop]
    split
    · rename_i hy
      have hy := (LawfulGen.eq_iff _ _).1 hy
      subst hy
      have hPy : P y := hP y (by rw [hm]; simp)
      have e1 : List.replicate (n + 1) y ++ [y] = List.replicate (n + 1 + 1) y := (List.replicate_succ' ..).symm
      have hm' : m = pre ++ List.replicate (n + 1 + 1) y ++ rest := by rw [hm, ← e1]; simp
      split
      · rename_i hlen
        simp only [List.length_replicate] at hlen ⊢
        split
        · rename_i hr
          rw [if_pos (hN.red_vanish y _ hPy hlen hr)]
          exact ht
        · rename_i hr
          have hr : (GenOps.reducePower y (n + 1 + 1) LinFun.zero).1 = false := by simpa using hr
          rw [hN.red_false y _ _ hPy hlen hr, e1]
          refine ih pre (n + 1) y hm' hpre ?_
          intro p hp hpn
          by_cases h : p = n + 1 + 1
          · subst h; exact hr
          · exact hrun p hp (by omega)
      · rename_i hlen
        simp only [List.length_replicate] at hlen
        rw [e1]
        refine ih pre (n + 1) y hm' hpre ?_
        intro p hp hpn
        omega
    · rename_i hy
      have hyx : y ≠ x := fun h => hy (by rw [h]; exact eqr x)
      have hm' : m = (pre ++ List.replicate (n + 1) x) ++ List.replicate (0 + 1) y ++ rest := by rw [hm]; simp
      have hpw := pairwise_of_chain hch
      refine ih (pre ++ List.replicate (n + 1) x) 0 y hm' ?_ (by omega)
      intro g hg
      have hxy : GenOps.gt x y = false := by
        rw [hm, List.pairwise_append] at hpw
        exact hpw.2.2 x (by simp) y (by simp)
      have hle : GenOps.gt g x = false := by
        rcases List.mem_append.1 hg with h | h
        · rw [hm, List.append_assoc, List.pairwise_append] at hpw
          exact hpw.2.2 g h x (by simp)
        · rw [List.eq_of_mem_replicate h]; exact ngt_refl _
      refine ⟨fun h => ?_, ?_⟩
      · subst h
        exact hyx (ngt_antisymm hle hxy)
      · intro p hp hpc
        rw [List.countP_append, cnt_rep] at hpc
        by_cases hgx : g = x
        · subst hgx
          have : pre.countP (GenOps.eq g) = 0 := cnt_zero _ _ fun hg => (hpre g hg).1 rfl
          rw [this] at hpc
          simp at hpc
          exact hrun p hp hpc
        · simp only [hgx, if_false, add_zero] at hpc
          rcases List.mem_append.1 hg with h | h
          · exact (hpre g h).2 p hp hpc
          · exact absurd (List.eq_of_mem_replicate h) hgx

theorem normalize_canon (st : List G → S → T → T) (hst : ∀ m c t, CanonMon P m → I t → I (st m c t)) (L : Nat) :
    ∀ (m : List G) (c : S) (t : T), m.length < L → (∀ g ∈ m, P g) → I t → I (normalize st m c t) := by
  have hR : ∀ (m : List G) (c : S) (t : T), (∀ g ∈ m, P g) → m.IsChain OKPair → I t → I (reduce st m c t) := by
    intro m c t hP hch ht
    rw [reduce_eq]
    cases m with
    | nil => exact hst _ _ _ ⟨by simp, by simp, by simp⟩ ht
    | cons x rest =>
      have := reduceLoop_canon hN (st := st) (N := normalize st) (R := reduce st) c t ht (x :: rest) hP hch
        (fun hc => hst _ _ _ hc ht) [] 0 x rest (by simp) (by simp) (by intro p; omega)
      simpa [reduceStep] using this
  induction L with
  | zero => intro m c t h; omega
  | succ L ih =>
    intro m c t hl hP ht
    rw [normalize_eq]
    simp only [normStep]
    split
    · have h0 : m = m ++ [] := by simp
      have := sortLoop_canon hN ih (m.length - 1) m [] (by omega) (by simp; omega) (by simpa using hP)
        ⟨by simp, by simp, by simp⟩ c t ht
      rw [← h0] at this
      cases hp : sortLoop (normalize st) (m.length - 1) m c t with
      | done t' => rw [hp] at this; exact this
      | cont m' c' sw t' =>
        rw [hp] at this
        simp only
        split
        · exact this.1
        · exact hR _ _ _ (fun g hg => hP g ((sortLoop_perm _ _ _ _ hp).mem_iff.1 hg)) this.2 this.1
    · refine hR _ _ _ hP ?_ ht
      match m with
      | [] => simp
      | [x] => simp
      | _ :: _ :: _ => rename_i h; simp at h

theorem emits_canon (m : List G) (hP : ∀ g ∈ m, P g) (c : S) : ∀ p ∈ emits m c, CanonMon P p.1 :=
  normalize_canon hN (I := fun l : List (List G × S) => ∀ p ∈ l, CanonMon P p.1) logStore (by
    intro m c t hc ht p hp
    rcases List.mem_append.1 hp with h | h
    · exact ht p h
    · simp at h; rw [h]; exact hc) (m.length + 1) m c [] (by omega) hP (by simp)

end
end LC.Any
