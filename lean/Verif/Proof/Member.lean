import Verif.Proof.Hom
import Verif.Proof.Charge
/-
Normalisation of a product of generators from a set closed under the relations gives products of generators from the set.
Unlike `NFGen`, this needs no assumption about canonical forms, so it holds for every user-defined algebra.
-/
set_option linter.unusedSectionVars false
set_option linter.unusedVariables false
namespace LC
open Terms

section
variable {G S T : Type _} [GenOps G] [CommRing S] [DecidableEq S] [ConstScalar S]

/-- A set of generators closed under the relations. -/
structure ClosedGen (P : G → Prop) : Prop where
  swap_mem : ∀ g₁ g₂ : G, P g₁ → P g₂ → GenOps.gt g₁ g₂ = true → ∀ p ∈ (GenOps.swapWith g₁ g₂).2.terms, P p.1
  simp_mem : ∀ (g₁ g₂ : G) (f : LinFun G), P g₁ → P g₂ → GenOps.gt g₁ g₂ = false →
    GenOps.simplifyProd g₁ g₂ = some f → ∀ p ∈ f.terms, P p.1
  red_false : ∀ (g : G) (p : Nat) (f : LinFun G), P g → 2 < p → (GenOps.reducePower g p f).1 = false →
    (GenOps.reducePower g p f).2 = f
  red_mem : ∀ (g : G) (p : Nat), P g → 2 < p → (GenOps.reducePower g p LinFun.zero).1 = true →
    ∀ q ∈ (GenOps.reducePower g p LinFun.zero).2.terms, P q.1

theorem closedGen_true (h : ∀ (g : G) (p : Nat) (f : LinFun G), 2 < p → (GenOps.reducePower g p f).1 = false →
    (GenOps.reducePower g p f).2 = f) : ClosedGen (fun _ : G => True) :=
  ⟨fun _ _ _ _ _ _ _ => trivial, fun _ _ _ _ _ _ _ _ _ => trivial, fun g p f _ hp => h g p f hp, fun _ _ _ _ _ _ _ => trivial⟩

theorem _root_.LC.Represents.closed {A : Type _} [Ring A] [Algebra S A] {P : G → Prop} {ρ : G → A} (h : Represents S P ρ) :
    ClosedGen P := ⟨h.swap_mem, h.simp_mem, h.red_false, h.red_mem⟩

variable {P : G → Prop} (hC : ClosedGen P) {I : T → Prop}

theorem processF_mem {N : List G → S → T → T} (L : Nat)
    (h : ∀ m c t, m.length < L → (∀ g ∈ m, P g) → I t → I (N m c t)) (pre post : List G) (hl : pre.length + post.length + 1 < L)
    (f : LinFun G) (hpre : ∀ g ∈ pre, P g) (hpost : ∀ g ∈ post, P g) (hf : ∀ p ∈ f.terms, P p.1) (c : S) (t : T)
    (ht : I t) : I (processF N pre post f c t) := by
  have hcons : ∀ g', P g' → ∀ g ∈ pre ++ g' :: post, P g := fun g' hg' g hg => by
    simp only [List.mem_append, List.mem_cons] at hg
    rcases hg with hg | rfl | hg
    · exact hpre g hg
    · exact hg'
    · exact hpost g hg
  have happ : ∀ g ∈ pre ++ post, P g := fun g hg => by
    simp only [List.mem_append] at hg
    rcases hg with hg | hg
    · exact hpre g hg
    · exact hpost g hg
  have key : ∀ (l : List (G × VarNumber)) (t : T), (∀ p ∈ l, P p.1) → I t →
      I (l.foldl (fun t gv => N (pre ++ gv.1 :: post) (c * ConstScalar.makeConst gv.2) t) t) := by
    intro l
    induction l with
    | nil => intro t _ ht; exact ht
    | cons p l ih =>
      intro t hl' ht
      exact ih _ (fun q hq => hl' q (by simp [hq]))
        (h _ _ _ (by simp; omega) (hcons _ (hl' p (by simp))) ht)
  simp only [processF]
  refine key _ _ hf ?_
  split
  · exact ht
  · exact h _ _ _ (by simp; omega) happ ht

include hC in
theorem pass_mem {N : List G → S → T → T} (L : Nat) (h : ∀ m c t, m.length < L → (∀ g ∈ m, P g) → I t → I (N m c t))
    (cnt : Nat) (pre : List G) (x : G) (rest : List G) (hl : pre.length + 1 + rest.length ≤ L) (hP : ∀ g ∈ pre ++ x :: rest, P g) (c : S)
    (sw : Bool) (t : T) (ht : I t) : I (pass N cnt pre x rest c sw t).out := by
  induction cnt generalizing pre x rest c sw t with
  | zero => simpa [pass, PassRes.out] using ht
  | succ cnt ih =>
    cases rest with
    | nil => simpa [pass, PassRes.out] using ht
    | cons y rest =>
      simp only [List.length_cons] at hl
      have hx : P x := hP x (by simp)
      have hy : P y := hP y (by simp)
      have hpre : ∀ g ∈ pre, P g := fun g hg => hP g (by simp [hg])
      have hrest : ∀ g ∈ rest, P g := fun g hg => hP g (by simp [hg])
      simp only [pass]
      split
      · rename_i hgt
        have h1 : I (processF N pre rest (GenOps.swapWith x y).2 c t) := processF_mem L h pre rest (by omega) _ hpre hrest
          (hC.swap_mem x y hx hy hgt) c t ht
        split
        · exact h1
        · refine ih _ _ _ (by simp; omega) (fun g hg => hP g ?_) _ _ _ h1
          simp only [List.mem_append, List.mem_cons] at hg ⊢; tauto
      · rename_i hgt
        have hgt : GenOps.gt x y = false := by simpa using hgt
        split
        · rename_i f hf
          exact processF_mem L h pre rest (by omega) _ hpre hrest (hC.simp_mem x y f hx hy hgt hf) c t ht
        · exact ih _ _ _ (by simp; omega) (by simpa using hP) _ _ _ ht

include hC in
theorem sortLoop_mem {N : List G → S → T → T} (L : Nat) (h : ∀ m c t, m.length < L → (∀ g ∈ m, P g) → I t → I (N m c t))
    (nmax : Nat) (m : List G) (hl : m.length ≤ L) (hm : ∀ g ∈ m, P g) (c : S) (t : T) (ht : I t) :
    I (sortLoop N nmax m c t).out := by
  induction nmax generalizing m c t with
  | zero =>
    cases m with
    | nil => simpa [sortLoop, PassRes.out] using ht
    | cons x rest =>
      have h1 := pass_mem hC L h 0 [] x rest (by simp at hl ⊢; omega) (by simpa using hm) c false t ht
      simp only [sortLoop]
      cases hp : pass N 0 [] x rest c false t with
      | done t' => rw [hp] at h1; exact h1
      | cont m' c' sw t' => rw [hp] at h1; cases sw <;> exact h1
  | succ nmax ih =>
    cases m with
    | nil => simpa [sortLoop, PassRes.out] using ht
    | cons x rest =>
      have h1 := pass_mem hC L h (nmax + 1) [] x rest (by simp at hl ⊢; omega) (by simpa using hm) c false t ht
      simp only [sortLoop]
      cases hp : pass N (nmax + 1) [] x rest c false t with
      | done t' => rw [hp] at h1; exact h1
      | cont m' c' sw t' =>
        rw [hp] at h1
        cases sw
        · exact h1
        · have hperm := pass_perm _ _ _ _ _ _ _ hp
          refine ih _ ?_ (fun g hg => hm g (by simpa using hperm.mem_iff.1 hg)) _ _ h1
          rw [pass_length _ _ _ _ _ _ _ hp]; simp at hl ⊢; omega

include hC in
theorem reduceLoop_mem {st N R : List G → S → T → T} (L : Nat) (hst : ∀ m c t, (∀ g ∈ m, P g) → I t → I (st m c t))
    (hN : ∀ m c t, m.length < L → (∀ g ∈ m, P g) → I t → I (N m c t))
    (hR : ∀ m c t, m.length < L → (∀ g ∈ m, P g) → I t → I (R m c t)) (c : S) (t : T) (ht : I t)
    (pre run : List G) (x : G) (rest : List G) (hrun : 0 < run.length) (hl : pre.length + run.length + rest.length ≤ L)
    (hx : P x) (hm : ∀ g ∈ pre ++ run ++ rest, P g) :
    I (reduceLoop st N R pre run x rest LinFun.zero c t) := by
  induction rest generalizing pre run x with
  | nil =>
    simp only [reduceLoop]
    exact hst _ _ _ (by simpa using hm) ht
  | cons y rest ih =>
    simp only [List.length_cons] at hl
    have hy : P y := hm y (by simp)
    have hpr : ∀ g ∈ pre ++ rest, P g := fun g hg => hm g (by
      simp only [List.mem_append, List.mem_cons] at hg ⊢; tauto)
    have hone : ∀ g', P g' → ∀ g ∈ pre ++ g' :: rest, P g := fun g' hg' g hg => by
      simp only [List.mem_append, List.mem_cons] at hg
      rcases hg with hg | rfl | hg
      · exact hm g (by simp [hg])
      · exact hg'
      · exact hm g (by simp [hg])
    simp only [reduceLoop]
    split
    · split
      · rename_i hlen
        split
        · rename_i hr
          split
          · exact ht
          · have hmem := hC.red_mem x _ hx hlen hr
            have key : ∀ (l : List (G × VarNumber)) (t : T), (∀ p ∈ l, P p.1) → I t →
                I (l.foldl (fun t gv =>
                  let v : S := ConstScalar.makeConst gv.2
                  if v = 0 then t else N (pre ++ gv.1 :: rest) (c * v) t) t) := by
              intro l
              induction l with
              | nil => intro t _ ht; exact ht
              | cons p l ihl =>
                intro t hl' ht
                refine ihl _ (fun q hq => hl' q (by simp [hq])) ?_
                simp only
                split
                · exact ht
                · exact hN _ _ _ (by simp; omega) (hone _ (hl' p (by simp))) ht
            refine key _ _ hmem ?_
            split
            · exact ht
            · exact hR _ _ _ (by simp; omega) hpr ht
        · rename_i hr
          rw [hC.red_false x _ _ hx hlen (by simpa using hr)]
          exact ih pre _ y (by simp) (by simp; omega) hy (by simpa using hm)
      · exact ih pre _ y (by simp) (by simp; omega) hy (by simpa using hm)
    · exact ih (pre ++ run) [y] y (by simp) (by simp; omega) hy (by simpa using hm)

include hC in
theorem both_mem (st : List G → S → T → T) (hst : ∀ m c t, (∀ g ∈ m, P g) → I t → I (st m c t)) (L : Nat) :
    ∀ (m : List G) (c : S) (t : T), m.length < L → (∀ g ∈ m, P g) → I t →
      I (normalize st m c t) ∧ I (reduce st m c t) := by
  induction L with
  | zero => intro m c t h; omega
  | succ L ih =>
    have hR : ∀ (m : List G) (c : S) (t : T), m.length < L + 1 → (∀ g ∈ m, P g) → I t → I (reduce st m c t) := by
      intro m c t hl hm ht
      rw [reduce_eq]
      cases m with
      | nil => exact hst _ _ _ hm ht
      | cons x rest =>
        simp only [reduceStep]
        exact reduceLoop_mem hC L hst (fun m c t h h' h'' => (ih m c t h h' h'').1) (fun m c t h h' h'' => (ih m c t h h' h'').2)
          c t ht [] [x] x rest (by simp) (by simp at hl ⊢; omega) (hm x (by simp)) (by simpa using hm)
    intro m c t hl hm ht
    refine ⟨?_, hR m c t hl hm ht⟩
    rw [normalize_eq]
    simp only [normStep]
    split
    · have := sortLoop_mem hC L (fun m c t h h' h'' => (ih m c t h h' h'').1) (m.length - 1) m (by omega) hm c t ht
      cases hp : sortLoop (normalize st) (m.length - 1) m c t with
      | done t' => rw [hp] at this; exact this
      | cont m' c' sw t' =>
        rw [hp] at this
        simp only
        split
        · exact this
        · have hperm := sortLoop_perm _ _ _ _ hp
          exact hR _ _ _ (by rw [hperm.length_eq]; exact hl) (fun g hg => hm g (hperm.mem_iff.1 hg)) this
    · exact hR _ _ _ hl hm ht

include hC in
theorem emits_mem (m : List G) (hm : ∀ g ∈ m, P g) (c : S) : ∀ p ∈ emits m c, ∀ g ∈ p.1, P g :=
  (both_mem hC (I := fun l : List (List G × S) => ∀ p ∈ l, ∀ g ∈ p.1, P g) logStore (by
    intro m c t hc ht p hp
    rcases List.mem_append.1 hp with h | h
    · exact ht p h
    · rw [List.mem_singleton.1 h]; exact hc) (m.length + 1) m c [] (by omega) hm (by simp)).1

namespace Expr
variable [LawfulGen G] [ScalarLaws S]

include hC in
theorem inP_ofMonomial (x : S) (m : List G) (hm : ∀ g ∈ m, P g) : (ofMonomial x m : Expr G S).InP P := by
  intro p hp
  simp only [ofMonomial] at hp
  split at hp
  · simp at hp
  · rw [normalize_store] at hp
    rcases mem_storeAll hp with h' | ⟨q, hq, h'⟩
    · simp at h'
    · rw [← h']; exact emits_mem hC m hm x q hq

theorem inP_const (x : S) : (const x : Expr G S).InP P := by
  intro p hp
  simp only [const] at hp
  split at hp
  · simp at hp
  · simp at hp; subst hp; simp

theorem inP_add {a b : Expr G S} (ha : a.InP P) (hb : b.InP P) : (a + b).InP P := by
  intro p hp
  have hp : p ∈ (addAssign a b).terms := hp
  rw [show (addAssign a b).terms = storeAll b.terms a.terms from rfl] at hp
  rcases mem_storeAll hp with h' | ⟨q, hq, h'⟩
  · exact ha p h'
  · rw [← h']; exact hb q hq

include hC in
theorem inP_mul {a b : Expr G S} (ha : a.InP P) (hb : b.InP P) : (a * b).InP P := by
  intro p hp
  rw [mul_def] at hp
  rcases mem_storeAll hp with h' | ⟨q, hq, h'⟩
  · simp at h'
  · rw [← h']
    simp only [mulLog, List.mem_flatMap] at hq
    obtain ⟨u, hu, v, hv, hq⟩ := hq
    refine emits_mem hC _ ?_ _ q hq
    intro g hg
    rcases List.mem_append.1 hg with h | h
    · exact ha u hu g h
    · exact hb v hv g h

end Expr
end
end LC
