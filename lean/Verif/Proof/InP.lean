import Mathlib.Algebra.Star.BigOperators
import Mathlib.Algebra.Star.Module
import Verif.Proof.Member
/-
Reachable expressions consist of allowed generators; conjugation is the adjoint in `*`-algebras. No canonical forms needed.
-/
set_option linter.unusedSectionVars false
set_option linter.unusedSimpArgs false
set_option linter.unusedVariables false
namespace LC
open Terms
variable {G S A : Type _} [GenOps G] [LawfulGen G] [CommRing S] [DecidableEq S] [ConstScalar S] [ScalarLaws S]
  [Ring A] [Algebra S A] {P : G → Prop} {ρ : G → A}

namespace Expr

theorem inP_zero : (0 : Expr G S).InP P := by intro p hp; cases hp
theorem inP_neg {a : Expr G S} (ha : a.InP P) : (-a).InP P := by
  intro p hp
  simp only [neg_def, List.mem_map] at hp
  obtain ⟨q, hq, rfl⟩ := hp
  exact ha q hq
theorem inP_sub {a b : Expr G S} (ha : a.InP P) (hb : b.InP P) : (a - b).InP P := by
  intro p hp
  rw [sub_def] at hp
  rcases mem_storeAll hp with h' | ⟨q, hq, h'⟩
  · exact ha p h'
  · rw [← h']; exact inP_neg hb q hq
theorem inP_smul (x : S) {a : Expr G S} (ha : a.InP P) : (smulPrefix x a).InP P := by
  intro p hp
  simp only [smulPrefix] at hp
  split at hp
  · simp at hp
  · simp only [List.mem_map] at hp
    obtain ⟨q, hq, rfl⟩ := hp
    exact ha q hq
theorem inP_transform {a : Expr G S} (hw : a.WF) (ha : a.InP P) (f : List G → S → S) : (a.transform f).InP P := by
  intro p hp
  rw [transform_terms hw, List.mem_filterMap] at hp
  obtain ⟨q, hq, h⟩ := hp
  split at h
  · simp at h
  · simp at h; subst h; exact ha q hq

theorem inP_ofLinFun (hN : ClosedGen P) {f : LinFun G} (hf : ∀ p ∈ f.terms, P p.1) : (ofLinFun f : Expr G S).InP P := by
  refine foldl_inv (I := fun e : Expr G S => e.InP P) _ _ ?_ _ ?_
  · intro p hp e he
    simp only
    split
    · exact he
    · refine inP_add he (inP_ofMonomial hN _ _ ?_)
      intro g hg
      simp at hg; subst hg; exact hf p hp
  · intro p hp
    simp only at hp
    split at hp
    · simp at hp
    · simp at hp; subst hp; simp

theorem inP_conj [Star S] (hN : ClosedGen P) (hC : ∀ g, P g → ∀ p ∈ (GenOps.conj g).terms, P p.1) {a : Expr G S}
    (ha : a.InP P) : a.conj.InP P := by
  have : ∀ (l : List (List G × S)) (s : Expr G S × Expr G S), (∀ p ∈ l, ∀ g ∈ p.1, P g) →
      s.1.InP P → s.2.InP P →
      (l.foldl (fun (s : Expr G S × Expr G S) m =>
      let co := star m.2
      let contrib :=
        if co = 0 then s.2
        else m.1.reverse.foldl (fun e g => mulAssign e (ofLinFun (GenOps.conj g))) (const co)
      (addAssign s.1 contrib, contrib)) s).1.InP P := by
    intro l
    induction l with
    | nil => intro s _ h _; exact h
    | cons p l ih =>
      intro s hl h1 h2
      rw [List.foldl_cons]
      have hc : (if star p.2 = 0 then s.2
        else p.1.reverse.foldl (fun e g => mulAssign e (ofLinFun (GenOps.conj g))) (const (star p.2))).InP P := by
        split
        · exact h2
        · refine foldl_inv (I := fun e : Expr G S => e.InP P) _ _ ?_ _ (inP_const _)
          intro g hg e he
          exact inP_mul hN he (inP_ofLinFun hN (hC g (hl p (by simp) g (by simpa using hg))))
      exact ih _ (fun q hq => hl q (by simp [hq])) (inP_add h1 hc) hc
  exact this _ _ ha inP_zero inP_zero

/-- The operator denoted by `conj(e)`, for generator families without canonical forms. -/
theorem eval_conj_closed [StarRing S] (hρ : Represents S P ρ) (hC : ∀ g, P g → ∀ p ∈ (GenOps.conj g).terms, P p.1)
    {a : Expr G S} (ha : a.InP P) (h0 : ∀ p ∈ a.terms, p.2 ≠ 0) :
    evalExpr ρ a.conj = (a.terms.map fun p =>
      star p.2 • (p.1.reverse.map fun g => evalLin S ρ (GenOps.conj g)).prod).sum := by
  have inner : ∀ (l : List G) (e : Expr G S), e.InP P → (∀ g ∈ l, P g) →
      evalExpr ρ (l.foldl (fun e g => mulAssign e (ofLinFun (GenOps.conj g))) e)
        = evalExpr ρ e * (l.map fun g => evalLin S ρ (GenOps.conj g)).prod := by
    intro l
    induction l with
    | nil => intro e he _; simp
    | cons g l ih =>
      intro e he hl
      have hf := hC g (hl g (by simp))
      have hlin : (ofLinFun (GenOps.conj g) : Expr G S).InP P := inP_ofLinFun hρ.closed hf
      have hac : (mulAssign e (ofLinFun (GenOps.conj g))).InP P := inP_mul hρ.closed he hlin
      rw [List.foldl_cons, ih _ hac fun q hq => hl q (by simp [hq])]
      have := eval_mul hρ he hlin
      change evalExpr ρ (mulAssign e _) = _ at this
      rw [this, eval_ofLinFun hρ _ hf]
      simp [mul_assoc]
  have key : ∀ (l : List (List G × S)) (s : Expr G S × Expr G S), (∀ p ∈ l, ∀ g ∈ p.1, P g) → (∀ p ∈ l, p.2 ≠ 0) →
      evalExpr ρ (l.foldl (fun (s : Expr G S × Expr G S) m =>
      let co := star m.2
      let contrib :=
        if co = 0 then s.2
        else m.1.reverse.foldl (fun e g => mulAssign e (ofLinFun (GenOps.conj g))) (const co)
      (addAssign s.1 contrib, contrib)) s).1
      = evalExpr ρ s.1 + (l.map fun p =>
      star p.2 • (p.1.reverse.map fun g => evalLin S ρ (GenOps.conj g)).prod).sum := by
    intro l
    induction l with
    | nil => intro s _ _; simp
    | cons p l ih =>
      intro s hl h0
      rw [List.foldl_cons, ih _ (fun q hq => hl q (by simp [hq])) fun q hq => h0 q (by simp [hq])]
      have hne : star p.2 ≠ 0 := by rw [star_ne_zero]; exact h0 p (by simp)
      simp only [if_neg hne]
      have h := inner p.1.reverse (const (star p.2)) (inP_const _) (by simpa using hl p (by simp))
      have := eval_add (ρ := ρ) s.1 (p.1.reverse.foldl (fun e g => mulAssign e (ofLinFun (GenOps.conj g))) (const (star p.2)))
      change evalExpr ρ (addAssign s.1 _) = _ at this
      rw [this, h, eval_const]
      simp [add_assoc, Algebra.smul_def]
  rw [conj, key _ _ ha h0]
  simp [evalExpr, evalTerms]

/-- In a `*`-algebra in which `conj` of the generators is the adjoint, `conj` of an expression is. -/
theorem eval_conj_star [StarRing S] [StarRing A] [StarModule S A] (hρ : Represents S P ρ)
    (hC : ∀ g, P g → ∀ p ∈ (GenOps.conj g).terms, P p.1) (hS : ∀ g, P g → evalLin S ρ (GenOps.conj g) = star (ρ g))
    {a : Expr G S} (ha : a.InP P) (h0 : ∀ p ∈ a.terms, p.2 ≠ 0) : evalExpr ρ a.conj = star (evalExpr ρ a) := by
  rw [eval_conj_closed hρ hC ha h0]
  simp only [evalExpr, evalTerms]
  have hmon : ∀ m : List G, (∀ g ∈ m, P g) →
      (m.reverse.map fun g => evalLin S ρ (GenOps.conj g)).prod = star (evalMon ρ m) := by
    intro m hm
    induction m with
    | nil => simp [evalMon]
    | cons g m ih =>
      simp only [List.reverse_cons, List.map_append, List.prod_append, List.map_cons, List.map_nil, List.prod_cons,
        List.prod_nil, mul_one, evalMon, star_mul]
      rw [ih fun q hq => hm q (by simp [hq]), hS g (hm g (by simp))]
      rfl
  have : ∀ t : List (List G × S), (∀ p ∈ t, ∀ g ∈ p.1, P g) →
      (t.map fun p => star p.2 • (p.1.reverse.map fun g => evalLin S ρ (GenOps.conj g)).prod).sum
        = star (t.map fun p => p.2 • evalMon ρ p.1).sum := by
    intro t ht
    induction t with
    | nil => simp
    | cons p t ih =>
      simp only [List.map_cons, List.sum_cons, star_add, star_smul]
      rw [ih fun q hq => ht q (by simp [hq]), hmon _ (ht p (by simp))]
  exact this _ ha

end Expr
open Expr

theorem Reachable.inP [Star S] [IsDomain S] [CharZero S] [GoodGen G] (hN : ClosedGen P) (hC : ConjOK P) {e : Expr G S}
    (h : Reachable P e) : e.InP P := by
  induction h with
  | zero => exact inP_zero
  | const x => exact inP_const x
  | ofMonomial x m hm => exact inP_ofMonomial hN x m hm
  | add _ _ ha hb => exact inP_add ha hb
  | sub _ _ ha hb => exact inP_sub ha hb
  | mul _ _ ha hb => exact inP_mul hN ha hb
  | neg _ ha => exact inP_neg ha
  | addMixed h1 h2 ha hb => rw [addMixed_eq (h1.wf hC.good) (h2.wf hC.good)]; exact inP_add ha hb
  | subMixed h1 h2 ha hb => rw [subMixed_eq (h1.wf hC.good) (h2.wf hC.good)]; exact inP_sub ha hb
  | smulPrefix x _ ha => exact inP_smul x ha
  | smulPostfix x _ ha => rw [smulPostfix_eq]; exact inP_smul x ha
  | smulAssign x _ ha => rw [smulAssign_eq]; exact inP_smul x ha
  | addScalar x _ ha => rw [addScalar_eq]; exact inP_add ha (inP_const x)
  | scalarAdd x _ ha => rw [scalarAdd_eq]; exact inP_add ha (inP_const x)
  | addAssignScalar x _ ha => rw [addAssignScalar_eq]; exact inP_add ha (inP_const x)
  | subScalar x _ ha => rw [subScalar_eq]; exact inP_sub ha (inP_const x)
  | subAssignScalar x _ ha => rw [subAssignScalar_eq]; exact inP_sub ha (inP_const x)
  | scalarSub x h ha => rw [scalarSub_eq (h.wf hC.good)]; exact inP_add (inP_neg ha) (inP_const x)
  | transform f h ha => exact inP_transform (h.wf hC.good) ha f
  | conj _ ha => exact inP_conj hN hC.mem ha

end LC
