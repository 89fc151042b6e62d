import Mathlib.Algebra.Star.Basic
import Mathlib.Algebra.Algebra.Opposite
import Verif.Proof.Reachable
import Verif.Proof.Soundness
/-
`evalExpr` respects the operations.
-/
set_option linter.unusedSectionVars false
set_option linter.unusedSimpArgs false
namespace LC
open Terms
variable {G S A : Type _} [GenOps G] [LawfulGen G] [CommRing S] [DecidableEq S] [ConstScalar S] [ScalarLaws S]
  [Ring A] [Algebra S A] {P : G → Prop} {ρ : G → A}
namespace Expr

/-- All generators of the expression satisfy `P`. -/
def InP (P : G → Prop) (e : Expr G S) : Prop := ∀ p ∈ e.terms, ∀ g ∈ p.1, P g

theorem AllCanon.inP {e : Expr G S} (h : e.AllCanon P) : e.InP P := fun p hp => (h p hp).mem

theorem eval_zero : evalExpr ρ (0 : Expr G S) = 0 := rfl
theorem eval_const (x : S) : evalExpr ρ (const x : Expr G S) = algebraMap S A x := by
  simp only [evalExpr, const]
  split
  · rename_i h; subst h; simp [evalTerms]
  · simp [evalTerms, evalMon, Algebra.algebraMap_eq_smul_one]
theorem eval_add (a b : Expr G S) : evalExpr ρ (a + b) = evalExpr ρ a + evalExpr ρ b := evalWith_expr_add _ a b
theorem eval_sub (a b : Expr G S) : evalExpr ρ (a - b) = evalExpr ρ a - evalExpr ρ b := evalWith_expr_sub _ a b
theorem eval_neg (a : Expr G S) : evalExpr ρ (-a) = - evalExpr ρ a := evalWith_expr_neg _ a
theorem eval_smul (x : S) (a : Expr G S) : evalExpr ρ (smulPrefix x a) = x • evalExpr ρ a := evalWith_expr_smul _ x a

theorem eval_ofMonomial (hρ : Represents S P ρ) (x : S) (m : List G) (hm : ∀ g ∈ m, P g) :
    evalExpr ρ (ofMonomial x m) = x • evalMon ρ m := by
  simp only [evalExpr, ofMonomial]
  split
  · rename_i h; subst h; simp [evalTerms]
  · rw [evalTerms_normalize hρ m hm]; simp [evalTerms]

theorem evalMon_append (m n : List G) : evalMon ρ (m ++ n) = evalMon ρ m * evalMon ρ n := by
  simp [evalMon]

theorem evalTerms_append (t u : List (List G × S)) : evalTerms ρ (t ++ u) = evalTerms ρ t + evalTerms ρ u := by
  simp [evalTerms]

theorem evalTerms_cons (p : List G × S) (u : List (List G × S)) :
    evalTerms ρ (p :: u) = p.2 • evalMon ρ p.1 + evalTerms ρ u := by
  simp [evalTerms]

theorem eval_mulLog (hρ : Represents S P ρ) (a b : List (List G × S)) (ha : ∀ p ∈ a, ∀ g ∈ p.1, P g)
    (hb : ∀ p ∈ b, ∀ g ∈ p.1, P g) : evalTerms ρ (mulLog a b) = evalTerms ρ a * evalTerms ρ b := by
  have inner : ∀ (p : List G × S) (b : List (List G × S)), (∀ g ∈ p.1, P g) → (∀ q ∈ b, ∀ g ∈ q.1, P g) →
      evalTerms ρ (b.flatMap fun q => emits (p.1 ++ q.1) (p.2 * q.2)) = (p.2 • evalMon ρ p.1) * evalTerms ρ b := by
    intro p b hp hb
    induction b with
    | nil => simp [evalTerms]
    | cons q b ih =>
      rw [List.flatMap_cons, evalTerms_append, ih fun r hr => hb r (by simp [hr]), evalTerms_cons, mul_add]
      congr 1
      rw [emits_sound hρ, evalMon_append, mul_smul, smul_mul_smul_comm, mul_smul]
      intro g hg
      rcases List.mem_append.1 hg with h | h
      · exact hp g h
      · exact hb q (by simp) g h
  induction a with
  | nil => simp [mulLog, evalTerms]
  | cons p a ih =>
    have := ih fun r hr => ha r (by simp [hr])
    simp only [mulLog, List.flatMap_cons] at this ⊢
    rw [evalTerms_append, this, evalTerms_cons, add_mul, inner p b (ha p (by simp)) hb]

theorem eval_mul (hρ : Represents S P ρ) {a b : Expr G S} (ha : a.InP P) (hb : b.InP P) :
    evalExpr ρ (a * b) = evalExpr ρ a * evalExpr ρ b := by
  rw [mul_def]
  simp only [evalExpr]
  rw [evalTerms_storeAll, eval_mulLog hρ _ _ ha hb]; simp [evalTerms]

theorem eval_ofLinFun (hρ : Represents S P ρ) (f : LinFun G) (hf : ∀ p ∈ f.terms, P p.1) :
    evalExpr ρ (ofLinFun f : Expr G S) = evalLin S ρ f := by
  have h0 : evalExpr ρ (⟨if f.const.isZero then [] else [([], ConstScalar.makeConst f.const)]⟩ : Expr G S)
      = algebraMap S A (ConstScalar.makeConst f.const) := by
    simp only [evalExpr]
    split
    · rename_i h
      rw [ScalarLaws.mk_isZero _ h]; simp [evalTerms]
    · simp [evalTerms, evalMon, Algebra.algebraMap_eq_smul_one]
  have key : ∀ (l : List (G × VarNumber)) (e : Expr G S), (∀ p ∈ l, P p.1) →
      evalExpr ρ (l.foldl (fun e gv =>
      let v : S := ConstScalar.makeConst gv.2
      if v = 0 then e else addAssign e (ofMonomial v [gv.1])) e)
      = evalExpr ρ e + (l.map fun p => (ConstScalar.makeConst p.2 : S) • ρ p.1).sum := by
    intro l
    induction l with
    | nil => intro e _; simp
    | cons p l ih =>
      intro e hl
      rw [List.foldl_cons, ih _ fun q hq => hl q (by simp [hq])]
      simp only
      split
      · rename_i h; simp [h]
      · have := eval_add (ρ := ρ) e (ofMonomial (ConstScalar.makeConst p.2) [p.1])
        change evalExpr ρ (addAssign e _) = _ at this
        rw [this, eval_ofMonomial hρ _ _ (by simpa using hl p (by simp))]
        simp [evalMon, add_assoc]
  rw [ofLinFun, key _ _ hf, h0, evalLin]

/-- The operator denoted by `conj(e)`. -/
theorem eval_conj [StarRing S] (hρ : Represents S P ρ) (hN : NFGen P) (hC : ConjOK P) {a : Expr G S}
    (ha : a.InP P) (h0 : ∀ p ∈ a.terms, p.2 ≠ 0) :
    evalExpr ρ a.conj = (a.terms.map fun p =>
      star p.2 • (p.1.reverse.map fun g => evalLin S ρ (GenOps.conj g)).prod).sum := by
  have inner : ∀ (l : List G) (e : Expr G S), e.AllCanon P → (∀ g ∈ l, P g) →
      (l.foldl (fun e g => mulAssign e (ofLinFun (GenOps.conj g))) e).AllCanon P ∧
      evalExpr ρ (l.foldl (fun e g => mulAssign e (ofLinFun (GenOps.conj g))) e)
        = evalExpr ρ e * (l.map fun g => evalLin S ρ (GenOps.conj g)).prod := by
    intro l
    induction l with
    | nil => intro e he _; exact ⟨he, by simp⟩
    | cons g l ih =>
      intro e he hl
      have hf := hC.mem g (hl g (by simp))
      have hac : (mulAssign e (ofLinFun (GenOps.conj g))).AllCanon P := ac_mul hN he (ac_ofLinFun hN hf)
      obtain ⟨h1, h2⟩ := ih _ hac fun q hq => hl q (by simp [hq])
      refine ⟨h1, ?_⟩
      rw [List.foldl_cons, h2]
      have := eval_mul hρ he.inP (ac_ofLinFun (S := S) hN hf).inP
      change evalExpr ρ (mulAssign e _) = _ at this
      rw [this, eval_ofLinFun hρ _ hf]
      simp [mul_assoc]
  have key : ∀ (l : List (List G × S)) (s : Expr G S × Expr G S), (∀ p ∈ l, ∀ g ∈ p.1, P g) → (∀ p ∈ l, p.2 ≠ 0) →
      evalExpr ρ (l.foldl (fun (s : Expr G S × Expr G S) m =>
      let co := star m.2
      let contrib :=
        if co = 0 then s.2
        else m.1.reverse.foldl (fun e g => mulAssign e (ofLinFun (GenOps.conj g))) (const co)
      (addAssign s.1 contrib, contrib)) s).1
      = evalExpr ρ s.1 + (l.map fun p =>
      star p.2 • (p.1.reverse.map fun g => evalLin S ρ (GenOps.conj g)).prod).sum := by
    intro l
    induction l with
    | nil => intro s _ _; simp
    | cons p l ih =>
      intro s hl h0
      rw [List.foldl_cons, ih _ (fun q hq => hl q (by simp [hq])) fun q hq => h0 q (by simp [hq])]
      have hne : star p.2 ≠ 0 := by rw [star_ne_zero]; exact h0 p (by simp)
      simp only [if_neg hne]
      have h := (inner p.1.reverse (const (star p.2)) (ac_const _) (by simpa using hl p (by simp))).2
      have := eval_add (ρ := ρ) s.1 (p.1.reverse.foldl (fun e g => mulAssign e (ofLinFun (GenOps.conj g))) (const (star p.2)))
      change evalExpr ρ (addAssign s.1 _) = _ at this
      rw [this, h, eval_const]
      simp [add_assoc, Algebra.smul_def]
  rw [conj, key _ _ ha h0]
  simp [evalExpr, evalTerms]

end Expr
end LC
