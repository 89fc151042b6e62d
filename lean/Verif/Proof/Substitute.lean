import Verif.Spec.Substitute
/-
C97: evaluation of substituted expressions.
-/
set_option linter.unusedSectionVars false
set_option linter.unusedSimpArgs false
namespace LC
open Expr Terms Factory
universe u w v
variable {ι : Type u} {κ : Type w} {S : Type v} [LinearOrder ι] [LinearOrder κ] [CommRing S] [DecidableEq S] [ConstScalar S]
  [ScalarLaws S] [IsDomain S] [CharZero S] [StarRing S] {σ : Gen ι → Expr (Gen κ) S}

theorem FBS.dag {g : Gen ι} (h : FBS g) : FBS g.dag := by cases g <;> exact h

section Eval
variable {A : Type _} [Ring A] [Algebra S A] {τ : Gen κ → A}

/-- The new operators in a realisation `τ` of the textbook relations. -/
def pullback (σ : Gen ι → Expr (Gen κ) S) (τ : Gen κ → A) (g : Gen ι) : A := evalExpr τ (σ g)

variable (hτ : TextbookRel S (fun n _ => n = 2) τ)
include hτ

theorem rep_half : Represents S Reg.PH τ := represents_of_textbook Reg.halfAlone hτ

theorem ev_mul {a b : Expr (Gen κ) S} (ha : Reachable FBS a) (hb : Reachable FBS b) :
    evalExpr τ (a * b) = evalExpr τ a * evalExpr τ b := eval_mul (rep_half hτ) (FBS.inP ha) (FBS.inP hb)

theorem eqOp_eval {a b : Expr (Gen κ) S} (h : a.eqOp b = true) : evalExpr τ a = evalExpr τ b := by
  rw [eqOp_iff] at h; rw [h]

theorem eval_substMon (hσ : ∀ g, FBS g → Reachable FBS (σ g)) {m : List (Gen ι)} (hm : ∀ g ∈ m, FBS g) :
    Reachable FBS (substMon σ m) ∧ evalExpr τ (substMon σ m) = evalMon (pullback σ τ) m := by
  have key : ∀ (m : List (Gen ι)) (q : Expr (Gen κ) S), (∀ g ∈ m, FBS g) → Reachable FBS q →
      Reachable FBS (m.foldl (fun q g => q * σ g) q) ∧
      evalExpr τ (m.foldl (fun q g => q * σ g) q) = evalExpr τ q * evalMon (pullback σ τ) m := by
    intro m
    induction m with
    | nil => intro q _ hq; exact ⟨hq, by simp [evalMon]⟩
    | cons g m ih =>
      intro q hm hq
      have hg := hσ g (hm g (by simp))
      obtain ⟨h1, h2⟩ := ih (q * σ g) (fun x hx => hm x (by simp [hx])) (hq.mul hg)
      refine ⟨h1, ?_⟩
      simp only [List.foldl_cons]
      rw [h2, ev_mul hτ hq hg]
      simp [evalMon, pullback, mul_assoc]
  have := key m (Expr.const 1) hm (.const 1)
  refine ⟨this.1, this.2.trans ?_⟩
  rw [eval_const]; simp

theorem eval_subst (hσ : ∀ g, FBS g → Reachable FBS (σ g)) {e : Expr (Gen ι) S} (he : e.InP FBS) :
    Reachable FBS (e.subst σ) ∧ evalExpr τ (e.subst σ) = evalExpr (pullback σ τ) e := by
  have key : ∀ (t : List (List (Gen ι) × S)) (r : Expr (Gen κ) S), (∀ p ∈ t, ∀ g ∈ p.1, FBS g) → Reachable FBS r →
      Reachable FBS (t.foldl (fun r p => r + Expr.smulPrefix p.2 (substMon σ p.1)) r) ∧
      evalExpr τ (t.foldl (fun r p => r + Expr.smulPrefix p.2 (substMon σ p.1)) r)
        = evalExpr τ r + evalTerms (pullback σ τ) t := by
    intro t
    induction t with
    | nil => intro r _ hr; exact ⟨hr, by simp [evalTerms]⟩
    | cons p t ih =>
      intro r ht hr
      have hp := eval_substMon hτ hσ (ht p (by simp))
      obtain ⟨h1, h2⟩ := ih (r + Expr.smulPrefix p.2 (substMon σ p.1)) (fun q hq => ht q (by simp [hq]))
        (hr.add (.smulPrefix _ hp.1))
      refine ⟨h1, ?_⟩
      simp only [List.foldl_cons]
      rw [h2, eval_add, eval_smul, hp.2, evalTerms_cons, add_assoc]
  have := key e.terms 0 he .zero
  refine ⟨this.1, this.2.trans ?_⟩
  rw [eval_zero, zero_add]; rfl

theorem pullback_textbook (h : CanonicalTransformation σ) : TextbookRel S (fun n _ => n = 2) (pullback σ τ) where
  car d i e j := by
    have k := eqOp_eval hτ (h.car d i e j)
    have h1 := h.closed (.fermion d i) trivial
    have h2 := h.closed (.fermion e j) trivial
    rw [eval_add, ev_mul hτ h1 h2, ev_mul hτ h2 h1, eval_const] at k
    refine Eq.trans k ?_
    split <;> simp
  ccr i j := by
    have k := eqOp_eval hτ (h.ccr i j)
    have h1 := h.closed (.boson false i) trivial
    have h2 := h.closed (.boson true j) trivial
    rw [eval_sub, ev_mul hτ h1 h2, ev_mul hτ h2 h1, eval_const] at k
    refine Eq.trans k ?_
    split <;> simp
  ccr_same d i j := by
    have k := eqOp_eval hτ (h.ccr_same d i j)
    have h1 := h.closed (.boson d i) trivial
    have h2 := h.closed (.boson d j) trivial
    rwa [ev_mul hτ h1 h2, ev_mul hτ h2 h1] at k
  spin_pm n i hn := by
    subst hn
    have k := eqOp_eval hτ (h.spin_pm i)
    have h1 := h.closed (.spin 2 .plus i) rfl
    have h2 := h.closed (.spin 2 .minus i) rfl
    rw [eval_sub, ev_mul hτ h1 h2, ev_mul hτ h2 h1, eval_add, ← two_mul] at k
    exact k
  spin_zp n i hn := by
    subst hn
    have k := eqOp_eval hτ (h.spin_z i).1
    have h1 := h.closed (.spin 2 .z i) rfl
    have h2 := h.closed (.spin 2 .plus i) rfl
    rw [eval_sub, ev_mul hτ h1 h2, ev_mul hτ h2 h1] at k
    exact k
  spin_zm n i hn := by
    subst hn
    have k := eqOp_eval hτ (h.spin_z i).2
    have h1 := h.closed (.spin 2 .z i) rfl
    have h2 := h.closed (.spin 2 .minus i) rfl
    rw [eval_sub, ev_mul hτ h1 h2, ev_mul hτ h2 h1, eval_neg] at k
    exact k
  spin_comm n c i m e j hn hm hh := by
    subst hn; subst hm
    have hij : i ≠ j := by rcases hh with hh | hh; exacts [absurd rfl hh, hh]
    have k := eqOp_eval hτ (h.spin_sites c i e j hij)
    have h1 := h.closed (.spin 2 c i) rfl
    have h2 := h.closed (.spin 2 e j) rfl
    rw [ev_mul hτ h1 h2, ev_mul hτ h2 h1] at k
    exact k
  spin_nil n c i hn hc := by
    subst hn
    have k := eqOp_eval hτ (h.spin_nil i c hc)
    have h1 := h.closed (.spin 2 c i) rfl
    rw [ev_mul hτ h1 h1, eval_zero] at k
    rw [pow_two]; exact k
  half_zz i _ := by
    have k := eqOp_eval hτ (h.spin_zz i)
    have h1 := h.closed (.spin 2 .z i) rfl
    rw [eval_smul, ev_mul hτ h1 h1, eval_const, map_one] at k
    refine Eq.trans ?_ k
    rw [Algebra.smul_def]
    rw [show algebraMap S A 4 = 4 from map_ofNat (algebraMap S A) 4]
    rfl
  half_pm i _ := by
    have k := eqOp_eval hτ (h.spin_pm1 i)
    have h1 := h.closed (.spin 2 .plus i) rfl
    have h2 := h.closed (.spin 2 .minus i) rfl
    rw [eval_add, ev_mul hτ h1 h2, ev_mul hτ h2 h1, eval_const, map_one] at k
    exact k
  half_z i c _ hc := by
    have k := eqOp_eval hτ (h.spin_az i c hc)
    have h1 := h.closed (.spin 2 .z i) rfl
    have h2 := h.closed (.spin 2 c i) rfl
    rw [eval_add, ev_mul hτ h1 h2, ev_mul hτ h2 h1, eval_zero] at k
    exact k
  comm_fb d i e j := by
    have k := eqOp_eval hτ (h.comm_fb d i e j)
    have h1 := h.closed (.fermion d i) trivial
    have h2 := h.closed (.boson e j) trivial
    rwa [ev_mul hτ h1 h2, ev_mul hτ h2 h1] at k
  comm_fs d i n c j hn := by
    subst hn
    have k := eqOp_eval hτ (h.comm_fs d i c j)
    have h1 := h.closed (.fermion d i) trivial
    have h2 := h.closed (.spin 2 c j) rfl
    rwa [ev_mul hτ h1 h2, ev_mul hτ h2 h1] at k
  comm_bs d i n c j hn := by
    subst hn
    have k := eqOp_eval hτ (h.comm_bs d i c j)
    have h1 := h.closed (.boson d i) trivial
    have h2 := h.closed (.spin 2 c j) rfl
    rwa [ev_mul hτ h1 h2, ev_mul hτ h2 h1] at k

end Eval

theorem star_dag (h : StarTransformation σ) {g : Gen ι} (hg : FBS g) : (σ g).conj = σ g.dag := by
  cases g with
  | fermion d i => exact (eqOp_iff _ _).1 (h.fermion d i)
  | boson d i => exact (eqOp_iff _ _).1 (h.boson d i)
  | spin n c i =>
    cases hg
    cases c with
    | plus => exact (eqOp_iff _ _).1 (h.plus i)
    | minus => exact (eqOp_iff _ _).1 (h.minus i)
    | z => exact (eqOp_iff _ _).1 (h.z i)

theorem InP.toPH {e : Expr (Gen ι) S} (he : Reachable FBS e) : e.InP (Allowed fun n _ => n = 2) := by
  have := FBS.inP he
  exact this

section Conj
variable {A : Type _} [Ring A] [Algebra S A] {τ : Gen κ → A} (hτ : TextbookRel S (fun n _ => n = 2) τ)
include hτ

theorem evalMon_congr_subst {ρ ρ' : Gen ι → A} {m : List (Gen ι)} (h : ∀ g ∈ m, ρ g = ρ' g) : evalMon ρ m = evalMon ρ' m := by
  unfold evalMon
  rw [List.map_congr_left h]

omit hτ in
theorem evalExpr_congr_subst {B : Type _} [Ring B] [Algebra S B] {ρ ρ' : Gen ι → B} {P : Gen ι → Prop} (h : ∀ g, P g → ρ g = ρ' g)
    {e : Expr (Gen ι) S} (he : e.InP P) : evalExpr ρ e = evalExpr ρ' e := by
  unfold evalExpr evalTerms
  congr 1
  refine List.map_congr_left fun p hp => ?_
  congr 1
  unfold evalMon
  rw [List.map_congr_left fun g hg => h g (he p hp g hg)]

theorem conj_tw {e : Expr (Gen κ) S} (he : Reachable FBS e) : tw (evalExpr τ e.conj) = evalExpr (twRep τ) e :=
  eval_conj_tw Reg.halfAlone hτ (FBS.inP he) (FBS.wf he).2

theorem pullback_tw (h : CanonicalTransformation σ) (hs : StarTransformation σ) {g : Gen ι} (hg : FBS g) :
    pullback σ (twRep τ) g = twRep (pullback σ τ) g := by
  show evalExpr (twRep τ) (σ g) = tw (evalExpr τ (σ g.dag))
  rw [← star_dag hs hg]
  exact (conj_tw hτ (h.closed g hg)).symm

theorem eval_subst_conj (h : CanonicalTransformation σ) (hs : StarTransformation σ) {e : Expr (Gen ι) S}
    (he : Reachable FBS e) : evalExpr τ (e.subst σ).conj = evalExpr (pullback σ τ) e.conj := by
  have hp := pullback_textbook hτ h
  refine tw_inj ?_
  have h1 := (eval_subst hτ h.closed (e := e) (by rw [FBS_eq]; exact FBS.inP he)).1
  have ht := tw_textbook hτ
  rw [conj_tw hτ h1, (eval_subst ht h.closed (e := e) (by rw [FBS_eq]; exact FBS.inP he)).2,
    eval_conj_tw Reg.halfAlone hp (FBS.inP he) (FBS.wf he).2]
  exact evalExpr_congr_subst (P := FBS) (fun g hg => pullback_tw hτ h hs hg) (by rw [FBS_eq]; exact FBS.inP he)

end Conj

/-! ### Programs -/

theorem ExprProg.run_reachable (p : ExprProg ι S) (hp : p.Uses FBS) : Reachable FBS p.run := by
  induction p with
  | zero => exact .zero
  | scalar x => exact .const x
  | monomial x m => exact .ofMonomial x m hp
  | cDag i => exact .ofMonomial _ _ (by simpa [ExprProg.Uses] using hp)
  | c i => exact .ofMonomial _ _ (by simpa [ExprProg.Uses] using hp)
  | n i => exact .ofMonomial _ _ (by simpa [ExprProg.Uses] using hp)
  | aDag i => exact .ofMonomial _ _ (by simpa [ExprProg.Uses] using hp)
  | a i => exact .ofMonomial _ _ (by simpa [ExprProg.Uses] using hp)
  | spin m e i => exact .ofMonomial _ _ (by simpa [ExprProg.Uses] using hp)
  | add p q h1 h2 => exact .add (h1 hp.1) (h2 hp.2)
  | sub p q h1 h2 => exact .sub (h1 hp.1) (h2 hp.2)
  | mul p q h1 h2 => exact .mul (h1 hp.1) (h2 hp.2)
  | neg p h1 => exact .neg (h1 hp)
  | smul x p h1 => exact .smulPrefix x (h1 hp)
  | muls p x h1 => exact .smulPostfix x (h1 hp)
  | addScalar p x h1 => exact .addScalar x (h1 hp)
  | scalarAdd x p h1 => exact .scalarAdd x (h1 hp)
  | subScalar p x h1 => exact .subScalar x (h1 hp)
  | scalarSub x p h1 => exact .scalarSub x (h1 hp)
  | conj p h1 => exact .conj (h1 hp)
  | plusHc p h1 => exact .add (h1 hp) (.conj (h1 hp))
  | minusHc p h1 => exact .sub (h1 hp) (.conj (h1 hp))

end LC
