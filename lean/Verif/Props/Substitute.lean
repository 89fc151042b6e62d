import Mathlib.Data.Rat.Star
import Verif.Proof.Substitute
import Verif.Spec.Scalars
/-
C97: canonical transformations. If the new operators satisfy the textbook relations (as decided by `==`), then substituting them
into the result of a computation is the same as doing the computation with the new operators.
-/
set_option linter.unusedSectionVars false
set_option linter.unusedSimpArgs false
namespace LC
open Expr Terms Factory
universe u w v
variable {ι : Type u} {κ : Type w} {S : Type v} [LinearOrder ι] [LinearOrder κ] [CommRing S] [DecidableEq S] [ConstScalar S]
  [ScalarLaws S] [IsDomain S] [CharZero S] [StarRing S] {σ : Gen ι → Expr (Gen κ) S}

namespace Subst
theorem rt : TextbookRel S (fun n _ => n = 2) (Reg.rep (ι := κ) (S := S)) := Reg.rep_textbook

theorem inP {e : Expr (Gen ι) S} (he : Reachable FBS e) : e.InP FBS := by rw [FBS_eq]; exact FBS.inP he

theorem sub_r (hσ : ∀ g, FBS g → Reachable FBS (σ g)) {e : Expr (Gen ι) S} (he : Reachable FBS e) :
    Reachable FBS (e.subst σ) := (eval_subst rt hσ (inP he)).1

theorem sub_e (hσ : ∀ g, FBS g → Reachable FBS (σ g)) {e : Expr (Gen ι) S} (he : Reachable FBS e) :
    evalExpr (Reg.rep (S := S)) (e.subst σ) = evalExpr (pullback σ Reg.rep) e := (eval_subst rt hσ (inP he)).2

theorem fin {a b : Expr (Gen κ) S} (ha : Reachable FBS a) (hb : Reachable FBS b)
    (h : evalExpr (Reg.rep (S := S)) a = evalExpr (Reg.rep (S := S)) b) : a.eqOp b = true :=
  (eqOp_iff _ _).2 (FBS.ext ha hb h)

theorem smul_e {x : S} {a : Expr (Gen ι) S} {ρ : Gen ι → A} [Ring A] [Algebra S A] :
    evalExpr ρ (smulPostfix a x) = x • evalExpr ρ a := by rw [smulPostfix_eq, eval_smul]
end Subst
open Subst

/-- **C97** A canonical transformation respects the whole arithmetic of expressions. -/
theorem C97_homomorphism (h : CanonicalTransformation σ) {a b : Expr (Gen ι) S} (ha : Reachable FBS a)
    (hb : Reachable FBS b) (x : S) :
    ((a + b).subst σ).eqOp (a.subst σ + b.subst σ) = true ∧
    ((a - b).subst σ).eqOp (a.subst σ - b.subst σ) = true ∧
    ((a * b).subst σ).eqOp (a.subst σ * b.subst σ) = true ∧
    ((-a).subst σ).eqOp (-a.subst σ) = true ∧
    ((smulPrefix x a).subst σ).eqOp (smulPrefix x (a.subst σ)) = true ∧
    ((Expr.const x : Expr (Gen ι) S).subst σ).eqOp (Expr.const x) = true ∧
    (∀ g, FBS g → ((ofMonomial 1 [g] : Expr (Gen ι) S).subst σ).eqOp (σ g) = true) ∧
    (StarTransformation σ → (a.conj.subst σ).eqOp (a.subst σ).conj = true) := by
  have hc := h.closed
  have hp := pullback_textbook (rt (S := S)) h
  have sa := sub_r hc ha
  have sb := sub_r hc hb
  refine ⟨?_, ?_, ?_, ?_, ?_, ?_, ?_, ?_⟩
  · refine fin (sub_r hc (ha.add hb)) (sa.add sb) ?_
    rw [sub_e hc (ha.add hb), eval_add, eval_add, sub_e hc ha, sub_e hc hb]
  · refine fin (sub_r hc (ha.sub hb)) (sa.sub sb) ?_
    rw [sub_e hc (ha.sub hb), eval_sub, eval_sub, sub_e hc ha, sub_e hc hb]
  · refine fin (sub_r hc (ha.mul hb)) (sa.mul sb) ?_
    rw [sub_e hc (ha.mul hb), ev_mul hp ha hb, ev_mul rt sa sb, sub_e hc ha, sub_e hc hb]
  · refine fin (sub_r hc (.neg ha)) (.neg sa) ?_
    rw [sub_e hc (.neg ha), eval_neg, eval_neg, sub_e hc ha]
  · refine fin (sub_r hc (.smulPrefix x ha)) (.smulPrefix x sa) ?_
    rw [sub_e hc (.smulPrefix x ha), eval_smul, eval_smul, sub_e hc ha]
  · refine fin (sub_r hc (.const x)) (.const x) ?_
    rw [sub_e hc (.const x), eval_const, eval_const]
  · intro g hg
    have hr : Reachable FBS (ofMonomial (1 : S) [g]) := .ofMonomial _ _ (by simpa using hg)
    refine fin (sub_r hc hr) (hc g hg) ?_
    rw [sub_e hc hr, eval_ofMonomial (rep_half hp) _ _ (by simpa [← FBS_eq] using hg)]
    simp [evalMon, pullback]
  · intro hs
    refine fin (sub_r hc (.conj ha)) (.conj sa) ?_
    rw [sub_e hc (.conj ha), eval_subst_conj rt h hs ha]

theorem Subst.program (h : CanonicalTransformation σ) (hs : StarTransformation σ) (p : ExprProg ι S) (hp : p.Uses FBS) :
    Reachable FBS (p.runWith σ) ∧ evalExpr (Reg.rep (S := S)) (p.runWith σ) = evalExpr (pullback σ Reg.rep) p.run := by
  have hc := h.closed
  have ht := pullback_textbook (rt (S := S)) h
  have mono : ∀ (x : S) (m : List (Gen ι)), (∀ g ∈ m, FBS g) →
      evalExpr (pullback σ (Reg.rep (S := S))) (ofMonomial x m) = x • evalMon (pullback σ (Reg.rep (S := S))) m :=
    fun x m hm => eval_ofMonomial (rep_half ht) x m (by rw [← FBS_eq]; exact hm)
  have one : ∀ g : Gen ι, FBS g → Reachable FBS (σ g) ∧
      evalExpr (Reg.rep (S := S)) (σ g) = evalExpr (pullback σ (Reg.rep (S := S))) (ofMonomial (1 : S) [g]) := by
    intro g hg
    refine ⟨hc g hg, ?_⟩
    rw [mono 1 [g] (by simpa using hg)]
    simp [evalMon, pullback]
  have cj : ∀ (p : ExprProg ι S), p.Uses FBS → Reachable FBS (p.runWith σ) →
      evalExpr (Reg.rep (S := S)) (p.runWith σ) = evalExpr (pullback σ Reg.rep) p.run →
      evalExpr (Reg.rep (S := S)) (p.runWith σ).conj = evalExpr (pullback σ Reg.rep) p.run.conj := by
    intro p hp hr he
    have hq := p.run_reachable hp
    have : p.runWith σ = p.run.subst σ := FBS.ext hr (sub_r hc hq) (by rw [he, sub_e hc hq])
    rw [this]
    exact eval_subst_conj rt h hs hq
  induction p with
  | zero => exact ⟨.zero, rfl⟩
  | scalar x => exact ⟨.const x, by rw [ExprProg.runWith, ExprProg.run, eval_const, eval_const]⟩
  | monomial x m =>
    obtain ⟨h1, h2⟩ := eval_substMon (rt (S := S)) hc (m := m) hp
    refine ⟨.smulPrefix x h1, ?_⟩
    rw [ExprProg.runWith, ExprProg.run, eval_smul, h2]
    exact (mono x m hp).symm
  | cDag i => exact one _ hp
  | c i => exact one _ hp
  | n i =>
    obtain ⟨h1, h2⟩ := one _ hp.1
    obtain ⟨h3, h4⟩ := one _ hp.2
    refine ⟨h1.mul h3, ?_⟩
    show evalExpr _ (σ (.fermion true i) * σ (.fermion false i)) = _
    rw [ev_mul rt h1 h3]
    refine Eq.trans ?_ (mono 1 [.fermion true i, .fermion false i] (by simp [FBS])).symm
    simp [evalMon, pullback]
  | aDag i => exact one _ hp
  | a i => exact one _ hp
  | spin m e i => exact one _ hp
  | add p q h1 h2 =>
    obtain ⟨a1, a2⟩ := h1 hp.1
    obtain ⟨b1, b2⟩ := h2 hp.2
    refine ⟨a1.add b1, ?_⟩
    rw [ExprProg.runWith, ExprProg.run, eval_add, eval_add, a2, b2]
  | sub p q h1 h2 =>
    obtain ⟨a1, a2⟩ := h1 hp.1
    obtain ⟨b1, b2⟩ := h2 hp.2
    refine ⟨a1.sub b1, ?_⟩
    rw [ExprProg.runWith, ExprProg.run, eval_sub, eval_sub, a2, b2]
  | mul p q h1 h2 =>
    obtain ⟨a1, a2⟩ := h1 hp.1
    obtain ⟨b1, b2⟩ := h2 hp.2
    refine ⟨a1.mul b1, ?_⟩
    rw [ExprProg.runWith, ExprProg.run, ev_mul rt a1 b1, ev_mul ht (p.run_reachable hp.1) (q.run_reachable hp.2), a2, b2]
  | neg p h1 =>
    obtain ⟨a1, a2⟩ := h1 hp
    refine ⟨a1.neg, ?_⟩
    rw [ExprProg.runWith, ExprProg.run, eval_neg, eval_neg, a2]
  | smul x p h1 =>
    obtain ⟨a1, a2⟩ := h1 hp
    refine ⟨a1.smulPrefix x, ?_⟩
    rw [ExprProg.runWith, ExprProg.run, eval_smul, eval_smul, a2]
  | muls p x h1 =>
    obtain ⟨a1, a2⟩ := h1 hp
    refine ⟨a1.smulPostfix x, ?_⟩
    rw [ExprProg.runWith, ExprProg.run, smulPostfix_eq, smulPostfix_eq, eval_smul, eval_smul, a2]
  | addScalar p x h1 =>
    obtain ⟨a1, a2⟩ := h1 hp
    refine ⟨a1.addScalar x, ?_⟩
    rw [ExprProg.runWith, ExprProg.run, addScalar_eq, addScalar_eq, eval_add, eval_add, eval_const, eval_const, a2]
  | scalarAdd x p h1 =>
    obtain ⟨a1, a2⟩ := h1 hp
    refine ⟨a1.scalarAdd x, ?_⟩
    rw [ExprProg.runWith, ExprProg.run, scalarAdd_eq, scalarAdd_eq, eval_add, eval_add, eval_const, eval_const, a2]
  | subScalar p x h1 =>
    obtain ⟨a1, a2⟩ := h1 hp
    refine ⟨a1.subScalar x, ?_⟩
    rw [ExprProg.runWith, ExprProg.run, subScalar_eq, subScalar_eq, eval_sub, eval_sub, eval_const, eval_const, a2]
  | scalarSub x p h1 =>
    obtain ⟨a1, a2⟩ := h1 hp
    refine ⟨a1.scalarSub x, ?_⟩
    rw [ExprProg.runWith, ExprProg.run, scalarSub_eq (FBS.wf a1), scalarSub_eq (FBS.wf (p.run_reachable hp)), eval_add,
      eval_add, eval_neg, eval_neg, eval_const, eval_const, a2]
  | conj p h1 =>
    obtain ⟨a1, a2⟩ := h1 hp
    exact ⟨a1.conj, cj p hp a1 a2⟩
  | plusHc p h1 =>
    obtain ⟨a1, a2⟩ := h1 hp
    refine ⟨a1.add a1.conj, ?_⟩
    show evalExpr _ (p.runWith σ + (p.runWith σ).conj) = evalExpr _ (p.run + p.run.conj)
    rw [eval_add, eval_add, a2, cj p hp a1 a2]
  | minusHc p h1 =>
    obtain ⟨a1, a2⟩ := h1 hp
    refine ⟨a1.sub a1.conj, ?_⟩
    show evalExpr _ (p.runWith σ - (p.runWith σ).conj) = evalExpr _ (p.run - p.run.conj)
    rw [eval_sub, eval_sub, a2, cj p hp a1 a2]

/-- **C97** For every program: running it with the new operators from the start, or substituting the new operators into its final,
normal ordered result, gives equal expressions. -/
theorem C97_programs (h : CanonicalTransformation σ) (hs : StarTransformation σ) (p : ExprProg ι S) (hp : p.Uses FBS) :
    (p.runWith σ).eqOp (p.run.subst σ) = true := by
  have := Subst.program h hs p hp
  have hq := p.run_reachable hp
  exact fin this.1 (sub_r h.closed hq) (by rw [this.2, sub_e h.closed hq])

/-- **C97** consequently, an identity between the old operators is also one between the new operators. -/
theorem C97_identities (h : CanonicalTransformation σ) (hs : StarTransformation σ) (p q : ExprProg ι S) (hp : p.Uses FBS)
    (hq : q.Uses FBS) (hpq : p.run.eqOp q.run = true) : (p.runWith σ).eqOp (q.runWith σ) = true := by
  have h1 := (eqOp_iff _ _).1 (C97_programs h hs p hp)
  have h2 := (eqOp_iff _ _).1 (C97_programs h hs q hq)
  rw [eqOp_iff] at hpq ⊢
  rw [h1, h2, hpq]

/-! ### Instances -/

theorem Subst.of_textbook (hc : ∀ g, FBS g → Reachable FBS (σ g))
    (T : TextbookRel S (fun n _ => n = 2) (pullback σ (Reg.rep (S := S)))) : CanonicalTransformation σ where
  closed := hc
  car d i e j := by
    have h1 := hc (.fermion d i) trivial
    have h2 := hc (.fermion e j) trivial
    refine fin ((h1.mul h2).add (h2.mul h1)) (.const _) ?_
    rw [eval_add, ev_mul rt h1 h2, ev_mul rt h2 h1, eval_const]
    refine (T.car d i e j).trans ?_
    split <;> simp
  ccr i j := by
    have h1 := hc (.boson false i) trivial
    have h2 := hc (.boson true j) trivial
    refine fin ((h1.mul h2).sub (h2.mul h1)) (.const _) ?_
    rw [eval_sub, ev_mul rt h1 h2, ev_mul rt h2 h1, eval_const]
    refine (T.ccr i j).trans ?_
    split <;> simp
  ccr_same d i j := by
    have h1 := hc (.boson d i) trivial
    have h2 := hc (.boson d j) trivial
    refine fin (h1.mul h2) (h2.mul h1) ?_
    rw [ev_mul rt h1 h2, ev_mul rt h2 h1]
    exact T.ccr_same d i j
  spin_pm i := by
    have h1 := hc (.spin 2 .plus i) rfl
    have h2 := hc (.spin 2 .minus i) rfl
    have h3 := hc (.spin 2 .z i) rfl
    refine fin ((h1.mul h2).sub (h2.mul h1)) (h3.add h3) ?_
    rw [eval_sub, ev_mul rt h1 h2, ev_mul rt h2 h1, eval_add, ← two_mul]
    exact T.spin_pm 2 i rfl
  spin_pm1 i := by
    have h1 := hc (.spin 2 .plus i) rfl
    have h2 := hc (.spin 2 .minus i) rfl
    refine fin ((h1.mul h2).add (h2.mul h1)) (.const 1) ?_
    rw [eval_add, ev_mul rt h1 h2, ev_mul rt h2 h1, eval_const, map_one]
    exact T.half_pm i rfl
  spin_z i := by
    have h1 := hc (.spin 2 .plus i) rfl
    have h2 := hc (.spin 2 .minus i) rfl
    have h3 := hc (.spin 2 .z i) rfl
    refine ⟨fin ((h3.mul h1).sub (h1.mul h3)) h1 ?_, fin ((h3.mul h2).sub (h2.mul h3)) h2.neg ?_⟩
    · rw [eval_sub, ev_mul rt h3 h1, ev_mul rt h1 h3]
      exact T.spin_zp 2 i rfl
    · rw [eval_sub, ev_mul rt h3 h2, ev_mul rt h2 h3, eval_neg]
      exact T.spin_zm 2 i rfl
  spin_az i c hcz := by
    have h1 := hc (.spin 2 .z i) rfl
    have h2 := hc (.spin 2 c i) rfl
    refine fin ((h1.mul h2).add (h2.mul h1)) .zero ?_
    rw [eval_add, ev_mul rt h1 h2, ev_mul rt h2 h1, eval_zero]
    exact T.half_z i c rfl hcz
  spin_nil i c hcz := by
    have h2 := hc (.spin 2 c i) rfl
    refine fin (h2.mul h2) .zero ?_
    rw [ev_mul rt h2 h2, eval_zero, ← pow_two]
    exact T.spin_nil 2 c i rfl hcz
  spin_zz i := by
    have h1 := hc (.spin 2 .z i) rfl
    refine fin (.smulPrefix 4 (h1.mul h1)) (.const 1) ?_
    rw [eval_smul, ev_mul rt h1 h1, eval_const, map_one, Algebra.smul_def, map_ofNat]
    exact T.half_zz i rfl
  spin_sites c i e j hij := by
    have h1 := hc (.spin 2 c i) rfl
    have h2 := hc (.spin 2 e j) rfl
    refine fin (h1.mul h2) (h2.mul h1) ?_
    rw [ev_mul rt h1 h2, ev_mul rt h2 h1]
    exact T.spin_comm 2 c i 2 e j rfl rfl (.inr hij)
  comm_fb d i e j := by
    have h1 := hc (.fermion d i) trivial
    have h2 := hc (.boson e j) trivial
    refine fin (h1.mul h2) (h2.mul h1) ?_
    rw [ev_mul rt h1 h2, ev_mul rt h2 h1]
    exact T.comm_fb d i e j
  comm_fs d i c j := by
    have h1 := hc (.fermion d i) trivial
    have h2 := hc (.spin 2 c j) rfl
    refine fin (h1.mul h2) (h2.mul h1) ?_
    rw [ev_mul rt h1 h2, ev_mul rt h2 h1]
    exact T.comm_fs d i 2 c j rfl
  comm_bs d i c j := by
    have h1 := hc (.boson d i) trivial
    have h2 := hc (.spin 2 c j) rfl
    refine fin (h1.mul h2) (h2.mul h1) ?_
    rw [ev_mul rt h1 h2, ev_mul rt h2 h1]
    exact T.comm_bs d i 2 c j rfl

/-- Replacing every generator by another one. -/
def Subst.byGen (φ : Gen ι → Gen κ) (g : Gen ι) : Expr (Gen κ) S := ofMonomial 1 [φ g]

theorem Subst.byGen_r {φ : Gen ι → Gen κ} (hφ : ∀ g, FBS g → FBS (φ g)) :
    ∀ g, FBS g → Reachable FBS (byGen φ g : Expr (Gen κ) S) :=
  fun g hg => .ofMonomial _ _ (by simpa using hφ g hg)

theorem Subst.byGen_e {φ : Gen ι → Gen κ} (hφ : ∀ g, FBS g → FBS (φ g)) (g : Gen ι) (hg : FBS g) :
    pullback (S := S) (byGen φ) (Reg.rep (S := S)) g = Reg.rep (φ g) := by
  show evalExpr _ (ofMonomial (1 : S) [φ g]) = _
  rw [eval_ofMonomial (rep_half rt) _ _ (by simpa [← FBS_eq] using hφ g hg)]
  simp [evalMon]

theorem Subst.byGen_star {φ : Gen ι → Gen κ} (hφ : ∀ g, FBS g → FBS (φ g)) (hd : ∀ g, FBS g → φ g.dag = (φ g).dag) :
    StarTransformation (byGen (S := S) φ) := by
  have key : ∀ g, FBS g → (byGen (S := S) φ g).conj.eqOp (byGen φ g.dag) = true := by
    intro g hg
    unfold byGen
    rw [hd g hg, (eqOp_iff _ _)]
    have h1 : Reachable FBS (ofMonomial (1 : S) [φ g]) := .ofMonomial _ _ (by simpa using hφ g hg)
    have h2 : Reachable FBS (ofMonomial (1 : S) [(φ g).dag]) := .ofMonomial _ _ (by simpa using (hφ g hg).dag)
    refine FBS.ext h1.conj h2 (tw_inj ?_)
    rw [conj_tw rt h1, eval_ofMonomial (rep_half (tw_textbook rt)) _ _ (by simpa [← FBS_eq] using hφ g hg),
      eval_ofMonomial (rep_half rt) _ _ (by simpa [← FBS_eq] using (hφ g hg).dag)]
    simp [evalMon, twRep]
  exact ⟨fun d i => key (.fermion d i) trivial, fun d i => key (.boson d i) trivial, fun i => key (.spin 2 .plus i) rfl,
    fun i => key (.spin 2 .minus i) rfl, fun i => key (.spin 2 .z i) rfl⟩

/-- **C97** instance: renaming the indices by any injective map, e.g. a permutation of the sites, whether or not it preserves the
order. -/
theorem C97_renaming {f : ι → κ} (hf : Function.Injective f) :
    CanonicalTransformation (S := S) (fun g => ofMonomial 1 [g.relabel f]) ∧
    StarTransformation (S := S) (fun g => ofMonomial 1 [g.relabel f]) := by
  have hφ : ∀ g : Gen ι, FBS g → FBS (g.relabel f) := fun g hg => by cases g <;> exact hg
  refine ⟨of_textbook (σ := byGen (Gen.relabel f)) (byGen_r hφ) ?_, byGen_star hφ fun g _ => by cases g <;> rfl⟩
  have Ef := fun d i => byGen_e (S := S) hφ (.fermion d i) trivial
  have Eb := fun d i => byGen_e (S := S) hφ (.boson d i) trivial
  have Es := fun c i => byGen_e (S := S) hφ (.spin 2 c i) rfl
  have T := rt (κ := κ) (S := S)
  constructor
  · intro d i e j
    rw [Ef, Ef]
    refine (T.car d (f i) e (f j)).trans ?_
    simp [hf.eq_iff]
  · intro i j
    rw [Eb, Eb]
    refine (T.ccr (f i) (f j)).trans ?_
    simp [hf.eq_iff]
  · intro d i j; rw [Eb, Eb]; exact T.ccr_same d (f i) (f j)
  · intro n i hn; subst hn; rw [Es, Es, Es]; exact T.spin_pm 2 (f i) rfl
  · intro n i hn; subst hn; rw [Es, Es]; exact T.spin_zp 2 (f i) rfl
  · intro n i hn; subst hn; rw [Es, Es]; exact T.spin_zm 2 (f i) rfl
  · intro n c i m e j hn hm hh
    subst hn; subst hm
    rw [Es, Es]
    exact T.spin_comm 2 c (f i) 2 e (f j) rfl rfl (by simpa [hf.eq_iff] using hh)
  · intro n c i hn hc; subst hn; rw [Es]; exact T.spin_nil 2 c (f i) rfl hc
  · intro i _; rw [Es]; exact T.half_zz (f i) rfl
  · intro i _; rw [Es, Es]; exact T.half_pm (f i) rfl
  · intro i c _ hc; rw [Es, Es]; exact T.half_z (f i) c rfl hc
  · intro d i e j; rw [Ef, Eb]; exact T.comm_fb d (f i) e (f j)
  · intro d i n c j hn; subst hn; rw [Ef, Es]; exact T.comm_fs d (f i) 2 c (f j) rfl
  · intro d i n c j hn; subst hn; rw [Eb, Es]; exact T.comm_bs d (f i) 2 c (f j) rfl

/-- The particle-hole transformation `c_i ↔ c†_i`. -/
def particleHole : Gen ι → Gen ι
  | .fermion d i => .fermion (!d) i
  | g => g

/-- **C97** instance: the particle-hole transformation. -/
theorem C97_particle_hole : CanonicalTransformation (S := S) (fun g : Gen ι => ofMonomial 1 [particleHole g]) ∧
    StarTransformation (S := S) (fun g : Gen ι => ofMonomial 1 [particleHole g]) := by
  have hφ : ∀ g : Gen ι, FBS g → FBS (particleHole g) := fun g hg => by cases g <;> exact hg
  refine ⟨of_textbook (σ := byGen particleHole) (byGen_r hφ) ?_, byGen_star hφ fun g _ => by cases g <;> rfl⟩
  have Ef := fun d i => byGen_e (S := S) hφ (.fermion d i) trivial
  have Eb := fun d i => byGen_e (S := S) hφ (.boson d i) trivial
  have Es := fun c i => byGen_e (S := S) hφ (.spin 2 c i) rfl
  have T := rt (κ := ι) (S := S)
  constructor
  · intro d i e j
    rw [Ef, Ef]
    refine (T.car (!d) i (!e) j).trans ?_
    simp
  · intro i j; rw [Eb, Eb]; exact T.ccr i j
  · intro d i j; rw [Eb, Eb]; exact T.ccr_same d i j
  · intro n i hn; subst hn; rw [Es, Es, Es]; exact T.spin_pm 2 i rfl
  · intro n i hn; subst hn; rw [Es, Es]; exact T.spin_zp 2 i rfl
  · intro n i hn; subst hn; rw [Es, Es]; exact T.spin_zm 2 i rfl
  · intro n c i m e j hn hm hh
    subst hn; subst hm
    rw [Es, Es]
    exact T.spin_comm 2 c i 2 e j rfl rfl hh
  · intro n c i hn hc; subst hn; rw [Es]; exact T.spin_nil 2 c i rfl hc
  · intro i _; rw [Es]; exact T.half_zz i rfl
  · intro i _; rw [Es, Es]; exact T.half_pm i rfl
  · intro i c _ hc; rw [Es, Es]; exact T.half_z i c rfl hc
  · intro d i e j; rw [Ef, Eb]; exact T.comm_fb (!d) i e j
  · intro d i n c j hn; subst hn; rw [Ef, Es]; exact T.comm_fs (!d) i 2 c j rfl
  · intro d i n c j hn; subst hn; rw [Eb, Es]; exact T.comm_bs d i 2 c j rfl

/-! ### A Bogoliubov transformation, checked by the relations alone -/

/-- `c_↑ → 3/5 c_↑ + 4/5 c†_↓`, `c_↓ → 3/5 c_↓ - 4/5 c†_↑`. -/
def bogoliubov : Gen Bool → Expr (Gen Bool) ℚ
  | .fermion d i => smulPrefix (3/5) (ofMonomial 1 [.fermion d i])
      + smulPrefix (if i then 4/5 else -4/5) (ofMonomial 1 [.fermion (!d) (!i)])
  | g => ofMonomial 1 [g]

example : CanonicalTransformation bogoliubov ∧ StarTransformation bogoliubov := by
  refine ⟨⟨?_, by decide +kernel, by decide +kernel, by decide +kernel, by decide +kernel, by decide +kernel, by decide +kernel,
    ?_, ?_, by decide +kernel, ?_, by decide +kernel, ?_, ?_⟩, by decide +kernel, by decide +kernel, by decide +kernel,
    by decide +kernel, by decide +kernel⟩
  · intro g hg
    cases g with
    | fermion d i => exact .add (.smulPrefix _ (.ofMonomial _ _ (by simp [FBS]))) (.smulPrefix _ (.ofMonomial _ _ (by simp [FBS])))
    | boson d i => exact .ofMonomial _ _ (by simp [FBS])
    | spin n c i => exact .ofMonomial _ _ (by simpa using hg)
  · intro i c hc; cases c <;> first | exact absurd rfl hc | (revert i; decide +kernel)
  · intro i c hc; cases c <;> first | exact absurd rfl hc | (revert i; decide +kernel)
  · intro c i e j; cases c <;> cases e <;> revert i j <;> decide +kernel
  · intro d i c j; cases c <;> revert d i j <;> decide +kernel
  · intro d i c j; cases c <;> revert d i j <;> decide +kernel

/-- The pairing field it produces: the substituted particle number of `↑`. -/
example : ((ofMonomial 1 [.fermion true true, .fermion false true] : Expr (Gen Bool) ℚ).subst bogoliubov).terms
    = [([], 16/25), ([.fermion true false, .fermion true true], -12/25), ([.fermion true false, .fermion false false], -16/25),
       ([.fermion true true, .fermion false true], 9/25), ([.fermion false true, .fermion false false], -12/25)] := by
  decide +kernel

/-- The relations are needed: the map `c → 2 c` is no canonical transformation and does not respect products. -/
example :
    let σ : Gen Bool → Expr (Gen Bool) ℚ := fun g => smulPrefix 2 (ofMonomial 1 [g])
    let a : Expr (Gen Bool) ℚ := ofMonomial 1 [.fermion false true]
    let b : Expr (Gen Bool) ℚ := ofMonomial 1 [.fermion true true]
    ((a * b).subst σ).eqOp (a.subst σ * b.subst σ) = false := by
  decide +kernel

end LC
