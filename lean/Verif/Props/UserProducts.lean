import Verif.Props.UserAlgebra
import Verif.Props.Products
/-
C73, C74: expressions of different algebras commute; predefined algebras next to a user-defined one with a faithful realisation.
-/
set_option linter.unusedSectionVars false
set_option linter.unusedVariables false
namespace LC
open Expr Terms TensorProduct
universe u v w z
variable {ι : Type u} {U : Type w} {S : Type v} [LinearOrder ι] [UserGen U] [CommRing S] [DecidableEq S] [ConstScalar S]
  [ScalarLaws S] [IsDomain S] [CharZero S]

namespace AllGen

/-- Generators whose algebra ID satisfies `X`. -/
def InAlgebras (M : Nat → ι → Prop) (X : Int → Prop) (g : AllGen ι U) : Prop := AllowedAll M g ∧ X g.algebraId

variable {M : Nat → ι → Prop}

theorem swap_id (ho : UserOrder U) (hcl : UserClosed U) {g h : AllGen ι U} (hg : GenOps.gt g h = true) :
    ∀ p ∈ (GenOps.swapWith g h).2.terms, p.1.algebraId = g.algebraId := by
  intro p hp
  by_cases e : g.algebraId = h.algebraId
  · cases g with
    | pre g =>
      cases h with
      | user v => rw [swap_diff (by have := pre_id g; have := ho.id_nonneg v; simp only [algebraId]; omega)] at hp; cases hp
      | pre h =>
        rw [swap_pre] at hp
        simp only [LinFun.map, List.mem_map] at hp
        obtain ⟨q, hq, rfl⟩ := hp
        revert hq
        simp only [algebraId]
        cases g <;> cases h <;>
          simp only [GenOps.swapWith, Gen.swapWith, Gen.swapSpinHalf, Gen.swapHigherSpin, List.not_mem_nil, false_imp_iff]
        all_goals split_ifs <;> simp <;> rintro rfl <;> rfl
    | user u =>
      cases h with
      | pre h => rw [swap_diff (by have := pre_id h; have := ho.id_nonneg u; simp only [algebraId]; omega)] at hp; cases hp
      | user v =>
        have e' : UserGen.algebraId u = UserGen.algebraId v := e
        rw [swap_user e'] at hp
        simp only [LinFun.map, List.mem_map] at hp
        obtain ⟨q, hq, rfl⟩ := hp
        rw [gt_user e'] at hg
        exact hcl.swap u v e' hg q hq
  · rw [swap_diff e] at hp; cases hp

theorem simp_id (ho : UserOrder U) (hcl : UserClosed U) {g h : AllGen ι U} {f : LinFun (AllGen ι U)} (hg : GenOps.gt g h = false)
    (hf : GenOps.simplifyProd g h = some f) : ∀ p ∈ f.terms, p.1.algebraId = g.algebraId := by
  intro p hp
  by_cases e : g.algebraId = h.algebraId
  · cases g with
    | pre g =>
      cases h with
      | user v => rw [simp_diff (by have := pre_id g; have := ho.id_nonneg v; simp only [algebraId]; omega)] at hf; cases hf
      | pre h =>
        rw [simp_pre] at hf
        obtain ⟨f', hf', rfl⟩ := Option.map_eq_some_iff.1 hf
        simp only [LinFun.map, List.mem_map] at hp
        obtain ⟨q, hq, rfl⟩ := hp
        revert hf'
        simp only [algebraId]
        cases g <;> cases h <;> simp only [GenOps.simplifyProd, Gen.simplifyProd]
        all_goals try (intro hf; cases hf)
        all_goals split_ifs
        all_goals try (intro hf; cases hf)
        all_goals simp at hq
        all_goals first | done | (subst hq; rfl)
    | user u =>
      cases h with
      | pre h => rw [simp_diff (by have := pre_id h; have := ho.id_nonneg u; simp only [algebraId]; omega)] at hf; cases hf
      | user v =>
        have e' : UserGen.algebraId u = UserGen.algebraId v := e
        rw [simp_user e'] at hf
        obtain ⟨f', hf', rfl⟩ := Option.map_eq_some_iff.1 hf
        simp only [LinFun.map, List.mem_map] at hp
        obtain ⟨q, hq, rfl⟩ := hp
        rw [gt_user e'] at hg
        exact hcl.simp u v f' e' hg hf' q hq
  · rw [simp_diff e] at hf; cases hf

theorem conj_id (hcl : UserClosed U) (g : AllGen ι U) : ∀ p ∈ (GenOps.conj g).terms, p.1.algebraId = g.algebraId := by
  intro p hp
  cases g with
  | pre g => cases g <;> simp [GenOps.conj, AllGen.conj, LinFun.map, Gen.conj] at hp <;> subst hp <;> rfl
  | user u =>
    simp only [GenOps.conj, AllGen.conj, LinFun.map, List.mem_map] at hp
    obtain ⟨q, hq, rfl⟩ := hp
    exact hcl.conj u q hq

theorem closedIn (hM : HalfAlone M) (ho : UserOrder U) (hc : UserConfluent U) (hcl : UserClosed U) (X : Int → Prop) :
    ClosedGen (InAlgebras M X : AllGen ι U → Prop) := by
  have h := closed (U := U) hM ho
  have hn := nfGenAll (ι := ι) hM ho hc
  refine ⟨fun g k h1 h2 hg p hp => ⟨h.swap_mem g k h1.1 h2.1 hg p hp, ?_⟩,
    fun g k f h1 h2 hg hf p hp => ⟨h.simp_mem g k f h1.1 h2.1 hg hf p hp, ?_⟩,
    fun g p f h1 => h.red_false g p f h1.1, fun g p h1 hp hr q hq => ?_⟩
  · rw [swap_id ho hcl hg p hp]; exact h1.2
  · rw [simp_id ho hcl hg hf p hp]; exact h1.2
  · have := hn.red_vanish g p h1.1 hp hr
    rw [LinFun.vanishing, Bool.and_eq_true] at this
    have h2 := this.2
    simp at h2
    rw [h2] at hq; cases hq

end AllGen
open AllGen

/-- **C73** Expressions made of generators of different algebras – predefined or user-defined – commute. -/
theorem C73_different_algebras_commute [Star S] {M : Nat → ι → Prop} (hM : HalfAlone M) (ho : UserOrder U) (hz : UserNoZeros U)
    (hc : UserConfluent U) (hcl : UserClosed U) (X : Int → Prop) {a b : Expr (AllGen ι U) S}
    (ha : Reachable (fun g => AllowedAll M g ∧ X g.algebraId) a) (hb : Reachable (fun g => AllowedAll M g ∧ ¬ X g.algebraId) b) :
    (a * b).eqOp (b * a) = true := by
  classical
  have := AllGen.lawful (ι := ι) ho
  have := AllGen.goodGen (ι := ι) ho hz
  have hC := AllGen.conjOKAll (ι := ι) hz M
  have hN := AllGen.nfGenAll (ι := ι) hM ho hc
  have hCX : ∀ Y : Int → Prop, ConjOK (InAlgebras M Y : AllGen ι U → Prop) := fun Y =>
    ⟨hC.good, fun g h p hp => ⟨hC.mem g h.1 p hp, by rw [conj_id hcl g p hp]; exact h.2⟩⟩
  have ha' := ha.mono (P' := AllowedAll M) fun g h => h.1
  have hb' := hb.mono (P' := AllowedAll M) fun g h => h.1
  have hA := Reachable.inP (closedIn (U := U) hM ho hc hcl X) (hCX X) ha
  have hB := Reachable.inP (closedIn (U := U) hM ho hc hcl fun z => ¬ X z) (hCX _) hb
  rw [eqOp_iff]
  refine mul_comm_of_separates (b := fun g => decide (X g.algebraId)) hN ⟨fun x y h => ?_, fun x y h => ?_⟩ (ha'.wf hC.good)
    (hb'.wf hC.good) (ha'.allCanon hN hC) (hb'.allCanon hN hC) (fun p hp g hg => ?_) (fun p hp g hg => ?_)
  · exact swap_diff fun e => h (by simp only [e])
  · exact simp_diff fun e => h (by simp only [e])
  · simpa using (hA p hp g hg).2
  · simpa using (hB p hp g hg).2

/-- Fermions next to gamma matrices. -/
example : Reachable (fun g => AllowedAll (fun n _ => n = 2) g ∧ g.algebraId < 0)
      (Expr.ofMonomial 2 [.pre (.fermion true 1), .pre (.fermion false 2)] : Expr (AllGen Nat GammaGen) ℚ) ∧
    Reachable (fun g => AllowedAll (fun n _ => n = 2) g ∧ ¬ g.algebraId < 0)
      (Expr.ofMonomial 3 [.user ⟨0⟩, .user ⟨2⟩] : Expr (AllGen Nat GammaGen) ℚ) :=
  ⟨.ofMonomial _ _ (by simp [AllowedAll, Allowed, AllGen.algebraId, Gen.algebraId]),
   .ofMonomial _ _ (by simp [AllowedAll, AllGen.algebraId, UserGen.algebraId])⟩

/-! ### C74: faithful realisations -/

section
variable {B : Type _} [Ring B] [Algebra S B] {β : U → B}

/-- The hypotheses on the user's algebra: conditions on the virtual functions and operators `β` obeying exactly its relations. -/
structure UserComplete (S : Type _) [CommRing S] [ConstScalar S] {U B : Type _} [UserGen U] [Ring B] [Algebra S B] (β : U → B) :
    Prop where
  order : UserOrder U
  noZeros : UserNoZeros U
  confluent : UserConfluent U
  realisation : UserRealisation S β
  faithful : UserFaithful S β

/-- Fermions, bosons, spins-1/2 and user-defined generators. -/
abbrev FBSU : AllGen ι U → Prop := AllowedAll fun n _ => n = 2

section
variable [Star S] {a b c : Expr (AllGen ι U) S}

theorem UserComplete.wf (h : UserComplete S β) (ha : Reachable FBSU a) : a.WF := by
  have := AllGen.lawful (ι := ι) h.order
  have := AllGen.goodGen (ι := ι) h.order h.noZeros
  exact ha.wf (AllGen.conjOKAll (ι := ι) h.noZeros fun n _ => n = 2).good

theorem UserComplete.canon (h : UserComplete S β) (ha : Reachable FBSU a) : a.AllCanon (AllowedAll Reg.halfOnly) := by
  have := AllGen.lawful (ι := ι) h.order
  have := AllGen.goodGen (ι := ι) h.order h.noZeros
  exact Reachable.allCanon (AllGen.nfGenAll Reg.halfAlone h.order h.confluent) (AllGen.conjOKAll (ι := ι) h.noZeros _) ha

theorem UserComplete.inP (h : UserComplete S β) (ha : Reachable FBSU a) : a.InP FBSU := by
  have := AllGen.lawful (ι := ι) h.order
  exact (h.canon ha).inP

/-- A realisation in which different expressions are different operators. -/
theorem UserComplete.model {B : Type z} [Ring B] [Algebra S B] {β : U → B} (h : UserComplete S β) :
    ∃ (A : Type (max u v z)) (_ : Ring A) (_ : Algebra S A) (ρ : AllGen ι U → A), Realisation S (Reg.halfOnly (ι := ι)) ρ ∧
      (∀ a b : Expr (AllGen ι U) S, Reachable FBSU a → Reachable FBSU b → evalExpr ρ a = evalExpr ρ b → a = b) ∧
      (UserConjRelations S β → UserConjRelations S fun u => ρ (.user u)) := by
  have := AllGen.lawful (ι := ι) h.order
  exact ⟨(Module.End S (Reg.V ι S)) ⊗[S] B, inferInstance, inferInstance, side (S := S) (Reg.rep (ι := ι) (S := S)) β, side_realisation Reg.rep_textbook h.realisation,
    fun a b ha hb he => eq_of_side h.order h.faithful a b (h.wf ha) (h.wf hb) (h.canon ha) (h.canon hb) he,
    sideConj (S := S) (Reg.rep (ι := ι) (S := S))⟩

/-- **C74** Multiplication of expressions mixing fermions, bosons, spins-1/2 and generators of a user-defined algebra with a faithful
realisation is associative. -/
theorem C74_mul_assoc (h : UserComplete S β) (ha : Reachable FBSU a) (hb : Reachable FBSU b) (hc : Reachable FBSU c) :
    ((a * b) * c).eqOp (a * (b * c)) = true := by
  have := AllGen.lawful (ι := ι) h.order
  obtain ⟨A, _, _, ρ, hρ, ext, -⟩ := h.model (ι := ι)
  have hR := AllGen.represents h.order Reg.halfAlone hρ
  rw [eqOp_iff]
  refine ext _ _ ((ha.mul hb).mul hc) (ha.mul (hb.mul hc)) ?_
  rw [eval_mul hR (h.inP (ha.mul hb)) (h.inP hc), eval_mul hR (h.inP ha) (h.inP hb),
    eval_mul hR (h.inP ha) (h.inP (hb.mul hc)), eval_mul hR (h.inP hb) (h.inP hc), mul_assoc]

/-- **C74** Two such expressions compare equal iff they denote the same operator in every realisation. -/
theorem C74_eq_iff_same_operator {B : Type (max u v)} [Ring B] [Algebra S B] {β : U → B} (h : UserComplete S β)
    (ha : Reachable FBSU a) (hb : Reachable FBSU b) :
    a.eqOp b = true ↔ ∀ (A : Type (max u v)) [Ring A] [Algebra S A] (ρ : AllGen ι U → A),
      Realisation S (fun n _ => n = 2) ρ → evalExpr ρ a = evalExpr ρ b := by
  have := AllGen.lawful (ι := ι) h.order
  rw [eqOp_iff]
  constructor
  · rintro rfl A _ _ ρ _; rfl
  · intro he
    obtain ⟨A, _, _, ρ, hρ, ext, -⟩ := h.model (ι := ι)
    exact ext _ _ ha hb (he A ρ hρ)
end

variable [StarRing S] {a b : Expr (AllGen ι U) S}

/-- **C74** If moreover the operators written by `conj` obey the reversed relations, Hermitian conjugation is involutive, additive,
antilinear and reverses products. -/
theorem C74_conj (h : UserComplete S β) (hj : UserConjRelations S β) (x : S) (ha : Reachable FBSU a) (hb : Reachable FBSU b) :
    a.conj.conj.eqOp a = true ∧ (a + b).conj.eqOp (a.conj + b.conj) = true ∧
    (x • a).conj.eqOp (star x • a.conj) = true ∧ (a * b).conj.eqOp (b.conj * a.conj) = true ∧
    (Expr.const x : Expr (AllGen ι U) S).conj.eqOp (Expr.const (star x)) = true := by
  have := AllGen.lawful (ι := ι) h.order
  obtain ⟨A, _, _, ρ, hρ, ext, hcj⟩ := h.model (ι := ι)
  have hR := AllGen.represents h.order Reg.halfAlone hρ
  have hm := (AllGen.conjOKAll (ι := ι) h.noZeros fun n _ => n = 2).mem
  have hj' := hcj hj
  have hRT := AllGen.represents h.order Reg.halfAlone (twRealisation h.noZeros h.confluent hρ hj')
  have tw' : ∀ {e : Expr (AllGen ι U) S}, Reachable FBSU e → tw (evalExpr ρ e.conj) = evalExpr (twLin S ρ) e :=
    fun {e} he => eval_conj_twLin hR hm (h.inP he) (h.wf he).2
  simp only [eqOp_iff]
  refine ⟨?_, ?_, ?_, ?_, ?_⟩
  · refine ext _ _ (.conj (.conj ha)) ha (tw_inj ?_)
    rw [tw' (.conj ha), eval_conj_closed hRT hm (h.inP ha) (h.wf ha).2]
    simp only [evalExpr, evalTerms]
    have hg : (fun g => evalLin S (twLin S ρ) (GenOps.conj g)) = fun g => tw (ρ g) := by
      funext g; exact twLin_twLin h.noZeros hj' g
    rw [hg]
    have hp : ∀ m : List (AllGen ι U), (m.reverse.map fun g => tw (ρ g)).prod = tw (evalMon ρ m) := by
      intro m
      induction m with
      | nil => rfl
      | cons g m ih =>
        have : evalMon ρ (g :: m) = ρ g * evalMon ρ m := by simp [evalMon]
        rw [this, tw_mul, ← ih]
        simp
    simp only [hp]
    generalize a.terms = t
    induction t with
    | nil => rfl
    | cons p t ih => rw [List.map_cons, List.sum_cons, ih, tw_smul, star_star, List.map_cons, List.sum_cons, tw_add]
  · refine ext _ _ (.conj (ha.add hb)) (.add (.conj ha) (.conj hb)) (tw_inj ?_)
    rw [tw' (ha.add hb), eval_add, eval_add, tw_add, tw' ha, tw' hb]
  · have hx : Reachable FBSU (x • a) := Reachable.smulPrefix x ha
    have hy : Reachable FBSU (star x • a.conj) := Reachable.smulPrefix _ (.conj ha)
    refine ext _ _ (.conj hx) hy (tw_inj ?_)
    rw [tw' hx]
    simp only [smul_def]
    rw [eval_smul, eval_smul, ← tw' ha, tw_smul]
  · refine ext _ _ (.conj (ha.mul hb)) (.mul (.conj hb) (.conj ha)) (tw_inj ?_)
    rw [tw' (ha.mul hb), eval_mul hR (h.inP (.conj hb)) (h.inP (.conj ha)), tw_mul, tw' ha, tw' hb]
    exact eval_mul hRT (h.inP ha) (h.inP hb)
  · refine ext _ _ (.conj (.const x)) (.const _) (tw_inj ?_)
    rw [tw' (.const x), eval_const, eval_const]
    rfl

end
end LC
