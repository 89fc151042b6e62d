import Verif.Spec.Scalars
import Verif.Props.Order
import Verif.Props.Normalisation
import Verif.Proof.UserAlgebra
import Verif.Proof.Commuting
import Verif.Proof.GammaRep
import Verif.Proof.ConjUser
/-
C70–C74: user-defined algebras, alone and together with the predefined ones.
`AllGen ι U` is the type of generators: predefined ones with indices in `ι`, or objects of the user's classes `U`.
-/
set_option linter.unusedSectionVars false
set_option linter.unusedVariables false
namespace LC
open Expr Terms
universe u v w
variable {ι : Type u} {U : Type w} {S : Type v} [LinearOrder ι] [UserGen U] [CommRing S] [DecidableEq S] [ConstScalar S]
  [ScalarLaws S]

/-! ### C70: the order -/

/-- **C70** If the virtual comparisons of the user's classes are a strict total order within each algebra, then `==`, `<`, `>` are
one for all generators, predefined and user-defined. -/
theorem C70_user_order (h : UserOrder U) :
    StrictTotalOps (AllGen.eqOp (ι := ι) (U := U)) AllGen.ltOp AllGen.gtOp := by
  have L := AllGen.lawful (ι := ι) h
  exact strictTotalOps_of L.eq_iff L.lt_irrefl L.lt_trans L.lt_tri L.gt_iff

/-- **C70** (layout) predefined generators precede user-defined ones and keep their order; user-defined generators are ordered by
algebra ID first and by their own `less` within an algebra. -/
theorem C70_layout (h : UserOrder U) :
    (∀ (g : Gen ι) (u : U), AllGen.ltOp (.pre g) (.user u) = true) ∧
    (∀ g g' : Gen ι, AllGen.ltOp (.pre g : AllGen ι U) (.pre g') = Gen.ltOp g g') ∧
    (∀ u v : U, UserGen.algebraId u < UserGen.algebraId v → AllGen.ltOp (.user u : AllGen ι U) (.user v) = true) ∧
    (∀ u v : U, UserGen.algebraId u = UserGen.algebraId v →
      AllGen.ltOp (.user u : AllGen ι U) (.user v) = UserGen.less u v) := by
  refine ⟨fun g u => ?_, fun g g' => rfl, fun u v e => ?_, fun u v e => ?_⟩
  · refine (AllGen.ltOp_iff _ _).2 (Or.inl ?_)
    have := AllGen.pre_id g; have := h.id_nonneg u; simp only [AllGen.algebraId]; omega
  · exact (AllGen.ltOp_iff _ _).2 (Or.inl e)
  · simp [AllGen.ltOp, AllGen.algebraId, e, AllGen.less]

/-- **C70** The comparisons inherited from `generator` satisfy the hypothesis if generators of one algebra with the same indices
are the same. -/
theorem C70_inherited_comparisons {κ : Type _} [LinearOrder κ] (indices : U → κ) (hid : ∀ u : U, 0 ≤ UserGen.algebraId u)
    (hinj : ∀ u v : U, UserGen.algebraId u = UserGen.algebraId v → indices u = indices v → u = v)
    (he : ∀ u v : U, UserGen.equal u v = UserGen.defaultEqual indices u v)
    (hl : ∀ u v : U, UserGen.less u v = UserGen.defaultLess indices u v)
    (hg : ∀ u v : U, UserGen.greater u v = UserGen.defaultGreater indices u v) : UserOrder U where
  id_nonneg := hid
  eq_iff u v e := by
    rw [he, UserGen.defaultEqual, decide_eq_true_eq]
    exact ⟨hinj u v e, fun h => by rw [h]⟩
  lt_irrefl u := by rw [hl]; simp [UserGen.defaultLess]
  lt_trans u v w _ _ := by
    simp only [hl, UserGen.defaultLess, decide_eq_true_eq]; exact lt_trans
  lt_tri u v e := by
    simp only [hl, UserGen.defaultLess, decide_eq_true_eq]
    rcases lt_trichotomy (indices u) (indices v) with h | h | h
    · exact Or.inl h
    · exact Or.inr (Or.inl (hinj u v e h))
    · exact Or.inr (Or.inr h)
  gt_iff u v _ := by rw [hg, hl]; rfl

theorem gamma_order : UserOrder GammaGen :=
  C70_inherited_comparisons GammaGen.index (fun _ => le_refl _) (fun u v _ h => by cases u; cases v; simp_all)
    (fun _ _ => rfl) (fun _ _ => rfl) (fun _ _ => rfl)
theorem virasoro_order : UserOrder VirasoroGen :=
  C70_inherited_comparisons VirasoroGen.index (fun _ => le_refl _) (fun u v _ h => by cases u; cases v; simp_all)
    (fun _ _ => rfl) (fun _ _ => rfl) (fun _ _ => rfl)

example : AllGen.ltOp (.pre (.spin 2 .z 5) : AllGen Nat GammaGen) (.user ⟨-3⟩) = true ∧
    AllGen.ltOp (.user ⟨-3⟩ : AllGen Nat GammaGen) (.user ⟨2⟩) = true := by decide

/-! ### C71: soundness -/

section
variable {A : Type _} [Ring A] [Algebra S A] {M : Nat → ι → Prop} {ρ : AllGen ι U → A}

/-- **C71** The constructor from a product of generators keeps the operator, in every realisation of the predefined and the user's
relations. -/
theorem C71_normalisation_sound (ho : UserOrder U) (hM : HalfAlone M) (h : Realisation S M ρ) (x : S) (m : List (AllGen ι U))
    (hm : ∀ g ∈ m, AllowedAll M g) : evalExpr ρ (Expr.ofMonomial x m) = x • evalMon ρ m := by
  have := AllGen.lawful (ι := ι) ho
  exact eval_ofMonomial (AllGen.represents ho hM h) x m hm

/-- **C71** Arithmetic is arithmetic of operators, and the results contain generators of the same kind only. -/
theorem C71_arithmetic_sound (ho : UserOrder U) (hM : HalfAlone M) (h : Realisation S M ρ) (x : S) (a b : Expr (AllGen ι U) S)
    (ha : ∀ p ∈ a.terms, ∀ g ∈ p.1, AllowedAll M g) (hb : ∀ p ∈ b.terms, ∀ g ∈ p.1, AllowedAll M g) :
    evalExpr ρ (a + b) = evalExpr ρ a + evalExpr ρ b ∧ evalExpr ρ (a - b) = evalExpr ρ a - evalExpr ρ b ∧
    evalExpr ρ (-a) = - evalExpr ρ a ∧ evalExpr ρ (x • a) = x • evalExpr ρ a ∧
    evalExpr ρ (a * b) = evalExpr ρ a * evalExpr ρ b ∧ (∀ p ∈ (a * b).terms, ∀ g ∈ p.1, AllowedAll M g) := by
  have := AllGen.lawful (ι := ι) ho
  have hR := AllGen.represents ho hM h
  exact ⟨eval_add a b, eval_sub a b, eval_neg a, eval_smul x a, eval_mul hR ha hb, inP_mul hR.closed ha hb⟩

/-- **C71** In a `*`-algebra in which `conj` of every generator is its adjoint, `conj` of every expression is. -/
theorem C71_conj_sound [IsDomain S] [CharZero S] [StarRing S] [StarRing A] [StarModule S A] (ho : UserOrder U)
    (hz : UserNoZeros U) (hM : HalfAlone M) (h : Realisation S M ρ) (hA : AdjointRealisation S M ρ)
    {a : Expr (AllGen ι U) S} (ha : Reachable (AllowedAll M) a) : evalExpr ρ a.conj = star (evalExpr ρ a) := by
  have := AllGen.lawful (ι := ι) ho
  have := AllGen.goodGen (ι := ι) ho hz
  have hR := AllGen.represents ho hM h
  have hC := AllGen.conjOKAll (ι := ι) hz M
  exact eval_conj_star hR hC.mem hA (ha.inP hR.closed hC) (ha.wf hC.good).2
end

/-! ### C72: what is stored -/

section
variable [IsDomain S] [CharZero S] [Star S] {M : Nat → ι → Prop} {a : Expr (AllGen ι U) S}

/-- **C72** (partial) The monomials of an expression are pairwise distinct and strictly increasing, and no coefficient is zero,
provided no virtual function writes terms `0 * g` or returns a zero constant other than the integer 0. -/
theorem C72_canonical_map_partial (ho : UserOrder U) (hz : UserNoZeros U) {P : AllGen ι U → Prop} (h : Reachable P a) :
    a.terms.Pairwise (fun p q => monLt p.1 q.1 = true) ∧ (a.terms.map Prod.fst).Nodup ∧ ∀ p ∈ a.terms, p.2 ≠ 0 := by
  have := AllGen.lawful (ι := ι) ho
  have := AllGen.goodGen (ι := ι) ho hz
  have hw := h.wf (AllGen.conjOKAll (ι := ι) hz fun _ _ => True).good
  refine ⟨hw.1, ?_, hw.2⟩
  rw [List.nodup_iff_pairwise_ne, List.pairwise_map]
  exact hw.1.imp fun h => monLt_ne h

/-- **C72** (partial) Every stored monomial consists of a fully normalised product of predefined generators followed by a product
of user-defined ones to which no rule applies, provided also that exchanged pairs cannot be simplified and powers reduce to zero
only. -/
theorem C72_stored_monomials_partial (ho : UserOrder U) (hz : UserNoZeros U) (hc : UserConfluent U) (hM : HalfAlone M)
    (h : Reachable (AllowedAll M) a) :
    ∀ p ∈ a.terms, ∃ (l : List (Gen ι)) (r : List U), p.1 = l.map .pre ++ r.map .user ∧ StoredForm l ∧ UserStored r := by
  have := AllGen.lawful (ι := ι) ho
  have := AllGen.goodGen (ι := ι) ho hz
  have hA := h.allCanon (AllGen.nfGenAll hM ho hc) (AllGen.conjOKAll (ι := ι) hz M)
  intro p hp
  have hp := hA p hp
  exact ⟨_, _, AllGen.eq_parts ho hp.chain, storedForm_of_canon (AllGen.canon_pre ho hp), AllGen.stored_user ho hp⟩

theorem gamma_noZeros : UserNoZeros GammaGen where
  swap_const u v _ _ := Or.inr ⟨trivial, by simp [UserGen.swapWith, VarNumber.rat]⟩
  swap u v _ _ := ⟨trivial, by simp [UserGen.swapWith], by simp [UserGen.swapWith]⟩
  simp u v f _ _ h := by
    simp only [UserGen.simplifyProd] at h
    split at h
    · cases h; exact ⟨trivial, by simp, by simp⟩
    · cases h
  conj u := ⟨trivial, by simp [UserGen.conj, VarNumber.Defined], by
    simp only [UserGen.conj, List.mem_singleton, forall_eq, VarNumber.rat]; split <;> simp⟩

theorem gamma_confluent : UserConfluent GammaGen where
  swap_simp u v _ h _ := by
    simp only [UserGen.greater, UserGen.defaultGreater, decide_eq_true_eq, gt_iff_lt] at h
    simp [UserGen.simplifyProd, h.ne]
  red_zero u p f _ h := by cases h

theorem gamma_closed : UserClosed GammaGen := ⟨fun _ _ _ _ _ _ => rfl, fun _ _ _ _ _ _ _ _ => rfl, fun _ _ _ => rfl⟩

theorem virasoro_noZeros : UserNoZeros VirasoroGen where
  swap_const u v _ _ := Or.inr ⟨trivial, by simp [UserGen.swapWith, VarNumber.rat]⟩
  swap u v _ h := ⟨trivial, by simp [UserGen.swapWith, VarNumber.Defined], by
    simp only [UserGen.greater, UserGen.defaultGreater, decide_eq_true_eq, gt_iff_lt] at h
    simp only [UserGen.swapWith, List.mem_singleton, forall_eq, VarNumber.rat]
    have : u.index - v.index ≠ 0 := by omega
    exact_mod_cast this⟩
  simp u v f _ _ h := by
    simp only [UserGen.simplifyProd] at h
    split at h
    · cases h; exact ⟨trivial, by simp, by simp⟩
    · cases h
  conj u := ⟨trivial, by simp [UserGen.conj, VarNumber.Defined], by simp [UserGen.conj, VarNumber.rat]⟩

theorem virasoro_confluent : UserConfluent VirasoroGen where
  swap_simp u v _ h _ := by
    simp only [UserGen.greater, UserGen.defaultGreater, decide_eq_true_eq, gt_iff_lt] at h
    simp [UserGen.simplifyProd, h.ne]
  red_zero u p f _ h := by cases h

theorem virasoro_closed : UserClosed VirasoroGen := ⟨fun _ _ _ _ _ _ => rfl, fun _ _ _ _ _ _ _ _ => rfl, fun _ _ _ => rfl⟩

end
end LC
