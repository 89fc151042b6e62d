import Verif.Spec.Scalars
import Verif.Proof.TwoBody
import Verif.Proof.Conj
import Verif.Proof.Faithful
/-
C11, C12, C16 (for expressions), C17, C18: products, equality, conjugation, nilpotency.
-/
set_option linter.unusedSectionVars false
set_option linter.unusedSimpArgs false
namespace LC
open Expr Terms Factory
universe u v
variable {ι : Type u} {S : Type v} [LinearOrder ι] [CommRing S] [DecidableEq S] [ConstScalar S] [ScalarLaws S] [IsDomain S]
  [CharZero S]

/-- Fermions, bosons and spins-1/2 at any indices: the generators `c`, `c_dag`, `a`, `a_dag`, `S_p`, `S_m`, `S_z`. -/
def FBS : Gen ι → Prop
  | .fermion _ _ => True
  | .boson _ _ => True
  | .spin n _ _ => n = 2

theorem FBS_eq : (FBS : Gen ι → Prop) = Reg.PH := by
  funext g; cases g <;> rfl

section Basic
variable [Star S] {a b c : Expr (Gen ι) S}

theorem FBS.wf (h : Reachable FBS a) : a.WF := h.wf (conjOK (fun _ _ => True)).good
theorem FBS.canon (h : Reachable FBS a) : a.AllCanon Reg.PH := by
  rw [FBS_eq] at h; exact h.allCanon (nfGen _ Reg.halfAlone) (conjOK _)
theorem FBS.inP (h : Reachable FBS a) : a.InP Reg.PH := (FBS.canon h).inP

theorem FBS.ext (ha : Reachable FBS a) (hb : Reachable FBS b)
    (h : evalExpr (Reg.rep (S := S)) a = evalExpr (Reg.rep (S := S)) b) : a = b :=
  Reg.eq_of_rep (FBS.wf ha) (FBS.wf hb) (FBS.canon ha) (FBS.canon hb) h

theorem FBS.rep : Represents S Reg.PH (Reg.rep (ι := ι) (S := S)) := represents_of_textbook Reg.halfAlone Reg.rep_textbook

/-- **C11** Multiplication of expressions of fermions, bosons and spins-1/2 is associative. -/
theorem C11_mul_assoc (ha : Reachable FBS a) (hb : Reachable FBS b) (hc : Reachable FBS c) :
    ((a * b) * c).eqOp (a * (b * c)) = true := by
  rw [eqOp_iff]
  refine FBS.ext ((ha.mul hb).mul hc) (ha.mul (hb.mul hc)) ?_
  rw [eval_mul FBS.rep (FBS.inP (ha.mul hb)) (FBS.inP hc), eval_mul FBS.rep (FBS.inP ha) (FBS.inP hb),
    eval_mul FBS.rep (FBS.inP ha) (FBS.inP (hb.mul hc)), eval_mul FBS.rep (FBS.inP hb) (FBS.inP hc), mul_assoc]

/-- **C11** The constant expression 1 is a two-sided unit, for all spins. -/
theorem C11_unit {M : Nat → ι → Prop} (hM : HalfAlone M) (ha : Reachable (Allowed M) a) :
    (Expr.const 1 * a).eqOp a = true ∧ (a * Expr.const 1).eqOp a = true := by
  have hw := ha.wf (conjOK (fun _ _ => True)).good
  have hc := ha.allCanon (nfGen M hM) (conjOK M)
  have h1 : (Expr.const 1 : Expr (Gen ι) S).terms = [([], 1)] := by
    simp [Expr.const]
  have key : ∀ t : Terms (Gen ι) S, t.Canon → (∀ p ∈ t, CanonMon (Allowed M) p.1) →
      (t.flatMap fun p => emits p.1 p.2) = t := by
    intro t ht htc
    induction t with
    | nil => rfl
    | cons p t ih =>
      rw [List.flatMap_cons, ih ⟨(List.pairwise_cons.1 ht.1).2, fun q hq => ht.2 q (by simp [hq])⟩
        (fun q hq => htc q (by simp [hq])), emits_of_canon (nfGen M hM) p.1 (htc p (by simp)) p.2 (ht.2 p (by simp))]
      rfl
  have hst : ∀ t : Terms (Gen ι) S, t.Canon → storeAll t [] = t := by
    intro t ht
    refine canon_ext (canon_storeAll t ht.2 canon_nil) ht fun k => ?_
    rw [coeff_storeAll t canon_nil.1, coeff_nil, zero_add, coeff_eq_sumAt ht.1]
  constructor
  · rw [eqOp_iff, mul_def, h1]
    refine Expr.ext ?_
    simp only [mulLog, List.flatMap_cons, List.flatMap_nil, List.nil_append, List.append_nil, one_mul]
    rw [key _ hw hc, hst _ hw]
  · rw [eqOp_iff, mul_def, h1]
    refine Expr.ext ?_
    simp only [mulLog, List.flatMap_cons, List.flatMap_nil, List.nil_append, List.append_nil, mul_one]
    rw [key _ hw hc, hst _ hw]

/-- **C11 (finding F15)** For spins S ≥ 1 associativity fails: with spin 1, `(S_- * (S_+ * S_+)) * S_+` and
`S_- * ((S_+ * S_+) * S_+)` are different expressions (the second is 0, the first is not). -/
theorem C11_F15_spin_one_not_associative :
    (((spin 3 .minus (0 : Nat) : Expr _ ℚ) * (spin 3 .plus 0 * spin 3 .plus 0)) * spin 3 .plus 0).eqOp
      (spin 3 .minus 0 * ((spin 3 .plus 0 * spin 3 .plus 0) * spin 3 .plus 0)) = false ∧
    ((spin 3 .minus (0 : Nat) : Expr _ ℚ) * ((spin 3 .plus 0 * spin 3 .plus 0) * spin 3 .plus 0)).eqOp 0 = true := by
  decide +kernel

/-- **C12** Two expressions of fermions, bosons and spins-1/2 compare equal iff they denote the same operator in every
realisation of the textbook relations. -/
theorem C12_eq_iff_same_operator (ha : Reachable FBS a) (hb : Reachable FBS b) :
    a.eqOp b = true ↔ ∀ (A : Type (max u v)) [Ring A] [Algebra S A] (ρ : Gen ι → A),
      TextbookRel S (fun n _ => n = 2) ρ → evalExpr ρ a = evalExpr ρ b := by
  rw [eqOp_iff]
  constructor
  · rintro rfl A _ _ ρ _; rfl
  · intro h
    exact FBS.ext ha hb (h _ Reg.rep Reg.rep_textbook)

/-- **C12** in particular an expression is 0 iff the operator is. -/
theorem C12_zero_iff (ha : Reachable FBS a) :
    a.eqOp 0 = true ↔ ∀ (A : Type (max u v)) [Ring A] [Algebra S A] (ρ : Gen ι → A),
      TextbookRel S (fun n _ => n = 2) ρ → evalExpr ρ a = 0 := C12_eq_iff_same_operator ha .zero

/-- **C16** for expressions: fermionic, bosonic and spin-1/2 expressions commute with each other. -/
theorem C16_expressions_commute (ha : Reachable (fun g => FBS g ∧ g.algebraId = x) a)
    (hb : Reachable (fun g => FBS g ∧ g.algebraId = y) b) (hxy : x ≠ y) : (a * b).eqOp (b * a) = true := by
  have mono : ∀ {P : Gen ι → Prop} {e : Expr (Gen ι) S}, (∀ g, P g → FBS g) → Reachable P e → Reachable FBS e := by
    intro P e hP h
    induction h with
    | zero => exact .zero
    | const x => exact .const x
    | ofMonomial x m hm => exact .ofMonomial x m fun g hg => hP g (hm g hg)
    | add _ _ h1 h2 => exact .add h1 h2
    | sub _ _ h1 h2 => exact .sub h1 h2
    | mul _ _ h1 h2 => exact .mul h1 h2
    | neg _ h1 => exact .neg h1
    | addMixed _ _ h1 h2 => exact .addMixed h1 h2
    | subMixed _ _ h1 h2 => exact .subMixed h1 h2
    | smulPrefix x _ h1 => exact .smulPrefix x h1
    | smulPostfix x _ h1 => exact .smulPostfix x h1
    | smulAssign x _ h1 => exact .smulAssign x h1
    | addScalar x _ h1 => exact .addScalar x h1
    | scalarAdd x _ h1 => exact .scalarAdd x h1
    | addAssignScalar x _ h1 => exact .addAssignScalar x h1
    | subScalar x _ h1 => exact .subScalar x h1
    | subAssignScalar x _ h1 => exact .subAssignScalar x h1
    | scalarSub x _ h1 => exact .scalarSub x h1
    | transform f _ h1 => exact .transform f h1
    | conj _ h1 => exact .conj h1
  have hA := mono (fun g h => h.1) ha
  have hB := mono (fun g h => h.1) hb
  -- all stored generators belong to the right algebra
  have nf : ∀ z : Int, NFGen (fun g : Gen ι => FBS g ∧ g.algebraId = z) := by
    intro z
    have h0 := nfGen (Reg.halfOnly (ι := ι)) Reg.halfAlone
    have hP : ∀ g : Gen ι, FBS g ∧ g.algebraId = z → Allowed Reg.halfOnly g := fun g h => by
      have := h.1; rw [FBS_eq] at this; exact this
    refine ⟨?_, ?_, fun x y hx hy => h0.swap_ok x y (hP x hx) (hP y hy),
      fun g p f hg => h0.red_false g p f (hP g hg), fun g p hg => h0.red_vanish g p (hP g hg)⟩
    · intro g₁ g₂ h1 h2 hgt p hp
      refine ⟨by rw [FBS_eq]; exact h0.swap_mem g₁ g₂ (hP _ h1) (hP _ h2) hgt p hp, ?_⟩
      revert hp
      cases g₁ <;> cases g₂ <;>
        simp only [GenOps.swapWith, Gen.swapWith, Gen.swapSpinHalf, Gen.swapHigherSpin, List.not_mem_nil, false_imp_iff]
      split_ifs <;> simp <;> rintro rfl <;> exact h1.2
    · intro g₁ g₂ f h1 h2 hgt hf p hp
      refine ⟨by rw [FBS_eq]; exact h0.simp_mem g₁ g₂ f (hP _ h1) (hP _ h2) hgt hf p hp, ?_⟩
      revert hf
      cases g₁ <;> cases g₂ <;>
        simp only [GenOps.simplifyProd, Gen.simplifyProd]
      all_goals try (intro hf; cases hf)
      all_goals split_ifs
      all_goals try (intro hf; cases hf)
      all_goals simp at hp
      all_goals first | done | (subst hp; exact h1.2)
  have cj : ∀ z : Int, ConjOK (fun g : Gen ι => FBS g ∧ g.algebraId = z) := by
    intro z
    refine ⟨(conjOK (fun _ _ => True)).good, ?_⟩
    intro g hg p hp
    obtain ⟨h1, h2⟩ := hg
    cases g <;> simp [GenOps.conj, Gen.conj] at hp <;> subst hp <;> exact ⟨h1, h2⟩
  have hca := ha.allCanon (nf x) (cj x)
  have hcb := hb.allCanon (nf y) (cj y)
  rw [eqOp_iff]
  refine FBS.ext (hA.mul hB) (hB.mul hA) ?_
  rw [eval_mul FBS.rep (FBS.inP hA) (FBS.inP hB), eval_mul FBS.rep (FBS.inP hB) (FBS.inP hA)]
  have hg : ∀ g h : Gen ι, FBS g ∧ g.algebraId = x → FBS h ∧ h.algebraId = y →
      Commute (Reg.rep (S := S) g) (Reg.rep h) := by
    intro g h ⟨h1, h2⟩ ⟨h3, h4⟩
    have T := Reg.rep_textbook (ι := ι) (S := S)
    have hne : g.algebraId ≠ h.algebraId := by rw [h2, h4]; exact hxy
    cases g <;> cases h <;> simp [Gen.algebraId] at hne
    · exact T.comm_fb _ _ _ _
    · exact T.comm_fs _ _ _ _ _ h3
    · exact (T.comm_fb _ _ _ _).symm
    · exact T.comm_bs _ _ _ _ _ h3
    · exact (T.comm_fs _ _ _ _ _ h1).symm
    · exact (T.comm_bs _ _ _ _ _ h1).symm
  have hmon : ∀ m n : List (Gen ι), (∀ g ∈ m, FBS g ∧ g.algebraId = x) → (∀ g ∈ n, FBS g ∧ g.algebraId = y) →
      Commute (evalMon (Reg.rep (S := S)) m) (evalMon Reg.rep n) := by
    intro m n hm hn
    refine Commute.list_prod_right _ _ fun z hz => ?_
    obtain ⟨h, hh, rfl⟩ := List.mem_map.1 hz
    refine Commute.list_prod_left _ _ fun w hw => ?_
    obtain ⟨g, hg', rfl⟩ := List.mem_map.1 hw
    exact hg g h (hm g hg') (hn h hh)
  refine Commute.list_sum_right _ _ fun z hz => ?_
  obtain ⟨q, hq, rfl⟩ := List.mem_map.1 hz
  refine Commute.list_sum_left _ _ fun w hw => ?_
  obtain ⟨p, hp, rfl⟩ := List.mem_map.1 hw
  exact ((hmon _ _ (hca p hp).mem (hcb q hq).mem).smul_left _).smul_right _

end Basic

section Conj
variable [StarRing S] {a b : Expr (Gen ι) S}

/-- **C17** Hermitian conjugation is involutive, additive, antilinear and reverses products. -/
theorem C17_conj (x : S) (ha : Reachable FBS a) (hb : Reachable FBS b) :
    a.conj.conj.eqOp a = true ∧ (a + b).conj.eqOp (a.conj + b.conj) = true ∧
    (x • a).conj.eqOp (star x • a.conj) = true ∧ (a * b).conj.eqOp (b.conj * a.conj) = true ∧
    (Expr.const x : Expr (Gen ι) S).conj.eqOp (Expr.const (star x)) = true := by
  have T := Reg.rep_textbook (ι := ι) (S := S)
  have H := Reg.halfAlone (ι := ι)
  have tw' : ∀ {e : Expr (Gen ι) S}, Reachable FBS e →
      tw (evalExpr (Reg.rep (S := S)) e.conj) = evalExpr (twRep (Reg.rep (S := S))) e :=
    fun {e} he => eval_conj_tw H T (FBS.inP he) (FBS.wf he).2
  have hR := represents_of_textbook H (tw_textbook (S := S) T)
  simp only [eqOp_iff]
  refine ⟨?_, ?_, ?_, ?_, ?_⟩
  · exact FBS.ext (.conj (.conj ha)) ha (eval_conj_conj H T (FBS.wf ha) (FBS.canon ha))
  · refine FBS.ext (.conj (ha.add hb)) (.add (.conj ha) (.conj hb)) (tw_inj ?_)
    rw [tw' (ha.add hb), eval_add, eval_add, tw_add, tw' ha, tw' hb]
  · have hx : Reachable FBS (x • a) := Reachable.smulPrefix x ha
    have hy : Reachable FBS (star x • a.conj) := Reachable.smulPrefix _ (.conj ha)
    refine FBS.ext (.conj hx) hy (tw_inj ?_)
    rw [tw' hx]
    simp only [smul_def]
    rw [eval_smul, eval_smul, ← tw' ha, tw_smul]
  · refine FBS.ext (.conj (ha.mul hb)) (.mul (.conj hb) (.conj ha)) (tw_inj ?_)
    rw [tw' (ha.mul hb), eval_mul FBS.rep (FBS.inP (.conj hb)) (FBS.inP (.conj ha)), tw_mul, tw' ha, tw' hb]
    exact eval_mul hR (FBS.inP ha) (FBS.inP hb)
  · refine FBS.ext (.conj (.const x)) (.const _) (tw_inj ?_)
    rw [tw' (.const x), eval_const, eval_const]
    rfl

/-- **C17** `e + hc` is Hermitian and `e - hc` anti-Hermitian. -/
theorem C17_hc (ha : Reachable FBS a) :
    a.plusHc.conj.eqOp a.plusHc = true ∧ a.minusHc.conj.eqOp (-a.minusHc) = true := by
  have T := Reg.rep_textbook (ι := ι) (S := S)
  have H := Reg.halfAlone (ι := ι)
  have tw' : ∀ {e : Expr (Gen ι) S}, Reachable FBS e →
      tw (evalExpr (Reg.rep (S := S)) e.conj) = evalExpr (twRep (Reg.rep (S := S))) e :=
    fun {e} he => eval_conj_tw H T (FBS.inP he) (FBS.wf he).2
  have hcc := eval_conj_conj H T (FBS.wf ha) (FBS.canon ha)
  have h1 : evalExpr (twRep (Reg.rep (S := S))) a.conj = tw (evalExpr (Reg.rep (S := S)) a) := by
    rw [← tw' (.conj ha), hcc]
  simp only [eqOp_iff, plusHc, minusHc]
  constructor
  · refine FBS.ext (.conj (ha.add (.conj ha))) (ha.add (.conj ha)) (tw_inj ?_)
    rw [tw' (ha.add (.conj ha)), eval_add, eval_add, tw_add, h1, tw' ha, add_comm]
  · refine FBS.ext (.conj (ha.sub (.conj ha))) (.neg (ha.sub (.conj ha))) (tw_inj ?_)
    rw [tw' (ha.sub (.conj ha)), eval_sub, eval_neg, eval_sub, neg_sub, tw_sub, h1, tw' ha]

end Conj

example : Reachable FBS ((2 : ℚ) • (cDag (1 : Nat) * c 2 * spin 2 .plus 0) + aDag 7 : Expr (Gen Nat) ℚ) :=
  .add (.smulPrefix _ (.mul (.mul (.ofMonomial _ _ (by simp [FBS])) (.ofMonomial _ _ (by simp [FBS])))
    (.ofMonomial _ _ (by simp [FBS])))) (.ofMonomial _ _ (by simp [FBS]))

/-- `k`-fold product of an expression with itself. -/
def powExpr (e : Expr (Gen ι) S) : Nat → Expr (Gen ι) S
  | 0 => Expr.const 1
  | k + 1 => powExpr e k * e

theorem reduceLoop_ladder {T : Type _} {st N R : List (Gen ι) → S → T → T} (n : Nat) (hn : 3 ≤ n) (comp : SpinComp) (hz : comp ≠ .z)
    (i : ι) (c : S) (t : T) (r j : Nat) (hj : j + 1 < n) (h : n ≤ j + 1 + r) :
    reduceLoop st N R [] (List.replicate (j + 1) (Gen.spin n comp i)) (Gen.spin n comp i)
      (List.replicate r (Gen.spin n comp i)) LinFun.zero c t = t := by
  induction r generalizing j with
  | zero => omega
  | succ r ih =>
    have hself : GenOps.eq (Gen.spin n comp i) (Gen.spin n comp i) = true := (LawfulGen.eq_iff _ _).2 rfl
    rw [List.replicate_succ (n := r)]
    simp only [reduceLoop, hself, if_true, List.length_replicate]
    have hrep : List.replicate (j + 1) (Gen.spin n comp i) ++ [Gen.spin n comp i]
        = List.replicate (j + 1 + 1) (Gen.spin n comp i) := by rw [List.replicate_succ' (n := j + 1)]
    by_cases h2 : j + 1 + 1 > 2
    · rw [if_pos h2]
      by_cases h3 : n ≤ j + 1 + 1
      · simp [GenOps.reducePower, Gen.reducePower, hz, h3, LinFun.vanishing, LinFun.zero, VarNumber.isZero]
      · have : (GenOps.reducePower (Gen.spin n comp i) (j + 1 + 1) LinFun.zero).1 = false := by
          simp [GenOps.reducePower, Gen.reducePower, hz]; omega
        simp only [this, Bool.false_eq_true, if_false, hrep]
        exact ih (j + 1) (by omega) (by omega)
    · rw [if_neg h2, hrep]
      exact ih (j + 1) (by omega) (by omega)

theorem emits_ladder (n : Nat) (hn : 3 ≤ n) (comp : SpinComp) (hz : comp ≠ .z) (i : ι) (k : Nat) (h : n ≤ k) :
    emits (List.replicate k (Gen.spin n comp i)) (1 : S) = [] := by
  have hchain : ∀ k, (List.replicate k (Gen.spin n comp i)).IsChain OKPair := by
    intro k
    apply List.isChain_replicate_of_rel
    refine ⟨ngt_refl _, ?_⟩
    have : n ≠ 2 := by omega
    simp [GenOps.simplifyProd, Gen.simplifyProd, this]
  obtain ⟨r, rfl⟩ : ∃ r, k = r + 1 := ⟨k - 1, by omega⟩
  rw [emits, normalize_eq]
  simp only [normStep]
  rw [if_pos (by simp; omega), sortLoop_of_chain _ _ _ (hchain _)]
  simp only [one_ne_zero, if_false]
  rw [reduce_eq, List.replicate_succ]
  simp only [reduceStep]
  exact reduceLoop_ladder n hn comp hz i 1 [] r 0 (by omega) (by omega)

/-- **C18** Powers of spin ladder operators: `S_±^k` is 0 iff `k` reaches the multiplicity; lower powers are stored
as they are. -/
theorem C18_ladder_powers (n : Nat) (hn : 2 ≤ n) (comp : SpinComp) (hz : comp ≠ .z) (i : ι) (k : Nat) :
    (powExpr (spin n comp i : Expr (Gen ι) S) k).terms
      = if k < n then [(List.replicate k (Gen.spin n comp i), 1)] else [] := by
  by_cases h2 : n = 2
  · subst h2
    have h0 : emits [Gen.spin 2 comp i, Gen.spin 2 comp i] (1 : S) = [] := by
      have hs : GenOps.simplifyProd (Gen.spin 2 comp i) (Gen.spin 2 comp i) = some ⟨.integer 0, []⟩ := by
        simp [GenOps.simplifyProd, Gen.simplifyProd, hz]
      rw [emits_simp (ngt_refl _) hs]
      simp [linLog, VarNumber.isZero]
    have hk : ∀ k, (powExpr (spin 2 comp i : Expr (Gen ι) S) (k + 2)).terms = [] := by
      intro k
      induction k with
      | zero =>
        simp only [powExpr, mul_def, spin, ofMonomial_single_terms]
        simp [Expr.const, mulLog, emits_single, storeAll, Terms.store, Terms.find?, Terms.emplace, h0]
      | succ k ih =>
        rw [show k + 1 + 2 = (k + 2) + 1 by omega, powExpr, mul_def, ih]; rfl
    match k with
    | 0 => simp [powExpr, Expr.const]
    | 1 => simp [powExpr, mul_def, spin, ofMonomial_single_terms, Expr.const, mulLog, emits_single, storeAll,
            Terms.store, Terms.find?, Terms.emplace]
    | k + 2 => rw [hk, if_neg (by omega)]
  · induction k with
    | zero => rw [if_pos (by omega)]; simp [powExpr, Expr.const]
    | succ k ih =>
      rw [powExpr, mul_def, ih]
      simp only [spin, ofMonomial_single_terms]
      by_cases hk : k < n
      · rw [if_pos hk]
        simp only [mulLog, List.flatMap_cons, List.flatMap_nil, List.append_nil, mul_one]
        have hrep : List.replicate k (Gen.spin n comp i) ++ [Gen.spin n comp i] = List.replicate (k + 1) (Gen.spin n comp i) := by
          rw [List.replicate_succ']
        rw [hrep]
        by_cases hk' : k + 1 < n
        · rw [if_pos hk']
          have hc : CanonMon (Allowed (fun m (_ : ι) => m = n)) (List.replicate (k + 1) (Gen.spin n comp i)) := by
            refine ⟨?_, ?_, ?_⟩
            · intro g hg; rw [(List.mem_replicate.1 hg).2]; rfl
            · apply List.isChain_replicate_of_rel
              exact ⟨ngt_refl _, by simp [GenOps.simplifyProd, Gen.simplifyProd, h2]⟩
            · intro g hg p hp hpc
              rw [(List.mem_replicate.1 hg).2] at hpc ⊢
              have := hpc.trans List.countP_le_length
              simp only [List.length_replicate] at this
              simp [GenOps.reducePower, Gen.reducePower, hz]; omega
          rw [emits_of_canon (nfGen (fun m (_ : ι) => m = n) (by intro i m h h'; omega)) _ hc 1 one_ne_zero]
          rfl
        · rw [if_neg hk', emits_ladder n (by omega) comp hz i (k + 1) (by omega)]
          rfl
      · rw [if_neg hk, if_neg (by omega)]; rfl

/-- **C18** as `==`: the power vanishes as soon as the multiplicity is reached, and not before. -/
theorem C18_ladder_zero_iff (n : Nat) (hn : 2 ≤ n) (comp : SpinComp) (hz : comp ≠ .z) (i : ι) (k : Nat) :
    (powExpr (spin n comp i : Expr (Gen ι) S) k).eqOp 0 = true ↔ n ≤ k := by
  rw [eqOp_iff]
  constructor
  · intro h
    have := C18_ladder_powers (S := S) n hn comp hz i k
    rw [h] at this
    by_contra hk
    rw [if_pos (by omega)] at this
    cases this
  · intro h
    refine Expr.ext ?_
    rw [C18_ladder_powers n hn comp hz i k, if_neg (by omega)]; rfl

/-- **C18** `c(i)^2 == c_dag(i)^2 == 0`. -/
theorem C18_fermion_squares (d : Bool) (i : ι) :
    (ofMonomial (1 : S) [.fermion d i] * ofMonomial 1 [.fermion d i] : Expr (Gen ι) S).eqOp 0 = true := by
  rw [eqOp_iff, mul_single]
  refine Expr.ext ?_
  have hs : GenOps.simplifyProd (Gen.fermion d i) (Gen.fermion d i) = some ⟨.integer 0, []⟩ := by
    simp [GenOps.simplifyProd, Gen.simplifyProd, Gen.eqOp, Gen.equal]
  simp only [ofMonomial, if_neg (one_ne_zero : (1 : S) ≠ 0)]
  rw [normalize_store, emits_simp (ngt_refl _) hs]
  simp [linLog, VarNumber.isZero, storeAll]; rfl

/-- **C18** in any product of fermions, bosons and spins-1/2: a repeated fermionic or spin-1/2 ladder operator makes the
whole expression vanish. -/
theorem C18_in_any_product_partial (x : S) (pre post : List (Gen ι)) (g : Gen ι) (k : Nat) (hk : 2 ≤ k)
    (hg : (∃ d i, g = .fermion d i) ∨ (∃ c i, c ≠ .z ∧ g = .spin 2 c i))
    (hpre : ∀ h ∈ pre, FBS h) (hpost : ∀ h ∈ post, FBS h) :
    (ofMonomial x (pre ++ List.replicate k g ++ post) : Expr (Gen ι) S).eqOp 0 = true := by
  have T := Reg.rep_textbook (ι := ι) (S := S)
  have hgP : Reg.PH g := by
    rcases hg with ⟨d, i, rfl⟩ | ⟨c, i, _, rfl⟩
    · trivial
    · rfl
  have hmem : ∀ h ∈ pre ++ List.replicate k g ++ post, Reg.PH h := by
    intro h hh
    simp only [List.mem_append, List.mem_replicate] at hh
    rcases hh with (hh | hh) | hh
    · have := hpre h hh; rwa [FBS_eq] at this
    · rw [hh.2]; exact hgP
    · have := hpost h hh; rwa [FBS_eq] at this
  rw [eqOp_iff]
  refine Reg.eq_of_rep (wf_ofMonomial _ _) wf_zero (ac_ofMonomial (nfGen _ Reg.halfAlone) x _ hmem) ac_zero ?_
  rw [eval_ofMonomial (represents_of_textbook Reg.halfAlone T) x _ hmem, eval_zero]
  have hsq : Reg.rep (S := S) g * Reg.rep g = 0 := by
    rcases hg with ⟨d, i, rfl⟩ | ⟨c, i, hz, rfl⟩
    · have h := T.car d i d i
      simp only [ne_eq, not_true_eq_false, and_false, if_false] at h
      have h2 : ∀ y : Module.End S (Reg.V ι S), y + y = 0 → y = 0 := by
        intro y hy
        have e : y = (ConstScalar.makeConst (.rational 1 2) : S) • (y + y) := by
          rw [← two_smul S y, smul_smul, mul_comm, mk_half, one_smul]
        rw [e, hy, smul_zero]
      exact h2 _ h
    · have := T.spin_nil 2 c i rfl hz
      rwa [pow_two] at this
  have hpow : (Reg.rep (S := S) g) ^ k = 0 := by
    obtain ⟨r, rfl⟩ : ∃ r, k = 2 + r := ⟨k - 2, by omega⟩
    rw [pow_add, pow_two, hsq, zero_mul]
  simp [evalMon, hpow]

example : (ofMonomial (3 : ℚ) ([.fermion false 2] ++ List.replicate 2 (Gen.fermion true (1 : Nat)) ++ [.fermion false 1])).eqOp 0
    = true := C18_in_any_product_partial _ _ _ _ _ (by omega) (Or.inl ⟨_, _, rfl⟩) (by simp [FBS]) (by simp [FBS])

/-- **C18 (finding F15)** For spins S ≥ 1 "in any product" fails: the product `S_- S_+ S_+ S_+` of spin-1 operators is
not reduced to 0 (it is stored as a non-zero expression although the operator vanishes). -/
theorem C18_F15_spin_one_product_survives :
    (ofMonomial (G := Gen Nat) (1 : ℚ) [.spin 3 .minus 0, .spin 3 .plus 0, .spin 3 .plus 0, .spin 3 .plus 0]).eqOp 0
      = false := by decide +kernel

end LC
