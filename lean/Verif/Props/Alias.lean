import Verif.Model.Alias
import Verif.Props.Expression
/-
C22: compound assignments with aliased operands.
-/
set_option linter.unusedSectionVars false
set_option linter.unusedSimpArgs false
namespace LC
open Expr Terms
variable {ι S : Type _} [LinearOrder ι] [CommRing S] [DecidableEq S] [ConstScalar S] [ScalarLaws S] [IsDomain S]
  [CharZero S] [Star S] {P : Gen ι → Prop} {a : Expr (Gen ι) S}

theorem nextKey_append {pre : Terms (Gen ι) S} {k : List (Gen ι)} {v : S} {rest : Terms (Gen ι) S}
    (h : Sorted (pre ++ (k, v) :: rest)) : nextKey k (pre ++ (k, v) :: rest) = firstKey rest := by
  induction pre with
  | nil =>
    simp only [List.nil_append, nextKey, monLt_irrefl, Bool.false_eq_true, if_false]
    cases rest with
    | nil => rfl
    | cons p rest =>
      have := (List.pairwise_cons.1 h).1 p (by simp)
      simp [nextKey, firstKey, this]
  | cons p pre ih =>
    have h1 := (List.pairwise_cons.1 h).1 (k, v) (by simp)
    simp only [List.cons_append, nextKey, monLt_asymm h1, Bool.false_eq_true, if_false]
    exact ih (List.pairwise_cons.1 h).2

theorem assign_append {pre : Terms (Gen ι) S} {k : List (Gen ι)} {v w : S} {rest : Terms (Gen ι) S}
    (h : Sorted (pre ++ (k, v) :: rest)) : assign k w (pre ++ (k, v) :: rest) = pre ++ (k, w) :: rest := by
  induction pre with
  | nil => simp [assign, monLt_irrefl]
  | cons p pre ih =>
    have h1 := (List.pairwise_cons.1 h).1 (k, v) (by simp)
    simp only [List.cons_append, assign, h1, if_true, ih (List.pairwise_cons.1 h).2]

theorem sorted_replace {pre : Terms (Gen ι) S} {k : List (Gen ι)} {v w : S} {rest : Terms (Gen ι) S}
    (h : Sorted (pre ++ (k, v) :: rest)) : Sorted (pre ++ (k, w) :: rest) := by
  rw [← assign_append h (w := w)]; exact sorted_assign h

theorem aliasLoop_add (rest pre : Terms (Gen ι) S) (n : Nat) (hn : rest.length ≤ n) (hs : Sorted (pre ++ rest))
    (hz : ∀ p ∈ rest, p.2 ≠ 0) :
    aliasLoop (· + ·) n (firstKey rest) (pre ++ rest) = some (pre ++ rest.map fun p => (p.1, p.2 + p.2)) := by
  induction rest generalizing pre n with
  | nil => cases n <;> simp [firstKey, aliasLoop]
  | cons p rest ih =>
    obtain ⟨k, v⟩ := p
    cases n with
    | zero => simp at hn
    | succ n =>
      have hf : Terms.find? k (pre ++ (k, v) :: rest) = some v := find?_of_mem hs (by simp)
      have hv : v + v ≠ 0 := by
        have := hz (k, v) (by simp)
        rw [← two_mul]; exact mul_ne_zero two_ne_zero this
      simp only [firstKey, aliasLoop, hf, hv, if_false]
      rw [assign_append hs, nextKey_append (sorted_replace hs)]
      have := ih (pre ++ [(k, v + v)]) n (by simpa using hn) (by simpa using sorted_replace (w := v + v) hs)
        (fun q hq => hz q (by simp [hq]))
      simpa using this

/-- **C22** `e += e` is well defined and doubles `e`. -/
theorem C22_add_assign_self_partial (ha : Reachable P a) :
    ∃ r, a.addAssignSelf = some r ∧ r.eqOp (a + a) = true ∧ r.eqOp ((2 : S) • a) = true := by
  have hw := ha.wfG
  have := aliasLoop_add a.terms [] a.terms.length le_rfl (by simpa using hw.1) hw.2
  simp only [List.nil_append] at this
  refine ⟨⟨a.terms.map fun p => (p.1, p.2 + p.2)⟩, ?_, ?_⟩
  · simp [addAssignSelf, this]
  · have h2 : (2 : S) • a = ⟨a.terms.map fun p => (p.1, p.2 + p.2)⟩ := by
      rw [smul_def, smulPrefix, if_neg two_ne_zero]; simp [two_mul]
    rw [eqOp_iff, eqOp_iff, ← h2]
    refine ⟨?_, rfl⟩
    refine ext_coeff (wf_smulPrefix _ hw) (wf_add hw hw) fun k => ?_
    rw [coeff_add hw hw, smul_def, coeff_smulPrefix, two_mul]

/-- **C22** `e *= e` is well defined and squares `e`. -/
theorem C22_mul_assign_self_partial : ∃ r, a.mulAssignSelf = some r ∧ r.eqOp (a * a) = true :=
  ⟨_, rfl, by rw [eqOp_iff]; rfl⟩

/-- **C22 (finding F10)** `e -= e` is undefined behaviour for *every* non-zero expression: the loop erases the node its
own iterator points to and then increments the iterator. -/
theorem C22_F10_sub_assign_self (ha : Reachable P a) : a.subAssignSelf = none ↔ ¬ a.eqOp 0 = true := by
  have hw := ha.wfG
  rw [eqOp_iff]
  cases h : a.terms with
  | nil =>
    have : a = 0 := Expr.ext h
    simp [this, subAssignSelf, aliasLoop]
    cases h : (0 : Expr (Gen ι) S).terms.firstKey with
    | none => simp [aliasLoop]
    | some k => cases h
  | cons p t =>
    have hne : a ≠ 0 := fun e => by rw [e] at h; cases h
    simp only [hne, not_false_eq_true, iff_true]
    simp [subAssignSelf, h, firstKey, aliasLoop, Terms.find?, monLt_irrefl]

example : sample.subAssignSelf = none := by
  rw [C22_F10_sub_assign_self sample_reachable]; decide +kernel

omit [LinearOrder ι] [DecidableEq S] [ConstScalar S] [ScalarLaws S] [IsDomain S] in
theorem scaleLoop_after (alpha : S) (t : Terms (Gen ι) S) (i j : Nat) (h : j < i) : scaleLoop alpha i j t = t.map fun p => (p.1, p.2 * alpha) := by
  induction t generalizing i with
  | nil => rfl
  | cons p t ih => rw [scaleLoop, if_neg (by omega), ih (i + 1) (by omega)]; rfl

omit [LinearOrder ι] [DecidableEq S] [ConstScalar S] [ScalarLaws S] [IsDomain S] in
theorem scaleLoop_get (c : S) (t : Terms (Gen ι) S) (d i n : Nat) (hd : (t[d]?).map Prod.snd = some c) :
    (scaleLoop c i (i + d) t)[n]? = (t[n]?).map fun p => (p.1, p.2 * if n ≤ d then c else c * c) := by
  induction t generalizing i n d with
  | nil => simp at hd
  | cons p t ih =>
    obtain ⟨k, v⟩ := p
    rw [scaleLoop]
    cases d with
    | zero =>
      simp only [List.getElem?_cons_zero, Option.map_some, Option.some.injEq] at hd
      subst hd
      rw [if_pos (by omega), scaleLoop_after _ _ _ _ (by omega)]
      cases n with
      | zero => simp
      | succ n => simp [List.getElem?_map]
    | succ d =>
      rw [if_neg (by omega)]
      cases n with
      | zero => simp
      | succ n =>
        simp only [List.getElem?_cons_succ, Nat.add_le_add_iff_right] at hd ⊢
        have := ih d (i + 1) n hd
        rwa [show i + 1 + d = i + (d + 1) by omega] at this

/-- **C22 (finding F17)** `e *= coeff`, where `coeff` refers to the coefficient `c` of the `j`-th monomial of `e`: the monomials after
it are scaled by `c * c` instead of `c`. -/
theorem C22_F17_scaled_coefficients (ha : Reachable P a) (j : Nat) (c : S) (hj : (a.terms[j]?).map Prod.snd = some c) (n : Nat) :
    (a.smulAssignOwnCoeff j).terms[n]? = (a.terms[n]?).map fun p => (p.1, p.2 * if n ≤ j then c else c * c) := by
  obtain ⟨p, hp, rfl⟩ := Option.map_eq_some_iff.1 hj
  have hne : p.2 ≠ 0 := ha.wfG.2 p (List.mem_of_getElem? hp)
  unfold smulAssignOwnCoeff
  rw [hp]
  simp only [hne, if_false]
  simpa using scaleLoop_get p.2 a.terms j 0 n hj

/-- **C22 (finding F17)** multiplying an expression by a reference to one of its own coefficients scales the
remaining monomials by the square of that coefficient: for `3 + 2 c†_1 c_2`, `e *= e.begin()->coeff` gives
`9 + 18 c†_1 c_2` instead of `9 + 6 c†_1 c_2`. -/
theorem C22_F17_scale_by_own_coefficient :
    ∃ e : Expr (Gen Nat) ℚ, Reachable (fun _ => True) e ∧ e.terms = [([], 3), ([.fermion true 1, .fermion false 2], 2)] ∧
      (e.smulAssignOwnCoeff 0).terms = [([], 9), ([.fermion true 1, .fermion false 2], 18)] ∧
      ((3 : ℚ) • e).terms = [([], 9), ([.fermion true 1, .fermion false 2], 6)] :=
  ⟨(2 : ℚ) • (Factory.cDag 1 * Factory.c 2) + Expr.const 3,
    .add (.smulPrefix _ (.mul (.ofMonomial _ _ (by simp)) (.ofMonomial _ _ (by simp)))) (.const _),
    by decide +kernel, by decide +kernel, by decide +kernel⟩

end LC
