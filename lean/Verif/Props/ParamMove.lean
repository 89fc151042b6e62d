import Verif.Model.ParamMove
import Verif.Props.LOperator
/-
C83: parametric operators called with temporary objects as arguments.
-/
set_option linter.unusedSectionVars false
namespace LC
open HilbertSpace Expr
variable {ι S T V W Args : Type _} [CommRing S] [Algebra ℝ S] [AddCommMonoid T] [Module S T] [StateVec V T] [StateVec W T]

/-- The coefficients, in the order of evaluation. -/
def MoveLOperator.coeffs (op : MoveLOperator Args S) (moved : Bool) (args : Args) : List S :=
  if moved then evalMoved op.actions args else evalKept op.actions args

theorem evalMoved_length (l : List (MonomialAction × CoeffFn Args S)) (args : Args) : (evalMoved l args).length = l.length := by
  induction l generalizing args with
  | nil => rfl
  | cons p l ih => simp [evalMoved, ih]

theorem evalKept_eq (l : List (MonomialAction × CoeffFn Args S)) (args : Args) : evalKept l args = l.map fun p => p.2.value args := by
  induction l with
  | nil => rfl
  | cons p l ih => simp [evalKept, ih]

theorem paramTerms_zip {F : Type _} (val : F → Args → S) (pre cs : List S) (l : List (MonomialAction × F)) (hl : cs.length = l.length) (k : Nat) (a : T)
    (w : W) : paramTerms (pre ++ cs) k a (l.map fun p => (p.1, val p.2)) pre.length w = applyTerms k a ((l.map Prod.fst).zip cs) w := by
  induction l generalizing pre w cs with
  | nil => simp [paramTerms, applyTerms]
  | cons p l ih =>
    obtain ⟨ma, f⟩ := p
    cases cs with
    | nil => simp at hl
    | cons c cs =>
      have ih' := ih (pre ++ [c]) cs (by simpa using hl)
      rw [List.length_append, List.length_singleton] at ih'
      simp only [paramTerms, List.map_cons, List.zip_cons_cons, applyTerms, applyTerm]
      cases ma.act k (1 : S) with
      | ub => rfl
      | zero => simp only; rw [← ih']; simp
      | nonzero i x =>
        have hget : (pre ++ c :: cs)[pre.length]? = some c := by simp
        simp only [hget]
        cases StateVec.updateAdd w i ((c * x) • a) with
        | error e => rfl
        | ok w' => simp only; rw [← ih']; simp

theorem paramAll_zip {F : Type _} (val : F → Args → S) (cs : List S) (acts : List (MonomialAction × F)) (hl : cs.length = acts.length)
    (l : List (Nat × T)) (w : W) : paramAll (acts.map fun p => (p.1, val p.2)) cs l w = applyAll ((acts.map Prod.fst).zip cs) l w := by
  induction l generalizing w with
  | nil => rfl
  | cons q l ih =>
    obtain ⟨k, a⟩ := q
    have := paramTerms_zip val [] cs acts hl k a w
    simp only [List.nil_append, List.length_nil] at this
    simp only [paramAll, applyAll, this]
    split
    · rfl
    · exact ih _

theorem moveAtLoop_eq (moved : Bool) (l : List (MonomialAction × CoeffFn Args S)) (args : Args) (lop : LOperator S) :
    MoveLOperator.atLoop moved l args lop = ⟨lop.actions ++ (l.map Prod.fst).zip (if moved then evalMoved l args else evalKept l args)⟩ := by
  induction l generalizing args lop with
  | nil => simp [MoveLOperator.atLoop]
  | cons p l ih =>
    obtain ⟨ma, f⟩ := p
    rw [MoveLOperator.atLoop, ih]
    cases moved <;> simp [LOperator.addMonomialAction, evalMoved, evalKept]

theorem moveActImpl_eq (op : MoveLOperator Args S) (moved : Bool) (args : Args) (v : V) (w : W) :
    op.actImpl v w [] moved args = match (op.at moved args).actImpl v w with
      | .error e => .error e
      | .ok w' => .ok (w', op.coeffs moved args) := by
  have hl : (op.coeffs moved args).length = op.actions.length := by
    cases moved
    · simp [MoveLOperator.coeffs, evalKept_eq]
    · simp [MoveLOperator.coeffs, evalMoved_length]
  unfold MoveLOperator.actImpl LOperator.actImpl MoveLOperator.at
  rw [moveAtLoop_eq]
  simp only [List.nil_append]
  cases StateVec.foreach v with
  | error e => rfl
  | ok l =>
    simp only
    have := paramAll_zip (fun f : CoeffFn Args S => f.value) (op.coeffs moved args) op.actions hl l w
    unfold MoveLOperator.coeffs at this ⊢
    rw [this]
    split <;> rename_i hx <;> rw [hx]

/-- **C83** `op(v, args)`, `op(src, dst, args)` and `op.act_and_store_coeffs(src, dst, coeffs, args)` agree with `op.at(args)`, whether the arguments are temporary objects or not. -/
theorem C83_agree (op : MoveLOperator Args S) (moved : Bool) (args : Args) [ZerosLike V] (v : V) (w : W) (coeffs : List S) :
    op.apply v moved args = (op.at moved args).apply v ∧ op.applyTo v w moved args = (op.at moved args).applyTo v w ∧
    op.actAndStoreCoeffs v w coeffs moved args = ((op.at moved args).applyTo v w).map fun w' => (w', (op.at moved args).actions.map Prod.snd) := by
  refine ⟨?_, ?_, ?_⟩
  · simp only [MoveLOperator.apply, LOperator.apply, moveActImpl_eq]
    cases (op.at moved args).actImpl v (ZerosLike.zerosLike v) <;> rfl
  · simp only [MoveLOperator.applyTo, LOperator.applyTo, moveActImpl_eq]
    cases (op.at moved args).actImpl v (StateVec.setZeros w) <;> rfl
  · have hl : (op.coeffs moved args).length = op.actions.length := by
      cases moved
      · simp [MoveLOperator.coeffs, evalKept_eq]
      · simp [MoveLOperator.coeffs, evalMoved_length]
    have : (op.at moved args).actions.map Prod.snd = op.coeffs moved args := by
      rw [MoveLOperator.at, moveAtLoop_eq]
      exact List.map_snd_zip (by rw [List.length_map]; exact hl.le)
    simp only [MoveLOperator.actAndStoreCoeffs, LOperator.applyTo, moveActImpl_eq, this]
    cases (op.at moved args).actImpl v (StateVec.setZeros w) <;> rfl

theorem pureAtLoop_eq {S : Type _} (args : Args) (l : List (MonomialAction × (Args → S))) (op : LOperator S) :
    ParamLOperator.atLoop args l op = ⟨op.actions ++ l.map fun p => (p.1, p.2 args)⟩ := by
  induction l generalizing op with
  | nil => simp [ParamLOperator.atLoop]
  | cons p l ih => simp [ParamLOperator.atLoop, ih, LOperator.addMonomialAction]

/-- **C83** If the arguments are variables, `op.at(args)` is the operator with the values of all coefficient functions for these arguments. -/
theorem C83_lvalues (op : MoveLOperator Args S) (args : Args) : op.at false args = op.pure.at args := by
  unfold MoveLOperator.at ParamLOperator.at MoveLOperator.pure
  rw [moveAtLoop_eq, pureAtLoop_eq]
  simp only [Bool.false_eq_true, if_false, evalKept_eq, List.nil_append, List.map_map]
  congr 1
  induction op.actions with
  | nil => rfl
  | cons p l ih => simp [ih]

/-- **C83** If the arguments are temporary objects, the same holds if all coefficient functions except the last leave them as they were (take
them by reference, or they are of a trivially copyable type). -/
theorem C83_rvalues_partial (op : MoveLOperator Args S) (args : Args) (h : ∀ p ∈ op.actions.dropLast, p.2.left args = args) :
    op.at true args = op.pure.at args := by
  rw [← C83_lvalues]
  unfold MoveLOperator.at
  rw [moveAtLoop_eq, moveAtLoop_eq]
  have key : ∀ l : List (MonomialAction × CoeffFn Args S), (∀ p ∈ l.dropLast, p.2.left args = args) → evalMoved l args = evalKept l args := by
    intro l
    induction l with
    | nil => intro _; rfl
    | cons p l ih =>
      intro h
      cases l with
      | nil => rfl
      | cons q l =>
        rw [List.dropLast_cons_cons] at h
        rw [evalMoved, evalKept, h p List.mem_cons_self, ih fun x hx => h x (List.mem_cons_of_mem _ hx)]
  have this := key _ h
  simp [this]

/-- **C83 (finding F32)** If coefficient functions take a vector by value, `op.at(std::move(v))` (and `op(sv, std::move(v))`, by `C83_agree`)
evaluates the second one for an empty vector: two coefficients "sum of the elements" of `{3}` are 3 and 0. -/
theorem C83_F32_moved_argument (ma ma' : MonomialAction) : ∃ op : MoveLOperator (List ℝ) ℝ,
    op.pure.at [3] = ⟨[(ma, 3), (ma', 3)]⟩ ∧ op.at false [3] = ⟨[(ma, 3), (ma', 3)]⟩ ∧ op.at true [3] = ⟨[(ma, 3), (ma', 0)]⟩ := by
  refine ⟨⟨[(ma, ⟨List.sum, fun _ => []⟩), (ma', ⟨List.sum, fun _ => []⟩)]⟩, ?_, ?_, ?_⟩
  · rw [← C83_lvalues]; simp [MoveLOperator.at, MoveLOperator.atLoop, LOperator.addMonomialAction]
  · simp [MoveLOperator.at, MoveLOperator.atLoop, LOperator.addMonomialAction]
  · simp [MoveLOperator.at, MoveLOperator.atLoop, LOperator.addMonomialAction]

/-- The condition of `C83_rvalues_partial` with functions taking the vector by reference, except the last one. -/
example (ma ma' : MonomialAction) :
    let op : MoveLOperator (List ℝ) ℝ := ⟨[(ma, ⟨List.sum, id⟩), (ma', ⟨List.sum, fun _ => []⟩)]⟩
    (∀ p ∈ op.actions.dropLast, p.2.left [3] = [3]) ∧ op.at true [3] = ⟨[(ma, 3), (ma', 3)]⟩ := by
  refine ⟨by simp, by simp [MoveLOperator.at, MoveLOperator.atLoop, LOperator.addMonomialAction]⟩

end LC
