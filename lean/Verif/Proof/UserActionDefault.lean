import Verif.Proof.UserAction
/-
`loperator<S, fermion, boson, spin>` in the model with arbitrary algebras and in the model with the predefined ones.
-/
set_option linter.unusedSectionVars false
namespace LC
variable {ι U S T V W : Type _} [LinearOrder ι] [UserGen U] [CommRing S] [Algebra ℝ S] {hs : HilbertSpace ι}

/-- Exceptions of the predefined classes. -/
def ActError.lift : ActError ι → UActError ι U
  | .unknownGenerator g => .unknownGenerator (.pre g)
  | .hs e => .hs e

theorem splitPre_map (m : List (Gen ι)) : splitPre (m.map (AllGen.pre (U := U))) = (m, none) := by
  induction m with
  | nil => rfl
  | cons g m ih => simp [splitPre, ih]

theorem findSubrange_map (a : Int) (m : List (Gen ι)) :
    findSubrangeAll (U := U) a (m.map .pre) =
      match findSubrange a m with
      | .error e => .error e.lift
      | .ok (p, q) => .ok (p.map .pre, q.map .pre) := by
  induction m with
  | nil => rfl
  | cons g m ih =>
    have hid : (AllGen.pre g : AllGen ι U).algebraId = g.algebraId := rfl
    rw [List.map_cons, findSubrangeAll, findSubrange, hid, ih]
    split_ifs
    · rfl
    · cases findSubrange a m with
      | error e => rfl
      | ok p => rfl
    · rfl

theorem fermionClass_map (m : List (Gen ι)) :
    (fermionClass (S := S) (U := U)).make (m.map .pre) hs =
      match FermionAction.make m hs with
      | .error e => .error e.lift
      | .ok a => .ok a.act := by
  simp only [fermionClass, predefinedClass, splitPre_map]
  cases FermionAction.make m hs with
  | error e => cases e <;> rfl
  | ok a => rfl

theorem bosonClass_map (m : List (Gen ι)) :
    (bosonClass (S := S) (U := U)).make (m.map .pre) hs =
      match BosonAction.make m hs with
      | .error e => .error e.lift
      | .ok a => .ok a.act := by
  simp only [bosonClass, predefinedClass, splitPre_map]
  cases BosonAction.make m hs with
  | error e => cases e <;> rfl
  | ok a => rfl

theorem spinClass_map (m : List (Gen ι)) :
    (spinClass (S := S) (U := U)).make (m.map .pre) hs =
      match SpinAction.make m hs with
      | .error e => .error e.lift
      | .ok a => .ok a.act := by
  simp only [spinClass, predefinedClass, splitPre_map]
  cases SpinAction.make m hs with
  | error e => cases e <;> rfl
  | ok a => rfl

/-- The `act`s of the base class sub-objects. -/
noncomputable def MonomialAction.acts (a : MonomialAction) : List (Act S) := [a.fermions.act, a.bosons.act, a.spins.act]

theorem chainAct_acts (a : MonomialAction) (k : Nat) (c : S) : chainAct a.acts k c = a.act k c := rfl

theorem chainMake_map (m : List (Gen ι)) :
    chainMake (S := S) (U := U) hs [fermionClass, bosonClass, spinClass] (m.map .pre) =
      match MonomialAction.make m hs with
      | .error e => .error e.lift
      | .ok a => .ok a.acts := by
  have i1 : (fermionClass (S := S) (U := U) (ι := ι)).id = -3 := rfl
  have i2 : (bosonClass (S := S) (U := U) (ι := ι)).id = -2 := rfl
  rw [chainMake, i1, findSubrange_map, MonomialAction.make]
  cases findSubrange (-3) m with
  | error e => rfl
  | ok p =>
    obtain ⟨p, q⟩ := p
    simp only [fermionClass_map]
    cases FermionAction.make p hs with
    | error e => rfl
    | ok f =>
      simp only [chainMake, i2, findSubrange_map]
      cases findSubrange (-2) q with
      | error e => rfl
      | ok r =>
        obtain ⟨r, s⟩ := r
        simp only [bosonClass_map]
        cases BosonAction.make r hs with
        | error e => rfl
        | ok b =>
          simp only [spinClass_map]
          cases SpinAction.make s hs with
          | error e => rfl
          | ok s => rfl

theorem makeLoop_map (l : List (List (Gen ι) × S)) :
    UserLOperator.makeLoop (U := U) [fermionClass, bosonClass, spinClass] hs (l.map fun p => (p.1.map .pre, p.2)) =
      match LOperator.makeLoop hs l with
      | .error e => .error e.lift
      | .ok r => .ok (r.map fun q => (q.1.acts, q.2)) := by
  induction l with
  | nil => rfl
  | cons p l ih =>
    obtain ⟨m, c⟩ := p
    rw [List.map_cons, UserLOperator.makeLoop, LOperator.makeLoop]
    simp only [chainMake_map, ih]
    cases MonomialAction.make m hs with
    | error e => rfl
    | ok a =>
      cases LOperator.makeLoop hs l with
      | error e => rfl
      | ok r => rfl

section
variable [AddCommMonoid T] [Module S T] [StateVec V T] [StateVec W T]

theorem applyTerms_map (k : Nat) (a : T) (l : List (MonomialAction × S)) (w : W) :
    UserLOperator.applyTerms k a (l.map fun q => (q.1.acts, q.2)) w = applyTerms k a l w := by
  induction l generalizing w with
  | nil => rfl
  | cons p l ih =>
    obtain ⟨m, c⟩ := p
    rw [List.map_cons, UserLOperator.applyTerms, applyTerms, applyTerm]
    simp only [chainAct_acts, ih]
    cases m.act k (1 : S) with
    | ub => rfl
    | zero => rfl
    | nonzero i x =>
      cases (StateVec.updateAdd w i ((c * x) • a) : Except SVError W) with
      | error e => rfl
      | ok w => rfl

theorem applyAll_map (acts : List (MonomialAction × S)) (l : List (Nat × T)) (w : W) :
    UserLOperator.applyAll (acts.map fun q => (q.1.acts, q.2)) l w = applyAll acts l w := by
  induction l generalizing w with
  | nil => rfl
  | cons p l ih =>
    obtain ⟨k, a⟩ := p
    rw [UserLOperator.applyAll, applyAll, applyTerms_map]
    cases (applyTerms k a acts w : Except SVError W) with
    | error e => rfl
    | ok w => exact ih w

end
end LC
