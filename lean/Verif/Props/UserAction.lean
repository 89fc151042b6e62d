import Verif.Proof.UserActionRep
import Verif.Proof.UserActionDefault
import Verif.Props.LOperator
import Verif.Props.UserExamples
/-
C79, C80: linear operators `loperator<S, AlgebraIDs...>` of expressions with generators of several algebras, predefined and
user-defined ones (doc/loperator/loperator.rst, examples/gamma.loperator.cpp).

A user-defined algebra comes with a specialisation of `monomial_action`; what it has to do is `ActionContract` (Spec/UserAction.lean). The
matrix of an expression is `evalExpr ρ e`, where `ρ` assigns matrices to generators.
-/
set_option linter.unusedSectionVars false
namespace LC
open HilbertSpace Expr Matrix
variable {ι U S T V W : Type _} [LinearOrder ι] [UserGen U] {hs : HilbertSpace ι} [CommRing S] [DecidableEq S] [ConstScalar S] [ScalarLaws S]
  [IsDomain S] [CharZero S] [Star S] [AddCommGroup T] [Module S T] [StateVec V T] [StateVec W T]
  [LawfulSV V T] [LawfulSV W T] {M : Nat → ι → Prop} {Cs : List (ActionClass ι U S)} {On : AllGen ι U → Prop} {ρ : AllGen ι U → Op S hs}

/-- Matrix times vector, on the basis states of `hs`; zero elsewhere. -/
noncomputable def matVec {hs : HilbertSpace ι} (A : Op S hs) (ψ : Nat → T) (t : Nat) : T :=
  open Classical in if h : ValidState hs t then ∑ k : BasisState hs, A ⟨t, h⟩ k • ψ k else 0

/-- **C79** Every expression whose generators belong to the algebras `AlgebraIDs...` and to the Hilbert space gives an operator; the
operator acts as the matrix of the expression. Hypotheses: the algebra IDs are increasing (a `static_assert` of the library), each
algebra's `monomial_action` does what it should, operators of different algebras commute. -/
theorem C79_operator_action (ho : UserOrder U) (hz : UserNoZeros U) (hcf : UserConfluent U) (hM : HalfAlone M)
    (hid : (Cs.map ActionClass.id).Pairwise (· < ·)) (hC : ∀ C ∈ Cs, ActionContract C hs On ρ)
    (hcomm : ∀ g h, On g → On h → g.algebraId ≠ h.algebraId → ρ g * ρ h = ρ h * ρ g)
    (e : Expr (AllGen ι U) S) (he : Reachable (AllowedAll M) e) (hk : ∀ p ∈ e.terms, ∀ g ∈ p.1, Known Cs On g) :
    ∃ op, UserLOperator.make Cs e hs = .ok op ∧ ∀ (src : V) (dst : W), LawfulSV.inv src → LawfulSV.inv dst →
      (∀ k ∈ LawfulSV.visited src, ValidState hs k) → (∀ t, ValidState hs t → t ∈ LawfulSV.dom dst) →
      ∃ dst', op.applyTo src dst = .ok dst' ∧ LawfulSV.inv dst' ∧ LawfulSV.dom dst' = LawfulSV.dom dst ∧
        ∀ t, LawfulSV.amp dst' t = matVec (evalExpr ρ e) (LawfulSV.amp src) t := by
  have hst := reach_stored ho hz hcf hM he
  obtain ⟨acts, h1, h2⟩ := userMake_ok (ρ := ρ) Cs e.terms fun p hp =>
    chain_ok hcomm Cs hC hid p.1 (hst p hp) (fun g hg => (hk p hp g hg).1) fun g hg => by
      obtain ⟨-, C, hC', hg'⟩ := hk p hp g hg
      exact List.mem_map.2 ⟨C, hC', hg'.symm⟩
  refine ⟨⟨acts⟩, by rw [UserLOperator.make, h1], fun src dst i1 i2 hv hd => ?_⟩
  obtain ⟨z1, z2, z3⟩ := LawfulSV.zero dst i2
  obtain ⟨w, e1, e2, e3, e4, e5⟩ := userActImpl_spec h2 src (StateVec.setZeros dst) i1 z1 hv (by rw [z2]; exact hd)
  refine ⟨w, e1, e2, e3.trans z2, fun t => ?_⟩
  unfold matVec
  by_cases h : ValidState hs t
  · rw [dif_pos h, e4 ⟨t, h⟩, z3, zero_add]
  · rw [dif_neg h, e5 t h, z3]

/-- **C79** The same for `op(sv)`, `op * sv`. -/
theorem C79_operator_action_value (ho : UserOrder U) (hz : UserNoZeros U) (hcf : UserConfluent U) (hM : HalfAlone M)
    (hid : (Cs.map ActionClass.id).Pairwise (· < ·)) (hC : ∀ C ∈ Cs, ActionContract C hs On ρ)
    (hcomm : ∀ g h, On g → On h → g.algebraId ≠ h.algebraId → ρ g * ρ h = ρ h * ρ g)
    (e : Expr (AllGen ι U) S) (he : Reachable (AllowedAll M) e) (hk : ∀ p ∈ e.terms, ∀ g ∈ p.1, Known Cs On g)
    [ZerosLike V] [LawfulZeros V] :
    ∃ op, UserLOperator.make Cs e hs = .ok op ∧ ∀ sv : V, LawfulSV.inv sv → (∀ k ∈ LawfulSV.visited sv, ValidState hs k) →
      (∀ t, ValidState hs t → t ∈ LawfulSV.dom sv) →
      ∃ sv', op.apply sv = .ok sv' ∧ LawfulSV.inv sv' ∧ LawfulSV.dom sv' = LawfulSV.dom sv ∧
        ∀ t, LawfulSV.amp sv' t = matVec (evalExpr ρ e) (LawfulSV.amp sv) t := by
  have hst := reach_stored ho hz hcf hM he
  obtain ⟨acts, h1, h2⟩ := userMake_ok (ρ := ρ) Cs e.terms fun p hp =>
    chain_ok hcomm Cs hC hid p.1 (hst p hp) (fun g hg => (hk p hp g hg).1) fun g hg => by
      obtain ⟨-, C, hC', hg'⟩ := hk p hp g hg
      exact List.mem_map.2 ⟨C, hC', hg'.symm⟩
  refine ⟨⟨acts⟩, by rw [UserLOperator.make, h1], fun sv i1 hv hd => ?_⟩
  obtain ⟨z1, z2, z3⟩ := LawfulZeros.zeros sv i1
  obtain ⟨w, e1, e2, e3, e4, e5⟩ := userActImpl_spec h2 sv (ZerosLike.zerosLike sv) i1 z1 hv (by rw [z2]; exact hd)
  refine ⟨w, e1, e2, e3.trans z2, fun t => ?_⟩
  unfold matVec
  by_cases h : ValidState hs t
  · rw [dif_pos h, e4 ⟨t, h⟩, z3, zero_add]
  · rw [dif_neg h, e5 t h, z3]

/-- **C79** For `std::vector`s with an element for each index up to the largest basis state. -/
theorem C79_dense [DecidableEq T] (ho : UserOrder U) (hz : UserNoZeros U) (hcf : UserConfluent U) (hM : HalfAlone M)
    (hid : (Cs.map ActionClass.id).Pairwise (· < ·)) (hC : ∀ C ∈ Cs, ActionContract C hs On ρ)
    (hcomm : ∀ g h, On g → On h → g.algebraId ≠ h.algebraId → ρ g * ρ h = ρ h * ρ g)
    (e : Expr (AllGen ι U) S) (he : Reachable (AllowedAll M) e) (hk : ∀ p ∈ e.terms, ∀ g ∈ p.1, Known Cs On g) :
    ∃ op, UserLOperator.make Cs e hs = .ok op ∧ ∀ sv : DenseSV T, (∀ t, ValidState hs t → t < sv.data.length) →
      (∀ k, sv.data.getD k 0 ≠ 0 → ValidState hs k) →
      ∃ sv', op.apply sv = .ok sv' ∧ sv'.data.length = sv.data.length ∧
        ∀ t, sv'.data.getD t 0 = matVec (evalExpr ρ e) (fun k => sv.data.getD k 0) t := by
  obtain ⟨op, hop, h⟩ := C79_operator_action_value (V := DenseSV T) ho hz hcf hM hid hC hcomm e he hk
  refine ⟨op, hop, fun sv hlen hv => ?_⟩
  obtain ⟨sv', h1, _, h2, h3⟩ := h sv trivial hv hlen
  refine ⟨sv', h1, ?_, h3⟩
  have : ∀ n, n < sv'.data.length ↔ n < sv.data.length := fun n => by
    have := congrArg (n ∈ ·) h2
    exact iff_of_eq this
  have e1 := this sv.data.length
  have e2 := this sv'.data.length
  omega

/-- **C79** The three predefined algebras fulfil the hypotheses: with the textbook matrices, `monomial_action<fermion>`, `<boson>`
and `<spin>` do what they should, the last condition being that user-defined operators commute with the predefined ones and with those of
other algebras. -/
theorem C79_predefined_classes [Algebra ℝ S] (ho : UserOrder U) (hc : Constructed hs) (hpre : PredefinedSpaces hs) (Q : U → Prop)
    (hρ : ∀ g, ρ (.pre g) = preMatrix S hs g) :
    ActionContract (fermionClass (U := U)) hs (OnSpace hs Q) ρ ∧ ActionContract (bosonClass (U := U)) hs (OnSpace hs Q) ρ ∧
    ActionContract (spinClass (U := U)) hs (OnSpace hs Q) ρ ∧
    ((∀ g u, hs.has g.mode.space = true → Q u → ρ (.pre g) * ρ (.user u) = ρ (.user u) * ρ (.pre g)) →
      (∀ u v, Q u → Q v → UserGen.algebraId u ≠ UserGen.algebraId v → ρ (.user u) * ρ (.user v) = ρ (.user v) * ρ (.user u)) →
      ∀ g h, OnSpace hs Q g → OnSpace hs Q h → g.algebraId ≠ h.algebraId → ρ g * ρ h = ρ h * ρ g) := by
  refine ⟨fermionClass_contract ho hc hpre hρ fun _ h => h, bosonClass_contract ho hc hpre hρ fun _ h => h,
    spinClass_contract ho hc hpre hρ fun _ h => h, fun h1 h2 g h hg hh hgh => ?_⟩
  cases g with
  | pre g =>
    cases h with
    | pre h => rw [hρ, hρ]; exact preMatrix_comm hc hpre g h hg hh hgh
    | user u => exact h1 g u hg hh
  | user u =>
    cases h with
    | pre h => exact (h1 h u hh hg).symm
    | user v => exact h2 u v hg hh hgh

/-- **C79** `loperator<S, fermion, boson, spin>` of the model with arbitrary algebras is the operator of C38–C42: the constructor
throws in the same cases, and the actions on state vectors agree. -/
theorem C79_default_operator [Algebra ℝ S] [ZerosLike V] (e : Expr (Gen ι) S) :
    (∀ err, LOperator.make e hs = .error err →
      UserLOperator.make (U := U) [fermionClass, bosonClass, spinClass] ⟨e.terms.map fun p => (p.1.map .pre, p.2)⟩ hs = .error err.lift) ∧
    ∀ op, LOperator.make e hs = .ok op → ∃ op' : UserLOperator S,
      UserLOperator.make (U := U) [fermionClass, bosonClass, spinClass] ⟨e.terms.map fun p => (p.1.map .pre, p.2)⟩ hs = .ok op' ∧
      (∀ sv : V, op'.apply sv = op.apply sv) ∧ ∀ (src : V) (dst : W), op'.applyTo src dst = op.applyTo src dst := by
  unfold LOperator.make UserLOperator.make
  rw [makeLoop_map]
  cases LOperator.makeLoop hs e.terms with
  | error er =>
    refine ⟨fun err h => ?_, fun op h => ?_⟩
    · cases h; rfl
    · cases h
  | ok l =>
    refine ⟨fun err h => ?_, fun op h => ?_⟩
    · cases h
    cases h
    refine ⟨⟨_⟩, rfl, fun sv => ?_, fun src dst => ?_⟩
    · unfold UserLOperator.apply LOperator.apply UserLOperator.actImpl LOperator.actImpl
      cases (StateVec.foreach sv : Except SVError (List (Nat × T))) with
      | error e => rfl
      | ok l' => exact applyAll_map _ _ _
    · unfold UserLOperator.applyTo LOperator.applyTo UserLOperator.actImpl LOperator.actImpl
      cases (StateVec.foreach src : Except SVError (List (Nat × T))) with
      | error e => rfl
      | ok l' => exact applyAll_map _ _ _

/-! ### C80: unknown generators and products -/

/-- **C80** If no `monomial_action` accepts foreign generators, the constructor throws whenever the expression contains a generator that
belongs to none of the algebras or not to the Hilbert space. -/
theorem C80_unknown_generators (hR : ∀ C ∈ Cs, Rejects C hs On) (e : Expr (AllGen ι U) S)
    (hbad : ∃ p ∈ e.terms, ∃ g ∈ p.1, ¬ Known Cs On g) : ∃ err, UserLOperator.make Cs e hs = .error err := by
  obtain ⟨p, hp, g, hg, hn⟩ := hbad
  obtain ⟨err, h⟩ := userMake_error (hs := hs) Cs e.terms ⟨p, hp, chain_error (On := On) Cs hR p.1 ⟨g, hg, by
    by_contra h
    push Not at h
    obtain ⟨C, hC, h2⟩ := List.mem_map.1 h.2
    exact hn ⟨h.1, C, hC, h2.symm⟩⟩⟩
  exact ⟨err, by rw [UserLOperator.make, h]⟩

/-- **C80** Fermions and spins accept no foreign generators; bosons either do not or give a zero action. -/
theorem C80_predefined_classes [Algebra ℝ S] (Q : U → Prop) :
    Rejects (fermionClass (S := S) (U := U)) hs (OnSpace hs Q) ∧ Rejects (spinClass (S := S) (U := U)) hs (OnSpace hs Q) ∧
    RejectsOrVanishes (bosonClass (S := S) (U := U)) hs (OnSpace hs Q) :=
  ⟨fermionClass_rejects fun _ h => h, spinClass_rejects fun _ h => h, bosonClass_rejects fun _ h => h⟩

/-- **C80** (partial) In general: if the constructor does not throw, the operator is that of the expression with all unknown generators
replaced by zero. -/
theorem C80_unknown_generators_partial (ho : UserOrder U) (hz : UserNoZeros U) (hcf : UserConfluent U) (hM : HalfAlone M)
    (hid : (Cs.map ActionClass.id).Pairwise (· < ·)) (hC : ∀ C ∈ Cs, ActionContract C hs On ρ)
    (hR : ∀ C ∈ Cs, RejectsOrVanishes C hs On)
    (hcomm : ∀ g h, On g → On h → g.algebraId ≠ h.algebraId → ρ g * ρ h = ρ h * ρ g)
    (e : Expr (AllGen ι U) S) (he : Reachable (AllowedAll M) e) :
    (∃ err, UserLOperator.make Cs e hs = .error err) ∨
    ∃ op, UserLOperator.make Cs e hs = .ok op ∧ ∀ (src : V) (dst : W), LawfulSV.inv src → LawfulSV.inv dst →
      (∀ k ∈ LawfulSV.visited src, ValidState hs k) → (∀ t, ValidState hs t → t ∈ LawfulSV.dom dst) →
      ∃ dst', op.applyTo src dst = .ok dst' ∧ LawfulSV.inv dst' ∧ LawfulSV.dom dst' = LawfulSV.dom dst ∧
        ∀ t, LawfulSV.amp dst' t = matVec (evalExpr (zeroUnknown Cs On ρ) e) (LawfulSV.amp src) t := by
  classical
  have hst := reach_stored ho hz hcf hM he
  by_cases herr : ∃ p ∈ e.terms, ∃ err, chainMake hs Cs p.1 = .error err
  · obtain ⟨err, h⟩ := userMake_error (hs := hs) Cs e.terms herr
    exact .inl ⟨err, by rw [UserLOperator.make, h]⟩
  right
  obtain ⟨acts, h1, h2⟩ := userMake_ok (ρ := zeroUnknown Cs On ρ) Cs e.terms fun p hp => by
    by_cases hg : ∀ g ∈ p.1, Known Cs On g
    · rw [evalMon_congr (ρ' := ρ) fun g hg' => by rw [zeroUnknown, if_pos (hg g hg')]]
      exact chain_ok hcomm Cs hC hid p.1 (hst p hp) (fun g hg' => (hg g hg').1) fun g hg' => by
        obtain ⟨-, C, hC', h⟩ := hg g hg'
        exact List.mem_map.2 ⟨C, hC', h.symm⟩
    · push Not at hg
      rcases chain_total (ρ := ρ) Cs hC hR hid p.1 (hst p hp) hg with h | h
      · exact absurd ⟨p, hp, h⟩ herr
      · obtain ⟨g, hg', hn⟩ := hg
        rw [evalMon_zero ⟨g, hg', by rw [zeroUnknown, if_neg hn]⟩]
        exact h
  refine ⟨⟨acts⟩, by rw [UserLOperator.make, h1], fun src dst i1 i2 hv hd => ?_⟩
  obtain ⟨z1, z2, z3⟩ := LawfulSV.zero dst i2
  obtain ⟨w, e1, e2, e3, e4, e5⟩ := userActImpl_spec h2 src (StateVec.setZeros dst) i1 z1 hv (by rw [z2]; exact hd)
  refine ⟨w, e1, e2, e3.trans z2, fun t => ?_⟩
  unfold matVec
  by_cases h : ValidState hs t
  · rw [dif_pos h, e4 ⟨t, h⟩, z3, zero_add]
  · rw [dif_neg h, e5 t h, z3]

theorem matVec_mul (A B : Op S hs) (ψ : Nat → T) (t : Nat) : matVec (A * B) ψ t = matVec A (matVec B ψ) t := by
  unfold matVec
  by_cases h : ValidState hs t
  · rw [dif_pos h, dif_pos h]
    have : ∀ s : BasisState hs, (if h : ValidState hs s then ∑ k : BasisState hs, B ⟨s, h⟩ k • ψ k else 0) = ∑ k : BasisState hs, B s k • ψ k :=
      fun s => by rw [dif_pos s.2]
    simp only [this, Finset.smul_sum]
    rw [Finset.sum_comm]
    refine Finset.sum_congr rfl fun k _ => ?_
    rw [Matrix.mul_apply, Finset.sum_smul]
    exact Finset.sum_congr rfl fun s _ => mul_smul _ _ _
  · rw [dif_neg h, dif_neg h]

/-- **C80** `L(a*b) v = L(a) (L(b) v)`, if the matrices of the generators in `a` and `b` obey the relations of the algebras. -/
theorem C80_products [DecidableEq T] (ho : UserOrder U) (hz : UserNoZeros U) (hcf : UserConfluent U) (hM : HalfAlone M)
    (hid : (Cs.map ActionClass.id).Pairwise (· < ·)) (hC : ∀ C ∈ Cs, ActionContract C hs On ρ)
    (hcomm : ∀ g h, On g → On h → g.algebraId ≠ h.algebraId → ρ g * ρ h = ρ h * ρ g)
    {P : AllGen ι U → Prop} (hP : Represents S P ρ) (hPk : ∀ g, P g → Known Cs On g) (a b : Expr (AllGen ι U) S)
    (ha : Reachable (AllowedAll M) a) (hb : Reachable (AllowedAll M) b)
    (ha' : ∀ p ∈ a.terms, ∀ g ∈ p.1, P g) (hb' : ∀ p ∈ b.terms, ∀ g ∈ p.1, P g) :
    ∃ opA opB opAB, UserLOperator.make Cs a hs = .ok opA ∧ UserLOperator.make Cs b hs = .ok opB ∧
      UserLOperator.make Cs (a * b) hs = .ok opAB ∧
      ∀ v : DenseSV T, (∀ t, ValidState hs t → t < v.data.length) → (∀ k, v.data.getD k 0 ≠ 0 → ValidState hs k) →
        ∃ vb vab, opB.apply v = .ok vb ∧ opA.apply vb = .ok vab ∧ opAB.apply v = .ok vab := by
  have := AllGen.lawful (ι := ι) ho
  have hab : (a * b).InP P := inP_mul hP.closed ha' hb'
  obtain ⟨opA, o1, A⟩ := C79_dense (T := T) ho hz hcf hM hid hC hcomm a ha fun p hp g hg => hPk g (ha' p hp g hg)
  obtain ⟨opB, o2, B⟩ := C79_dense (T := T) ho hz hcf hM hid hC hcomm b hb fun p hp g hg => hPk g (hb' p hp g hg)
  obtain ⟨opAB, o3, AB⟩ := C79_dense (T := T) ho hz hcf hM hid hC hcomm (a * b) (ha.mul hb) fun p hp g hg => hPk g (hab p hp g hg)
  refine ⟨opA, opB, opAB, o1, o2, o3, fun v hv hk => ?_⟩
  obtain ⟨vb, b1, b2, b3⟩ := B v hv hk
  have hvb : ∀ k, vb.data.getD k 0 ≠ 0 → ValidState hs k := by
    intro k h
    rw [b3] at h
    unfold matVec at h
    by_contra hn
    rw [dif_neg hn] at h
    exact h rfl
  obtain ⟨vab, a1, a2, a3⟩ := A vb (by rw [b2]; exact hv) hvb
  obtain ⟨w, w1, w2, w3⟩ := AB v hv hk
  refine ⟨vb, vab, b1, a1, ?_⟩
  rw [w1]
  have hd : w.data = vab.data := by
    refine List.ext_getElem (w2.trans (a2.trans b2).symm) fun i h1 h2 => ?_
    have e1 : w.data.getD i 0 = w.data[i] := by simp [h1]
    have e2 : vab.data.getD i 0 = vab.data[i] := by simp [h2]
    rw [← e1, ← e2, w3, a3, eval_mul hP ha' hb', matVec_mul]
    congr 1
    funext s
    rw [b3]
  cases w; cases vab; simp only at hd; rw [hd]

/-- **C80** The relations hold for the matrices of fermions and spins on any Hilbert space, together with those of user-defined
algebras that obey their own and commute with them. -/
theorem C80_relations [Algebra ℝ S] (ho : UserOrder U) (hM : HalfAlone M) (hc : Constructed hs) (hpre : PredefinedSpaces hs) (Q : U → Prop)
    (hρ : ∀ g, ρ (.pre g) = preMatrix S hs g) (hu : Represents S (Both (fun _ => False) Q) ρ)
    (h1 : ∀ g u, hs.has g.mode.space = true → Q u → ρ (.pre g) * ρ (.user u) = ρ (.user u) * ρ (.pre g)) :
    Represents S (Both (AllowedOn M (NotBosonic hs)) Q) ρ := by
  refine represents_both ho ?_ hu fun g u hg hu => h1 g u hg.2.1 hu
  have : (fun g => ρ (.pre g)) = preMatrix S hs := funext hρ
  rw [this]
  exact represents_preMatrix hM hc hpre

end LC
