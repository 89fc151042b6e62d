import Verif.Proof.CompView
import Verif.Props.LOperator
/-
C43: `compressed_state_view`.
-/
set_option linter.unusedSectionVars false
namespace LC
open HilbertSpace SparseForeach
variable {ι T V : Type _} [LinearOrder ι]

/-- The valid basis state indices of a Hilbert space in increasing order. -/
def validStates (hs : HilbertSpace ι) : List Nat := (List.range hs.vecSize).filter fun s => decide (ValidState hs s)

theorem validStates_eq (hs : HilbertSpace ι) (h : Constructed hs) : ∃ l, Fits l ∧ hs = canon l ∧
    validStates hs = (List.range hs.dim).map (enc (msz l 1)) := by
  obtain ⟨l, hf, rfl⟩ := h.canon
  have hb := hf.bits
  have e : (canon l).vecSize = 2 ^ bitSum l := by
    unfold vecSize
    rw [canon_total, Int.toNat_natCast, pow2_eq (by omega)]
  refine ⟨l, hf, rfl, ?_⟩
  rw [validStates, e, canon_dim, enc_list l hf]

/-- **C43** A view can be made for every Hilbert space, and `map_index` sends the valid basis states, in increasing order, to
0, 1, …, dim()-1. -/
theorem C43_map_index (sv : V) (hs : HilbertSpace ι) (h : Constructed hs) :
    ∃ v, CompView.make sv hs = .ok v ∧ (validStates hs).map v.mapIndex = (List.range hs.dim).map .ok := by
  obtain ⟨l, hf, rfl, e⟩ := validStates_eq hs h
  obtain ⟨g1, g2, _, g4⟩ := msz_spec l hf.wf 0 (by have := hf.bits; omega)
  rw [pow_zero] at g1 g2
  refine ⟨_, CompView.make_canon sv l hf, ?_⟩
  rw [e, List.map_map]
  apply List.map_congr_left
  intro k hk
  rw [List.mem_range, canon_dim] at hk
  rw [Function.comp, CompView.mapIndex_canon sv l hf _ (enc_valid g1 k), dec_enc g1 (by rw [g2, Nat.one_mul]; exact hk)]

variable [AddCommMonoid T] [DecidableEq T] [StateVec V T] [LawfulSV V T]

theorem comp_states (hs : HilbertSpace ι) (h : Constructed hs) (h1 : 1 < hs.dim) (h2 : hs.dim < 2 ^ 31) (sv : V) (v : CompView V)
    (hv : CompView.make sv hs = .ok v) : (v.foreachAlg.run fun _ ind => ind).1 = validStates hs ∧ v.sv = sv := by
  obtain ⟨l, hf, rfl, e⟩ := validStates_eq hs h
  obtain ⟨g1, g2, g3, _⟩ := msz_spec l hf.wf 0 (by have := hf.bits; omega)
  rw [pow_zero] at g1 g2 g3
  rw [Nat.one_mul] at g2
  rw [CompView.make_canon sv l hf] at hv
  cases hv
  rw [canon_dim, ← g2] at h1 h2
  refine ⟨?_, rfl⟩
  rw [run_eq (by rintro h0; rw [h0] at h1; simp at h1) g1 (by
    rw [g3]; exact Nat.pow_lt_pow_right (by decide) (by have := hf.bits; omega)) h2, e, canon_dim, g2]

/-- **C43** `foreach` of a view calls the functor on the valid basis states in increasing order, the `i`-th of them paired with
the amplitude stored at position `i`, skipping zero amplitudes. -/
theorem C43_foreach (hs : HilbertSpace ι) (h : Constructed hs) (h1 : 1 < hs.dim) (h2 : hs.dim < 2 ^ 31) (sv : V)
    (hsv : LawfulSV.inv sv) (hdom : ∀ i < hs.dim, i ∈ LawfulSV.dom sv) :
    ∃ v, CompView.make sv hs = .ok v ∧ StateVec.foreach v =
      .ok (((validStates hs).zipIdx.map fun p => (p.1, LawfulSV.amp sv p.2)).filter fun q => decide (q.2 ≠ 0)) := by
  obtain ⟨v, hv, _⟩ := C43_map_index sv hs h
  obtain ⟨e1, e2⟩ := comp_states hs h h1 h2 sv v hv
  refine ⟨v, hv, ?_⟩
  have hlen : (validStates hs).length = hs.dim := C27_dim_counts_states hs h
  have := viewForeach_spec sv hsv (validStates hs).zipIdx (fun p hp => by
    obtain ⟨_, hlt, _⟩ := List.mem_zipIdx hp
    exact hdom _ (by omega))
  show viewForeach v.sv (v.foreachAlg.run fun _ ind => ind).1.zipIdx = _
  rw [e1, e2, this]

/-- **C43** A view behaves as a state vector: it addresses the valid basis states, and the amplitude of a basis state is the
stored amplitude at its mapped position. Hence operators can be applied to and into views (C38). -/
theorem C43_lawful (hs : HilbertSpace ι) (h : Constructed hs) (h1 : 1 < hs.dim) (h2 : hs.dim < 2 ^ 31) (sv : V)
    (hsv : LawfulSV.inv sv) (hdom : ∀ i < hs.dim, i ∈ LawfulSV.dom sv) :
    ∃ v, CompView.make sv hs = .ok v ∧ LawfulSV.inv v ∧ (∀ n, n ∈ LawfulSV.dom v ↔ ValidState hs n) ∧
      ∀ n, ValidState hs n → ∃ i < hs.dim, v.mapIndex n = .ok i ∧ LawfulSV.amp v n = LawfulSV.amp sv i := by
  obtain ⟨v, hv, hmap⟩ := C43_map_index sv hs h
  obtain ⟨e1, e2⟩ := comp_states hs h h1 h2 sv v hv
  have hlen : (validStates hs).length = hs.dim := C27_dim_counts_states hs h
  have hst : ViewOf.states v = (validStates hs).zipIdx := by
    show (v.foreachAlg.run fun _ ind => ind).1.zipIdx = _; rw [e1]
  have hbase : ViewOf.base v = sv := e2
  have hi : ∀ p ∈ ViewOf.states v, p.2 < hs.dim ∧ (validStates hs)[p.2]? = some p.1 := by
    intro p hp
    rw [hst] at hp
    have h3 := List.mem_zipIdx_iff_getElem?.1 hp
    exact ⟨by rw [← hlen]; exact (List.getElem?_eq_some_iff.1 h3).1, h3⟩
  have hidx : ∀ p ∈ ViewOf.states v, v.mapIndex p.1 = .ok p.2 := by
    intro p hp
    obtain ⟨h3, h4⟩ := hi p hp
    have := congrArg (fun l => l[p.2]?) hmap
    simp only [List.getElem?_map, h4, List.getElem?_range h3, Option.map_some, Option.some.injEq] at this
    exact this
  have hfst : (ViewOf.states v).map Prod.fst = validStates hs := by rw [hst, List.zipIdx_map_fst]
  have hgood : ViewOf.Good v := by
    refine ⟨by rw [hbase]; exact hsv, ?_, hidx, ?_, fun p hp => by rw [hbase]; exact hdom _ (hi p hp).1, fun _ => rfl⟩
    · rw [hfst]; exact List.nodup_range.filter _
    · intro p hp q hq hpq
      have a := (hi p hp).2
      have b := (hi q hq).2
      rw [hpq, b] at a
      exact Prod.ext (Option.some.inj a).symm hpq
  have hdv : ∀ n, n ∈ LawfulSV.dom v ↔ ValidState hs n := by
    intro n
    show n ∈ (ViewOf.states v).map Prod.fst ↔ _
    rw [hfst, validStates, List.mem_filter, List.mem_range, decide_eq_true_iff]
    refine ⟨fun h => h.2, fun hn => ⟨?_, hn⟩⟩
    have h63 := (C26_bit_ranges hs h).2.2.1
    rw [show hs.vecSize = 2 ^ hs.totalNBits.toNat by unfold vecSize; rw [pow2_eq (by omega)]]
    exact hn.1
  refine ⟨v, hv, hgood, hdv, fun n hn => ?_⟩
  obtain ⟨p, hp, rfl⟩ := List.mem_map.1 ((hdv n).2 hn)
  refine ⟨p.2, (hi p hp).1, hidx p hp, ?_⟩
  show ViewOf.vamp v p.1 = _
  rw [ViewOf.vamp_of_mem hgood hp, hbase]

/-- **C43** Applying an operator through compressed views of two `std::vector`s with `dim()` elements is the action of its
matrix: the result at the position of `t` is `∑_k ⟨t|e|k⟩ ψ(k)`, where `ψ(k)` is the amplitude at the position of `k`. -/
theorem C43_operator_action {S T : Type _} [CommRing S] [DecidableEq S] [ConstScalar S] [ScalarLaws S] [IsDomain S] [CharZero S]
    [Star S] [Algebra ℝ S] [AddCommGroup T] [DecidableEq T] [Module S T] {M : Nat → ι → Prop} (hM : HalfAlone M)
    (hs : HilbertSpace ι) (h : Constructed hs) (hpre : PredefinedSpaces hs) (h1 : 1 < hs.dim) (h2 : hs.dim < 2 ^ 31)
    (e : Expr (Gen ι) S) (he : Reachable (InSpace M hs) e) :
    ∃ op, LOperator.make e hs = .ok op ∧ ∀ src dst : DenseSV T, src.data.length = hs.dim → dst.data.length = hs.dim →
      ∃ vs vd vd', CompView.make src hs = .ok vs ∧ CompView.make dst hs = .ok vd ∧ op.applyTo vs vd = .ok vd' ∧
        vd'.sv.data.length = hs.dim ∧ ∀ t, ValidState hs t → ∃ i, vd.mapIndex t = .ok i ∧
          vd'.sv.data.getD i 0 = opApply hs e (fun k => match vs.mapIndex k with
            | .ok j => src.data.getD j 0
            | .error _ => 0) t := by
  obtain ⟨op, hop, hact⟩ := C38_operator_action (V := CompView (DenseSV T)) (W := CompView (DenseSV T)) hM h hpre e he
  refine ⟨op, hop, fun src dst hs1 hs2 => ?_⟩
  obtain ⟨vs, a1, a2, a3, a4⟩ := C43_lawful hs h h1 h2 src trivial (fun i hi => by show i < src.data.length; omega)
  obtain ⟨vd, b1, b2, b3, b4⟩ := C43_lawful hs h h1 h2 dst trivial (fun i hi => by show i < dst.data.length; omega)
  obtain ⟨vd', c1, c2, c3, c4⟩ := hact vs vd a2 b2
    (fun k hk => (a3 k).1 (by by_contra hn; exact hk (LawfulSV.amp_out vs k hn))) (fun _ _ _ _ t ht _ => (b3 t).2 ht)
  -- the description of the result refers to the translation of `vd'`, which is that of `vd`
  obtain ⟨hput, hlen⟩ : (∃ w, vd' = { vd with sv := w }) ∧ vd'.sv.data.length = dst.data.length := by
    have key := applyAll_rel (S := S) (T := T) (W := CompView (DenseSV T))
      (fun v v' => (∃ w, v' = { v with sv := w }) ∧ v'.sv.data.length = v.sv.data.length) (fun v => ⟨⟨v.sv, rfl⟩, rfl⟩)
      (by rintro u v w ⟨⟨a, rfl⟩, e1⟩ ⟨⟨b, rfl⟩, e2⟩; exact ⟨⟨b, rfl⟩, e2.trans e1⟩)
      (by
        intro v n a v' hu
        simp only [StateVec.updateAdd, DenseSV.updateAdd] at hu
        cases hi : v.mapIndex n with
        | error e => rw [hi] at hu; cases hu
        | ok k =>
          rw [hi] at hu
          cases hk : v.sv.data[k]? with
          | none => simp only [hk] at hu; cases hu
          | some x => simp only [hk] at hu; cases hu; exact ⟨⟨_, rfl⟩, by simp⟩)
    have hbase := (comp_states hs h h1 h2 dst vd b1).2
    rw [LOperator.applyTo, LOperator.actImpl] at c1
    cases hf : StateVec.foreach vs with
    | error e => rw [hf] at c1; cases c1
    | ok l =>
      rw [hf] at c1
      obtain ⟨⟨w, hw⟩, e2⟩ := key _ _ _ _ c1
      refine ⟨⟨w, hw⟩, ?_⟩
      rw [e2, ← hbase]
      simp [StateVec.setZeros, DenseSV.setZeros]
  refine ⟨vs, vd, vd', a1, b1, c1, hlen.trans hs2, fun t ht => ?_⟩
  obtain ⟨i, hi, e1, _⟩ := b4 t ht
  refine ⟨i, e1, ?_⟩
  have hdom' : t ∈ LawfulSV.dom vd' := by rw [c3]; exact (b3 t).2 ht
  have hamp : LawfulSV.amp vd' t = vd'.sv.data.getD i 0 := by
    have hm : t ∈ (ViewOf.states vd').map Prod.fst := hdom'
    obtain ⟨p, hp, rfl⟩ := List.mem_map.1 hm
    have h5 := ViewOf.vamp_of_mem c2 hp
    have h6 : vd'.mapIndex p.1 = .ok p.2 := ViewOf.Good.idx_eq c2 p hp
    obtain ⟨w, hw⟩ := hput
    have h7 : vd'.mapIndex p.1 = vd.mapIndex p.1 := by rw [hw]; rfl
    rw [h7, e1] at h6
    cases h6
    exact h5
  rw [← hamp, c4]
  unfold opApply
  rw [if_pos ht, if_pos ht]
  refine Finset.sum_congr rfl fun k hk => ?_
  obtain ⟨j, _, e2, e3⟩ := a4 k (Finset.mem_filter.1 hk).2
  rw [e3]; simp only [e2]
  rfl

/-- A sparse space with mixed elementary spaces: 12 states in 4 bits. -/
def compExample : List (ESpace Nat) := [ESpace.spin 2 0, ESpace.boson 3 0, ESpace.fermion 0]

theorem compExample_wf : ∀ es ∈ compExample, es.Wf := by
  intro es hes
  simp only [compExample, List.mem_cons, List.not_mem_nil, or_false] at hes
  rcases hes with rfl | rfl | rfl
  · exact wf_spin 2 (by decide) 0
  · exact wf_boson 3 (by decide) 0
  · exact wf_fermion 0

/-- The hypotheses of `C43_lawful` are met by this space and a `std::vector` with 12 elements. -/
example : ∃ hs, HilbertSpace.ofArgs compExample = .ok hs ∧ Constructed hs ∧ 1 < hs.dim ∧ hs.dim < 2 ^ 31 ∧
    ∀ sv : DenseSV Int, sv.data.length = 12 → LawfulSV.inv sv ∧ ∀ i < hs.dim, i ∈ LawfulSV.dom sv := by
  refine ⟨_, rfl, Constructed.ofArgs compExample_wf rfl, by decide +kernel, by decide +kernel, fun sv h => ⟨trivial, ?_⟩⟩
  intro i hi
  show i < sv.data.length
  rw [h]
  exact hi

/-- In this space the states are 0-5 and 8-13 (a boson with three states between two bits); state 13 is stored at position 11. -/
example : ∃ hs, HilbertSpace.ofArgs compExample = .ok hs ∧ validStates hs = [0, 1, 2, 3, 4, 5, 8, 9, 10, 11, 12, 13] ∧
    ∃ v : CompView (DenseSV Int), CompView.make ⟨[0, 7, 0, 0, 0, 0, 5, 0, 0, 0, 0, 1]⟩ hs = .ok v ∧ v.mapIndex 13 = .ok 11 ∧
      StateVec.foreach v = .ok [(1, 7), (8, 5), (13, 1)] ∧ StateVec.getElement v 8 = .ok 5 := by
  refine ⟨_, rfl, by decide +kernel, _, rfl, ?_, ?_, ?_⟩ <;> decide +kernel

/-- **C43 (finding F14)** If the dimension is 1, `foreach` of a view never calls the functor, even though the only amplitude
is not zero. -/
theorem C43_F14_dimension_one : ∃ hs : HilbertSpace Nat, Constructed hs ∧ hs.dim = 1 ∧ ∃ v : CompView (DenseSV Int),
    CompView.make ⟨[1]⟩ hs = .ok v ∧ StateVec.getElement v 0 = .ok 1 ∧ StateVec.foreach v = .ok [] := by
  refine ⟨_, Constructed.ofArgs (l := [ESpace.boson 1 0]) ?_ rfl, by decide +kernel, _, rfl, by decide +kernel, by decide +kernel⟩
  intro es hes
  simp only [List.mem_cons, List.not_mem_nil, or_false] at hes
  subst hes
  exact wf_boson _ (by decide) _

/-- **C43 (finding F4)** The iteration of a view uses the `int` counter even for spaces that are not sparse: with a single mode of
dimension 2^32 (or 32 fermionic modes) `foreach` visits nothing. -/
theorem C43_F4_int_overflow : ∃ hs : HilbertSpace Nat, Constructed hs ∧ hs.isSparse = false ∧ hs.dim = 2 ^ 32 ∧
    ∀ sv : DenseSV Int, ∃ v, CompView.make sv hs = .ok v ∧ StateVec.foreach v = .ok [] := by
  refine ⟨((HilbertSpace.empty (ι := Nat)).add (ESpace.boson (2 ^ 32) 0)).1,
    Constructed.ofArgs (l := [ESpace.boson (2 ^ 32) 0]) ?_ rfl, by decide +kernel, by decide +kernel, ?_⟩
  · intro es hes
    simp only [List.mem_cons, List.not_mem_nil, or_false] at hes
    subst hes
    exact wf_boson _ (by decide) _
  · intro sv
    refine ⟨⟨sv, [2 ^ 32 - 1], [1], SparseForeach.make [2 ^ 32]⟩, ?_, ?_⟩
    · have : CompView.initLoop (((HilbertSpace.empty (ι := Nat)).add (ESpace.boson (2 ^ 32) 0)).1)
          (((HilbertSpace.empty (ι := Nat)).add (ESpace.boson (2 ^ 32) 0)).1).elementarySpaces 1 0 [] [] =
          .ok ([2 ^ 32], [2 ^ 32 - 1]) := by decide +kernel
      rw [CompView.make, this]
      rfl
    · show viewForeach sv ((SparseForeach.make [2 ^ 32]).run fun _ ind => ind).1.zipIdx = _
      rw [show ((SparseForeach.make [2 ^ 32]).run fun _ ind => ind).1 = [] by decide +kernel]
      rfl

end LC
