import Verif.Proof.Eigen
import Verif.Props.LOperator
/-
C82: Eigen vectors, segments, columns and blocks as state vectors.
-/
set_option linter.unusedSectionVars false
namespace LC
open Expr HilbertSpace
variable {ι S T : Type _} [LinearOrder ι] [CommRing S] [DecidableEq S] [ConstScalar S] [ScalarLaws S] [IsDomain S]
  [CharZero S] [Star S] [Algebra ℝ S] [AddCommGroup T] [Module S T] [DecidableEq T] {hs : HilbertSpace ι}

/-- **C82** `op(src, dst)` with `dst` an Eigen object of `vec_size()` elements: its elements become those of the operator applied to `src`,
and nothing else in the memory it belongs to is changed. -/
theorem C82_eigen_destination {V : Type _} [StateVec V T] [LawfulSV V T] {M : Nat → ι → Prop} (hM : HalfAlone M) (hc : Constructed hs)
    (hpre : PredefinedSpaces hs) (e : Expr (Gen ι) S) (he : Reachable (InSpace M hs) e) :
    ∃ op, LOperator.make e hs = .ok op ∧ ∀ (src : V) (mem : List T) (dst : EigenView), LawfulSV.inv src →
      (∀ k ∈ LawfulSV.visited src, ValidState hs k) → dst.Inside mem.length → dst.size = hs.vecSize →
      ∃ mem', op.applyTo src (EigenSV.mk mem dst) = .ok (EigenSV.mk mem' dst) ∧ dst.OnlyHere mem mem' ∧
        ∀ t, dst.amp mem' t = opApply hs e (LawfulSV.amp src) t := by
  obtain ⟨op, hop, h⟩ := C38_operator_action (V := V) (W := EigenSV T) hM hc hpre e he
  refine ⟨op, hop, fun src mem dst h1 h2 h3 h4 => ?_⟩
  have h63 := (C26_bit_ranges hs hc).2.2.1
  have hvs : hs.vecSize = 2 ^ hs.totalNBits.toNat := by unfold vecSize; rw [pow2_eq (by omega)]
  obtain ⟨dst', e1, _, _, e2⟩ := h src (EigenSV.mk mem dst) h1 h3 h2 (fun _ _ _ _ t ht _ => by
    show t < dst.size
    rw [h4, hvs]; exact ht.1)
  obtain ⟨a1, a2⟩ := applyTo_here op src e1
  obtain ⟨mem', view'⟩ := dst'
  have a1 : view' = dst := a1
  subst a1
  exact ⟨mem', e1, a2, e2⟩

/-- **C82** `op(sv)` for an Eigen object returns a new vector. -/
theorem C82_eigen_value {M : Nat → ι → Prop} (hM : HalfAlone M) (hc : Constructed hs) (hpre : PredefinedSpaces hs) (e : Expr (Gen ι) S)
    (he : Reachable (InSpace M hs) e) :
    ∃ op, LOperator.make e hs = .ok op ∧ ∀ (mem : List T) (sv : EigenView), sv.Inside mem.length → sv.size = hs.vecSize →
      (∀ k, sv.amp mem k ≠ 0 → ValidState hs k) →
      ∃ w, op.apply (EigenSV.mk mem sv) = .ok w ∧ ∀ t, w.view.amp w.mem t = opApply hs e (sv.amp mem) t := by
  obtain ⟨op, hop, h⟩ := C38_operator_action_value (V := EigenSV T) hM hc hpre e he
  refine ⟨op, hop, fun mem sv h1 h2 h3 => ?_⟩
  have h63 := (C26_bit_ranges hs hc).2.2.1
  have hvs : hs.vecSize = 2 ^ hs.totalNBits.toNat := by unfold vecSize; rw [pow2_eq (by omega)]
  obtain ⟨w, e1, _, _, e2⟩ := h (EigenSV.mk mem sv) h1 h3 (fun _ _ _ _ t ht _ => by
    show t < sv.size
    rw [h2, hvs]; exact ht.1)
  exact ⟨w, e1, e2⟩

/-- **C82** Source and destination may be parts of the same memory (segments of a vector, columns of a matrix) if they have no common elements:
the destination becomes the operator applied to the source, and everything else, the source included, stays as it was. -/
theorem C82_same_memory {M : Nat → ι → Prop} (hM : HalfAlone M) (hc : Constructed hs) (hpre : PredefinedSpaces hs) (e : Expr (Gen ι) S)
    (he : Reachable (InSpace M hs) e) :
    ∃ op, LOperator.make e hs = .ok op ∧ ∀ (mem : List T) (src dst : EigenView), src.Inside mem.length → dst.Inside mem.length →
      src.Apart dst → dst.size = hs.vecSize → (∀ k, src.amp mem k ≠ 0 → ValidState hs k) →
      ∃ mem', op.applyShared mem src dst = .ok mem' ∧ dst.OnlyHere mem mem' ∧ (∀ k, src.amp mem' k = src.amp mem k) ∧
        ∀ t, dst.amp mem' t = opApply hs e (src.amp mem) t := by
  obtain ⟨op, hop, h⟩ := C82_eigen_destination (V := EigenSV T) hM hc hpre e he
  refine ⟨op, hop, fun mem src dst h1 h2 h3 h4 h5 => ?_⟩
  obtain ⟨mem', e1, e2, e3⟩ := h (EigenSV.mk mem src) mem dst h1 h5 h2 h4
  refine ⟨mem', ?_, e2, fun k => amp_apart h3 e2 k, e3⟩
  rw [applyShared_eq op mem h1 h3, e1]; rfl

/-- **C82** `op(v, v)` for an Eigen object gives zero. -/
theorem C82_same_object (op : LOperator S) (mem : List T) (v : EigenView) (h : v.Inside mem.length) :
    ∃ mem', op.applyShared mem v v = .ok mem' ∧ v.OnlyHere mem mem' ∧ ∀ k, v.amp mem' k = 0 := by
  have hz := EigenSV.zeroLoop_here v (List.range v.size) (fun n hn => List.mem_range.1 hn) mem
  have z := (LawfulSV.zero (EigenSV.mk mem v) h).2.2
  refine ⟨_, ?_, hz, z⟩
  have : ∀ l, (∀ n ∈ l, n < v.size) → sharedLoop op.actions v l (StateVec.setZeros (EigenSV.mk mem v)) = .ok (StateVec.setZeros (EigenSV.mk mem v)) := by
    intro l
    induction l with
    | nil => intro _; rfl
    | cons n l ih =>
      intro hl
      rw [sharedLoop, EigenSV.getElement_ok (sv := ⟨_, v⟩) (by
        show v.Inside (EigenSV.zeroLoop _ _ _).length
        rw [hz.1]; exact h) (hl n (by simp))]
      have : v.amp (StateVec.setZeros (EigenSV.mk mem v)).mem n = 0 := z n
      simp only
      rw [if_pos this]
      exact ih fun m hm => hl m (by simp [hm])
  rw [LOperator.applyShared, this _ (fun n hn => List.mem_range.1 hn)]
  rfl

/-- **C82** Segments of vectors, columns of matrices in either storage order and blocks of one column lie inside the memory of the vector or
matrix. -/
theorem C82_views (p n : Nat) :
    (EigenView.map p n).Inside (p + n) ∧
    (∀ v : EigenView, ∀ N i k, v.Inside N → i + k ≤ v.size → (v.segment i k).Inside N) ∧
    (∀ rows cols j, j < cols → (EigenView.col p rows j).Inside (p + rows * cols)) ∧
    (∀ rows cols j, j < cols → (EigenView.colRowMajor p rows cols j).Inside (p + rows * cols)) ∧
    (∀ rows cols i j k, j < cols → i + k ≤ rows → (EigenView.block p rows i j k).Inside (p + rows * cols)) := by
  have seg : ∀ (v : EigenView) i k m, (v.segment i k).addr m = v.addr (i + m) := fun v i k m => by
    simp only [EigenView.segment, EigenView.addr]; ring
  refine ⟨⟨fun i hi => ?_, fun i _ j _ e => ?_⟩, fun v N i k hv hik => ⟨fun m hm => ?_, fun m hm m' hm' e => ?_⟩,
    fun rows cols j hj => ⟨fun i hi => ?_, fun i _ i' _ e => ?_⟩, fun rows cols j hj => ⟨fun i hi => ?_, fun i _ i' _ e => ?_⟩,
    fun rows cols i j k hj hik => ⟨fun m hm => ?_, fun m _ m' _ e => ?_⟩⟩
  · have : i < n := hi
    simp only [EigenView.map, EigenView.addr]; omega
  · simp only [EigenView.map, EigenView.addr] at e; omega
  · have : m < k := hm
    rw [seg]; exact hv.inside _ (by omega)
  · have : m < k := hm
    have : m' < k := hm'
    rw [seg, seg] at e
    have := hv.distinct _ (by omega) _ (by omega) e
    omega
  · have : i < rows := hi
    simp only [EigenView.col, EigenView.addr]
    have : rows * j + rows ≤ rows * cols := by
      calc rows * j + rows = rows * (j + 1) := by ring
        _ ≤ rows * cols := Nat.mul_le_mul_left _ hj
    omega
  · simp only [EigenView.col, EigenView.addr] at e; omega
  · have : i < rows := hi
    simp only [EigenView.colRowMajor, EigenView.addr]
    have : cols * i + cols ≤ rows * cols := by
      calc cols * i + cols = (i + 1) * cols := by ring
        _ ≤ rows * cols := Nat.mul_le_mul_right _ this
    omega
  · simp only [EigenView.colRowMajor, EigenView.addr] at e
    have : cols * i = cols * i' := by omega
    exact Nat.eq_of_mul_eq_mul_left (by omega) this
  · have : m < k := hm
    simp only [EigenView.block, EigenView.addr]
    have : rows * j + rows ≤ rows * cols := by
      calc rows * j + rows = rows * (j + 1) := by ring
        _ ≤ rows * cols := Nat.mul_le_mul_left _ hj
    omega
  · simp only [EigenView.block, EigenView.addr] at e; omega

/-- **C82** Different columns of a matrix, and segments of a vector that do not overlap, have no common elements. -/
theorem C82_apart (p : Nat) :
    (∀ rows j j', j ≠ j' → (EigenView.col p rows j).Apart (EigenView.col p rows j')) ∧
    (∀ rows cols j j', j < cols → j' < cols → j ≠ j' → (EigenView.colRowMajor p rows cols j).Apart (EigenView.colRowMajor p rows cols j')) ∧
    (∀ (v : EigenView) N i k i' k', v.Inside N → i + k ≤ v.size → i' + k' ≤ v.size → (i + k ≤ i' ∨ i' + k' ≤ i) →
      (v.segment i k).Apart (v.segment i' k')) := by
  refine ⟨fun rows j j' hj m hm m' hm' e => ?_, fun rows cols j j' h1 h2 hj m hm m' hm' e => ?_, fun v N i k i' k' hv h1 h2 h3 m hm m' hm' e => ?_⟩
  · have hm : m < rows := hm
    have hm' : m' < rows := hm'
    simp only [EigenView.col, EigenView.addr] at e
    have e : m + rows * j = m' + rows * j' := by omega
    have := congrArg (· / rows) e
    simp only [Nat.add_mul_div_left _ _ (show 0 < rows by omega), Nat.div_eq_of_lt hm, Nat.div_eq_of_lt hm'] at this
    omega
  · simp only [EigenView.colRowMajor, EigenView.addr] at e
    have e : j + cols * m = j' + cols * m' := by omega
    have := congrArg (· % cols) e
    simp only [Nat.add_mul_mod_self_left, Nat.mod_eq_of_lt h1, Nat.mod_eq_of_lt h2] at this
    exact hj this
  · have hm : m < k := hm
    have hm' : m' < k' := hm'
    have e : v.addr (i + m) = v.addr (i' + m') := by
      simp only [EigenView.segment, EigenView.addr] at e ⊢
      linarith [e]
    have := hv.distinct _ (by omega) _ (by omega) e
    omega

/-- The conditions of `C82_same_memory` are met, e.g., by the two columns of a 512×2 matrix and the Hilbert space of `c38_hypotheses`. -/
example : ∃ hs : HilbertSpace Nat, Constructed hs ∧ PredefinedSpaces hs ∧ (EigenView.col 0 512 1).size = hs.vecSize ∧
    (EigenView.col 0 512 0).Inside 1024 ∧ (EigenView.col 0 512 1).Inside 1024 ∧ (EigenView.col 0 512 0).Apart (EigenView.col 0 512 1) := by
  obtain ⟨hs, h1, h2, _, _, _, h3⟩ := c38_hypotheses
  exact ⟨hs, h1, h2, h3.symm, (C82_views 0 0).2.2.1 512 2 0 (by decide), (C82_views 0 0).2.2.1 512 2 1 (by decide),
    (C82_apart 0).1 512 0 1 (by decide)⟩

end LC
