import Verif.Proof.BlockAction
import Verif.Props.Partition
import Verif.Props.SectorAction
import Verif.Proof.MatrixFaithful
/-
C107: operators acting in the invariant subspaces found by `space_partition`, through `mapped_basis_view`s (the last part of
examples/partition.cpp).
-/
set_option linter.unusedSectionVars false
set_option linter.unusedSimpArgs false
namespace LC
open HilbertSpace Expr BasisMapper SpacePartition
variable {ι S H H₁ H₂ T : Type _} [LinearOrder ι] {hs : HilbertSpace ι} [CommRing S] [DecidableEq S] [ConstScalar S] [ScalarLaws S]
  [IsDomain S] [CharZero S] [Star S] [Algebra ℝ S] [HashImpl H Nat S] [HashImpl H₁ Nat Nat] [HashImpl H₂ Nat Nat] {M : Nat → ι → Prop}
  [AddCommGroup T] [DecidableEq T] [Module S T]

/-- A view made by `basis_mapper(l).make_view(sv)` of a list without repetitions over a vector with as many elements. -/
theorem view_of_list (l : List Nat) (hl : l.Nodup) (sv : DenseSV T) (hsv : sv.data.length = l.length) :
    LawfulSV.inv ((ofList l : BasisMapper H₁).makeView sv) ∧ (∀ n, n ∈ LawfulSV.dom ((ofList l : BasisMapper H₁).makeView sv) ↔ n ∈ l) ∧
      (∀ i n, l[i]? = some n → LawfulSV.amp ((ofList l : BasisMapper H₁).makeView sv) n = sv.data.getD i 0) ∧
      ∀ i n, l[i]? = some n → ViewOf.idx ((ofList l : BasisMapper H₁).makeView sv) n = .ok i := by
  obtain ⟨d, h1, h2, h3⟩ := C44_of_list (H := H₁) l
  have hd := h3 hl
  subst hd
  have hnd : (ofList d : BasisMapper H₁).map.Nodup :=
    (emplaceAll_spec (H := H₁) d UMap.empty [] ∅ UMap.nodup_empty numbers_empty).1
  obtain ⟨a1, a2, a3, -⟩ := C44_view (ofList d : BasisMapper H₁) hnd d _ h1 sv trivial
    (fun i hi => by show i < sv.data.length; rw [h2] at hi; omega)
  refine ⟨a1, fun n => by rw [a2]; rfl, a3, fun i n hi => ?_⟩
  show MappedView.mapIndex _ n = _
  have : ((ofList d : BasisMapper H₁).makeView sv).map.find? n = some i := (h1.2.2.2 n i).2 hi
  rw [MappedView.mapIndex, this]

theorem mapped_out (w : MappedView H₁ (DenseSV T)) (n : Nat) (hn : n ∉ LawfulSV.dom w) (a : T) :
    StateVec.updateAdd w n a = .error .outOfRange := by
  have : w.mapIndex n = .error .outOfRange := by
    rw [MappedView.mapIndex]
    have : w.map.find? n = none := by
      rw [Option.eq_none_iff_forall_not_mem]
      intro i hi
      apply hn
      have h2 : (n, i) ∈ w.map.items := by
        simp only [UMap.find?, Option.mem_def, Option.map_eq_some_iff] at hi
        obtain ⟨p, h1, rfl⟩ := hi
        have h3 := List.find?_some h1
        simp only [decide_eq_true_eq, beq_iff_eq] at h3
        rw [← h3]
        exact List.mem_of_find?_eq_some h1
      exact List.mem_map.2 ⟨_, h2, rfl⟩
    rw [this]
  simp only [StateVec.updateAdd, this]

theorem updateAdd_mapped (v : MappedView H₁ (DenseSV T)) (n : Nat) (a : T) (v' : MappedView H₁ (DenseSV T))
    (h : StateVec.updateAdd v n a = .ok v') : ∃ k, ViewOf.idx v n = .ok k := by
  simp only [StateVec.updateAdd] at h
  cases hi : v.mapIndex n with
  | error e => rw [hi] at h; cases h
  | ok k => exact ⟨k, hi⟩

/-- Every term of the expression leads from the states of the list `l` with non-zero elements of the vector into the list `l'`. -/
def TermsStay (hs : HilbertSpace ι) (e : Expr (Gen ι) S) (l l' : List Nat) (x : List T) : Prop :=
  ∀ i k, l[i]? = some k → x.getD i 0 ≠ 0 → ∀ p ∈ e.terms, ∀ t, ValidState hs t → matEl hs p.1 t k ≠ 0 → t ∈ l'

section
variable (hM : HalfAlone M) (hc : Constructed hs) (hpre : PredefinedSpaces hs)
include hM hc hpre

/-- **C107** An operator between two mapped views of lists of basis states `l`, `l'`: if every *term* of the expression leads from the states with
non-zero amplitudes into `l'`, the result is the matrix of the expression between the two lists times the source vector; otherwise
`op(src_view, dst_view)` throws `std::out_of_range`. -/
theorem C107_mapped_views (e : Expr (Gen ι) S) (op : LOperator S) (ho : OperatorOn (InSpace M hs) hs e op) (l l' : List Nat) (hl : l.Nodup)
    (hl' : l'.Nodup) (hv : ∀ s ∈ l, ValidState hs s) (hv' : ∀ s ∈ l', ValidState hs s) (src dst : DenseSV T)
    (hs1 : src.data.length = l.length) (hs2 : dst.data.length = l'.length) :
    (TermsStay hs e l l' src.data →
      ∃ vd', op.applyTo ((ofList l : BasisMapper H₁).makeView src) ((ofList l' : BasisMapper H₂).makeView dst) = .ok vd' ∧
        vd'.sv.data.length = l'.length ∧ ∀ i t, l'[i]? = some t → vd'.sv.data.getD i 0 = rowTimesVector hs e t l src.data) ∧
    (¬ TermsStay hs e l l' src.data →
      op.applyTo ((ofList l : BasisMapper H₁).makeView src) ((ofList l' : BasisMapper H₂).makeView dst) = .error .outOfRange) := by
  obtain ⟨a1, a2, a3, a4⟩ := view_of_list (H₁ := H₁) l hl src hs1
  obtain ⟨b1, b2, b3, b4⟩ := view_of_list (H₁ := H₂) l' hl' dst hs2
  have hvis : ∀ k, k ∈ LawfulSV.visited ((ofList l : BasisMapper H₁).makeView src) ↔ ∃ i, l[i]? = some k ∧ src.data.getD i 0 ≠ 0 := by
    intro k
    constructor
    · intro hk
      have hk2 : k ∈ l := (a2 k).1 (by by_contra hn; exact hk (LawfulSV.amp_out _ k hn))
      obtain ⟨i, hi⟩ := List.mem_iff_getElem?.1 hk2
      exact ⟨i, hi, by rw [← a3 i k hi]; exact hk⟩
    · rintro ⟨i, hi, hne⟩
      rw [← a3 i k hi] at hne
      exact LawfulSV.visited_of_ne _ k a1 hne
  have hvalid : ∀ k ∈ LawfulSV.visited ((ofList l : BasisMapper H₁).makeView src), ValidState hs k := fun k hk => by
    obtain ⟨i, hi, -⟩ := (hvis k).1 hk
    exact hv k (List.mem_of_getElem? hi)
  constructor
  · intro hstay
    obtain ⟨op', hop', hact⟩ := C38_operator_action (V := MappedView H₁ (DenseSV T)) (W := MappedView H₂ (DenseSV T)) hM hc hpre e ho.1
    rw [ho.2] at hop'
    cases hop'
    obtain ⟨vd', c1, c2, c3, c4⟩ := hact _ _ a1 b1 hvalid (fun k hk p hp t ht hne => (b2 t).2 (by
      obtain ⟨i, hi, h0⟩ := (hvis k).1 hk
      exact hstay i k hi h0 p hp t ht hne))
    obtain ⟨w, rfl, hw⟩ := applyTo_put updateAdd_mapped op _ _ vd' c1
    refine ⟨_, c1, ?_, fun i t hi => ?_⟩
    · show w.data.length = _
      rw [hw]; exact hs2
    · have htl : t ∈ l' := List.mem_of_getElem? hi
      have := view_amp_eq _ c2 (by rw [c3]; exact (b2 t).2 htl) (by rw [ViewOf.idx_put]; exact b4 i t hi)
      refine this.symm.trans ?_
      rw [c4]
      exact opApply_list hs e _ l _ hl hv (fun s hs1 => LawfulSV.amp_out _ s fun h2 => hs1 ((a2 s).1 h2)) a3 t (hv' t htl)
  · intro hout
    unfold TermsStay at hout
    push Not at hout
    obtain ⟨i, k, hi, h0, p, hp, t, ht, hne, hnot⟩ := hout
    exact applyTo_out (fun w _ n hn a => mapped_out w n hn a) hc hpre ho.2 (fun p hp => (reach_actsOn hM ho.1 p hp).1) _ _ a1 b1 hvalid
      ⟨k, (hvis k).2 ⟨i, hi, h0⟩, p, hp, t, ht, hne, fun h => hnot ((b2 t).1 h)⟩

/-- **C107** The same operator applied to the view of a vector in a subspace, with a vector of the full space as the destination, never throws: the
result has the block times the source vector in the positions of the basis states of `l'`, whatever list of basis states `l'` is. -/
theorem C107_into_full_vector (e : Expr (Gen ι) S) (op : LOperator S) (ho : OperatorOn (InSpace M hs) hs e op) (l : List Nat) (hl : l.Nodup)
    (hv : ∀ s ∈ l, ValidState hs s) (src dst : DenseSV T) (hs1 : src.data.length = l.length) (hs2 : dst.data.length = hs.vecSize) :
    ∃ dst', op.applyTo ((ofList l : BasisMapper H₁).makeView src) dst = .ok dst' ∧ dst'.data.length = hs.vecSize ∧
      (∀ t, ValidState hs t → dst'.data.getD t 0 = rowTimesVector hs e t l src.data) ∧ ∀ t, ¬ ValidState hs t → dst'.data.getD t 0 = 0 := by
  obtain ⟨a1, a2, a3, a4⟩ := view_of_list (H₁ := H₁) l hl src hs1
  obtain ⟨op', hop', hact⟩ := C38_operator_action (V := MappedView H₁ (DenseSV T)) (W := DenseSV T) hM hc hpre e ho.1
  rw [ho.2] at hop'
  cases hop'
  have hvis : ∀ k ∈ LawfulSV.visited ((ofList l : BasisMapper H₁).makeView src), ValidState hs k := fun k hk =>
    hv k ((a2 k).1 (by by_contra hn; exact hk (LawfulSV.amp_out _ k hn)))
  obtain ⟨dst', c1, c2, c3, c4⟩ := hact _ dst a1 trivial hvis (fun k _ p _ t ht _ => by
    show t < dst.data.length
    rw [hs2, vecSize_eq hc]; exact ht.1)
  refine ⟨dst', c1, ?_, fun t ht => ?_, fun t ht => ?_⟩
  · have : ∀ n, n < dst'.data.length ↔ n < dst.data.length := fun n => iff_of_eq (congrArg (n ∈ ·) c3)
    have e1 := this dst.data.length
    have e2 := this dst'.data.length
    omega
  · refine (c4 t).trans ?_
    exact opApply_list hs e _ l _ hl hv (fun s hs1 => LawfulSV.amp_out _ s fun h2 => hs1 ((a2 s).1 h2)) a3 t ht
  · refine (c4 t).trans ?_
    rw [opApply, if_neg ht]

end

/-! ### Invariant subspaces -/

/-- A call that may change a partition object: a query, or `merge_subspaces`. -/
inductive Later (H S : Type _) [CommRing S] [DecidableEq S] [ConstScalar S] [Star S] [Algebra ℝ S] [HashImpl H Nat S] (P : Gen ι → Prop)
    (hs : HilbertSpace ι) (sp : SpacePartition) (sp' : SpacePartition) : Prop
  | query : Query H S P hs sp sp' → Later H S P hs sp sp'
  | merge (eCd eC : Expr (Gen ι) S) (Cd C : LOperator S) (store : Bool) (me1 me2 : MatElems S) : OperatorOn P hs eCd Cd → OperatorOn P hs eC C →
      sp.mergeSubspaces H Cd C store = .ok (sp', me1, me2) → Later H S P hs sp sp'

/-- Two different basis states are never connected by more than one term of the expression. -/
def OneTermEach (hs : HilbertSpace ι) (e : Expr (Gen ι) S) : Prop :=
  ∀ k t, ValidState hs k → ValidState hs t → k ≠ t → ∀ p ∈ e.terms, ∀ q ∈ e.terms, matEl hs p.1 t k ≠ 0 → matEl hs q.1 t k ≠ 0 → p = q

section
variable (hM : HalfAlone M) (hc : Constructed hs) (hpre : PredefinedSpaces hs) (hsmall : hs.foreachAlg.isSome → hs.dim < 2 ^ 31)
include hM hc hpre hsmall

theorem later_partition {sp sp' : SpacePartition} (h : PartitionOf H S (InSpace M hs) hs sp)
    (hl : Relation.ReflTransGen (Later H S (InSpace M hs) hs) sp sp') : PartitionOf H S (InSpace M hs) hs sp' := by
  induction hl with
  | refl => exact h
  | tail _ h2 ih =>
    cases h2 with
    | query hq => exact .query ih hq
    | merge eCd eC Cd C store me1 me2 h1 h2 h3 => exact .merge eCd eC ih h1 h2 h3

theorem sub_unique {sp : SpacePartition} {k i j : Nat} (h1 : sp.Sub k i) (h2 : sp.Sub k j) : i = j := by
  obtain ⟨s, h1⟩ := h1
  obtain ⟨s', h2⟩ := h2
  rw [h1] at h2; cases h2; rfl

/-- **C107** The subspaces remain invariant under the operator the partition was made from, however many subspaces are merged afterwards. -/
theorem C107_stay_invariant (e : Expr (Gen ι) S) (op : LOperator S) (ho : OperatorOn (InSpace M hs) hs e op) (sp sp' : SpacePartition)
    (h : SpacePartition.make H op hs.foreach hs.vecSize = .ok sp) (hl : Relation.ReflTransGen (Later H S (InSpace M hs) hs) sp sp')
    (k t i : Nat) (hlead : Leads hs e k t) : sp'.Sub k i ↔ sp'.Sub t i := by
  have hp : PartitionOf H S (InSpace M hs) hs sp := .make e ho h
  induction hl generalizing i with
  | refl => exact C55_invariant hM hc hpre hsmall e op ho sp h k t i hlead
  | @tail b c h1 h2 ih =>
    have hb := later_partition hM hc hpre hsmall hp h1
    cases h2 with
    | query hq =>
      have := C56_queries hM hc hpre hsmall b c hb hq
      rw [this.2, this.2]
      exact ih i
    | merge eCd eC Cd C store me1 me2 g1 g2 g3 =>
      obtain ⟨sp2, m1, m2, f1, f2, -⟩ := C57_merge_partial (H := H) hM hc hpre hsmall b hb eCd eC Cd C g1 g2 store
      rw [g3] at f1
      cases f1
      obtain ⟨j, hj, -⟩ := (C56_values (H := H) (S := S) hM hc hpre hsmall b hb).1 k hlead.1
      obtain ⟨j2, h3, h4⟩ := f2 k t j hj ((ih j).1 hj)
      constructor
      · intro h5
        rw [sub_unique hM hc hpre hsmall h5 h3]; exact h4
      · intro h5
        rw [sub_unique hM hc hpre hsmall h5 h4]; exact h3

/-- **C107** Block structure: the operator applied to a vector of the full space is the collection of its blocks, each applied to the part of the
vector in the respective subspace. -/
theorem C107_block_structure (e : Expr (Gen ι) S) (op : LOperator S) (ho : OperatorOn (InSpace M hs) hs e op) (sp sp' : SpacePartition)
    (h : SpacePartition.make H op hs.foreach hs.vecSize = .ok sp) (hl : Relation.ReflTransGen (Later H S (InSpace M hs) hs) sp sp')
    (v : DenseSV T) (hlen : v.data.length = hs.vecSize) (hval : ∀ k, v.data.getD k 0 ≠ 0 → ValidState hs k) :
    ∃ v', op.apply v = .ok v' ∧ v'.data.length = hs.vecSize ∧
      ∀ i < sp'.nSubspaces, ∃ l s, sp'.subspaceBasis i = .ok (l, s) ∧
        ∀ t ∈ l, v'.data.getD t 0 = rowTimesVector hs e t l (l.map fun k => v.data.getD k 0) := by
  obtain ⟨op', hop', hact⟩ := C38_dense (T := T) hM hc hpre e ho.1
  rw [ho.2] at hop'
  cases hop'
  obtain ⟨v', a1, a2, a3⟩ := hact v hlen hval
  have hp' := later_partition hM hc hpre hsmall (.make e ho h) hl
  refine ⟨v', a1, a2, fun i hi => ?_⟩
  obtain ⟨l, s, b1, b2, b3⟩ := (C56_bases (H := H) (S := S) hM hc hpre hsmall sp' hp').1 i hi
  refine ⟨l, s, b1, fun t ht => ?_⟩
  have hlv : ∀ s ∈ l, ValidState hs s := fun s hs1 => (C56_values (H := H) (S := S) hM hc hpre hsmall sp' hp').2.2.1 s i ((b3 s).1 hs1)
  rw [a3]
  have hnd : l.Nodup := b2.imp (fun h => Nat.ne_of_lt h)
  classical
  have key : opApply hs e (fun k => v.data.getD k 0) t = opApply hs e (fun k => if k ∈ l then v.data.getD k 0 else 0) t := by
    simp only [opApply, if_pos (hlv t ht)]
    refine Finset.sum_congr rfl fun k hk => ?_
    by_cases hkl : k ∈ l
    · rw [if_pos hkl]
    · rw [if_neg hkl]
      have : opEl hs e t k = 0 := by
        by_contra hne
        have hk2 := mem_basisStates.1 hk
        exact hkl ((b3 k).2 ((C107_stay_invariant hM hc hpre hsmall e op ho sp sp' h hl k t i ⟨hk2, hlv t ht, hne⟩).2 ((b3 t).1 ht)))
      rw [this, zero_smul, zero_smul]
  rw [key]
  refine opApply_list hs e _ l _ hnd hlv (fun s hs1 => if_neg hs1) (fun a n ha => ?_) t (hlv t ht)
  rw [if_pos (List.mem_of_getElem? ha), List.getD_eq_getElem?_getD (l := List.map _ _), List.getElem?_map, ha]
  rfl

/-- Where two basis states are connected by at most one term, nothing can cancel. -/
theorem leads_of_one (e : Expr (Gen ι) S) (he : Reachable (InSpace M hs) e) (h1 : OneTermEach hs e) {k t : Nat} (hk : ValidState hs k)
    (ht : ValidState hs t) (hne : k ≠ t) {p : List (Gen ι) × S} (hp : p ∈ e.terms) (hmat : matEl hs p.1 t k ≠ 0) : Leads hs e k t := by
  refine ⟨hk, ht, ?_⟩
  have hw := he.wf (conjOK (fun _ _ => True)).good
  have hnd : (e.terms.map Prod.fst).Nodup := by
    have := hw.1
    rw [List.Nodup, List.pairwise_map]
    refine List.Pairwise.imp ?_ this
    intro a b hab h
    rw [h] at hab
    simp [monLt_irrefl] at hab
  have key : ∀ L : List (List (Gen ι) × S), (L.map Prod.fst).Nodup → p ∈ L → (∀ q ∈ L, matEl hs q.1 t k ≠ 0 → p = q) →
      (L.map fun p => p.2 * algebraMap ℝ S (matEl hs p.1 t k)).sum = p.2 * algebraMap ℝ S (matEl hs p.1 t k) := by
    intro L hL hpL hq
    induction L with
    | nil => cases hpL
    | cons q L ih =>
      rw [List.map_cons, List.nodup_cons] at hL
      rw [List.map_cons, List.sum_cons]
      rcases List.mem_cons.1 hpL with rfl | h
      · have : (L.map fun p => p.2 * algebraMap ℝ S (matEl hs p.1 t k)).sum = 0 := by
          refine List.sum_eq_zero fun x hx => ?_
          obtain ⟨r, hr, rfl⟩ := List.mem_map.1 hx
          by_cases h0 : matEl hs r.1 t k = 0
          · rw [h0, map_zero, mul_zero]
          · have := hq r (List.mem_cons_of_mem _ hr) h0
            subst this
            exact absurd (List.mem_map_of_mem hr) hL.1
        rw [this, add_zero]
      · rw [ih hL.2 h (fun r hr => hq r (List.mem_cons_of_mem _ hr))]
        have : matEl hs q.1 t k = 0 := by
          by_contra h0
          have := hq q List.mem_cons_self h0
          subst this
          exact hL.1 (List.mem_map_of_mem h)
        rw [this, map_zero, mul_zero, zero_add]
  rw [opEl, key e.terms hnd hp (fun q hq h2 => h1 k t hk ht hne p hp q hq hmat h2)]
  refine mul_ne_zero (hw.2 _ hp) ?_
  intro h0
  exact hmat ((algebraMap ℝ S).injective (by rw [h0, map_zero]))

/-- **C107** (partial) In an invariant subspace found by `space_partition` - also after subspaces have been merged - the operator acts through
mapped views of vectors in the subspace: no exception, and the result is the diagonal block of the matrix times the vector. Proved under the condition
that two different basis states are connected by at most one term; without it `op(psi_view, phi_view)` can throw (finding F47). -/
theorem C107_act_in_subspace_partial (e : Expr (Gen ι) S) (op : LOperator S) (ho : OperatorOn (InSpace M hs) hs e op) (h1 : OneTermEach hs e)
    (sp sp' : SpacePartition) (h : SpacePartition.make H op hs.foreach hs.vecSize = .ok sp)
    (hl : Relation.ReflTransGen (Later H S (InSpace M hs) hs) sp sp') (i : Nat) (hi : i < sp'.nSubspaces) :
    ∃ l s, sp'.subspaceBasis i = .ok (l, s) ∧ ∀ psi phi : DenseSV T, psi.data.length = l.length → phi.data.length = l.length →
      ∃ phi', op.applyTo ((ofList l : BasisMapper H₁).makeView psi) ((ofList l : BasisMapper H₂).makeView phi) = .ok phi' ∧
        phi'.sv.data.length = l.length ∧ ∀ a t, l[a]? = some t → phi'.sv.data.getD a 0 = rowTimesVector hs e t l psi.data := by
  have hp' := later_partition hM hc hpre hsmall (.make e ho h) hl
  obtain ⟨l, s, b1, b2, b3⟩ := (C56_bases (H := H) (S := S) hM hc hpre hsmall sp' hp').1 i hi
  have hlv : ∀ s ∈ l, ValidState hs s := fun s hs1 => (C56_values (H := H) (S := S) hM hc hpre hsmall sp' hp').2.2.1 s i ((b3 s).1 hs1)
  have hnd : l.Nodup := b2.imp (fun h => Nat.ne_of_lt h)
  refine ⟨l, s, b1, fun psi phi g1 g2 => ?_⟩
  refine (C107_mapped_views (H₁ := H₁) (H₂ := H₂) hM hc hpre e op ho l l hnd hnd hlv hlv psi phi g1 g2).1 ?_
  intro a k ha _ p hp t ht hmat
  have hk := List.mem_of_getElem? ha
  by_cases hkt : k = t
  · rw [← hkt]; exact hk
  · have := leads_of_one hM hc hpre hsmall e ho.1 h1 (hlv k hk) ht hkt hp hmat
    exact (b3 t).2 ((C107_stay_invariant hM hc hpre hsmall e op ho sp sp' h hl k t i this).1 ((b3 k).1 hk))

end

/-! ### Finding F47 -/

section
variable {κ : Type _} [LinearOrder κ]

theorem jw_update_self (n : Config κ) (l : κ) (x : Nat) : jw (Function.update n (.fermion l) x) l = jw n l := by
  unfold jw
  congr 1
  ext j
  constructor
  · rintro ⟨h1, h2⟩
    rw [Function.update_of_ne (by simpa using h1.ne)] at h2
    exact ⟨h1, h2⟩
  · rintro ⟨h1, h2⟩
    exact ⟨h1, by rw [Function.update_of_ne (by simpa using h1.ne)]; exact h2⟩

/-- The number operator of an occupied mode is the identity. -/
theorem monAct_number {bd : κ → ℕ∞} {m : List (Gen κ)} {n : Config κ} {l : κ} (h : ∀ n' x, monAct bd m n = some (n', x) → n' (.fermion l) = 1) :
    monAct bd (.fermion true l :: .fermion false l :: m) n = monAct bd m n := by
  rw [monAct, monAct]
  cases hm : monAct bd m n with
  | none => rfl
  | some p =>
    obtain ⟨n', x⟩ := p
    have h1 := h n' x hm
    simp only [Option.bind_some, genAct, h1, if_true, Option.map_some, Function.update_self, Function.update_idem]
    rw [jw_update_self, ← mul_assoc, ← pow_add, Even.neg_one_pow ⟨jw n' l, rfl⟩, one_mul, ← h1, Function.update_eq_self]

theorem monAct_empty {bd : κ → ℕ∞} {m : List (Gen κ)} {n : Config κ} {l : κ} (h : ∀ n' x, monAct bd m n = some (n', x) → n' (.fermion l) ≠ 1) :
    monAct bd (.fermion true l :: .fermion false l :: m) n = none := by
  rw [monAct, monAct]
  cases hm : monAct bd m n with
  | none => rfl
  | some p =>
    obtain ⟨n', x⟩ := p
    simp only [Option.bind_some, genAct, if_neg (h n' x hm), Option.map_none, Option.bind_none]

end

/-- Correlated hopping `c†_0 c_1 (1 - n_2) + c†_1 c_0 (1 - n_2)`, written in normal order: a fermion moves between the modes 0 and 1 unless the mode 2
is occupied. -/
noncomputable def corrHop [DecidableEq ℂ] : Expr (Gen Nat) ℂ :=
  ofMonomial 1 [.fermion true 0, .fermion false 1] + ofMonomial 1 [.fermion true 1, .fermion false 0] +
    (ofMonomial (-1) [.fermion true 0, .fermion true 2, .fermion false 2, .fermion false 1] +
      ofMonomial (-1) [.fermion true 1, .fermion true 2, .fermion false 2, .fermion false 0])

theorem hop_canon : ∀ m ∈ [[Gen.fermion true 0, .fermion false 1], [Gen.fermion true 1, .fermion false 0],
      [Gen.fermion true 0, .fermion true 2, .fermion false 2, .fermion false 1],
      [Gen.fermion true 1, .fermion true 2, .fermion false 2, .fermion false 0]],
    CanonMon (Allowed fun n (_ : Nat) => n = 2) m := by
  have count : ∀ m ∈ [[Gen.fermion true 0, .fermion false 1], [Gen.fermion true 1, .fermion false 0],
      [Gen.fermion true 0, .fermion true 2, .fermion false 2, .fermion false 1],
      [Gen.fermion true 1, .fermion true 2, .fermion false 2, (.fermion false 0 : Gen Nat)]], ∀ g ∈ m, List.countP (GenOps.eq g) m = 1 := by decide
  have chain : ∀ m ∈ [[Gen.fermion true 0, .fermion false 1], [Gen.fermion true 1, .fermion false 0],
      [Gen.fermion true 0, .fermion true 2, .fermion false 2, .fermion false 1],
      [Gen.fermion true 1, .fermion true 2, .fermion false 2, (.fermion false 0 : Gen Nat)]], m.IsChain OKPair := by
    simp only [List.mem_cons, List.not_mem_nil, or_false, forall_eq_or_imp, forall_eq, List.isChain_cons_cons, List.isChain_singleton, and_true]
    unfold OKPair; decide
  have allow : ∀ m ∈ [[Gen.fermion true 0, .fermion false 1], [Gen.fermion true 1, .fermion false 0],
      [Gen.fermion true 0, .fermion true 2, .fermion false 2, .fermion false 1],
      [Gen.fermion true 1, .fermion true 2, .fermion false 2, (.fermion false 0 : Gen Nat)]], ∀ g ∈ m, Allowed (fun n (_ : Nat) => n = 2) g := by
    simp [Allowed]
  intro m hm
  refine ⟨allow m hm, chain m hm, fun g hg p hp hcnt => ?_⟩
  have := count m hm g hg
  omega

open scoped Classical in
theorem hop_terms (x : ℂ) (hx : x ≠ 0) (m : List (Gen Nat)) (hm : CanonMon (Allowed fun n _ => n = 2) m) :
    (ofMonomial x m).terms = [(m, x)] := by
  simp only [Expr.ofMonomial, if_neg hx]
  rw [normalize_store, emits_of_canon (nfGen (fun n _ => n = 2) fun i n _ h => h) m hm x hx]
  simp [Terms.storeAll, Terms.store, Terms.find?, Terms.emplace]

section
variable {hs : HilbertSpace Nat}

theorem hop_same {m : List (Gen Nat)} {g : Gen Nat} {k : Nat} (h : ∀ n' x, monAct (bosonDims hs) m (conf hs k) = some (n', x) → n' (.fermion 2) = 1)
    (t : Nat) : matEl hs (g :: .fermion true 2 :: .fermion false 2 :: m) t k = matEl hs (g :: m) t k := by
  unfold matEl
  rw [monAct, monAct_number h, ← monAct]

theorem hop_none {m : List (Gen Nat)} {g : Gen Nat} {k : Nat} (h : ∀ n' x, monAct (bosonDims hs) m (conf hs k) = some (n', x) → n' (.fermion 2) ≠ 1)
    (t : Nat) : matEl hs (g :: .fermion true 2 :: .fermion false 2 :: m) t k = 0 := by
  unfold matEl
  rw [monAct, monAct_empty h]
  rfl

theorem hop_keep {b : Bool} {i : Nat} (hi : i ≠ 2) {k : Nat} {n' : Config Nat} {x : ℝ}
    (h : monAct (bosonDims hs) [.fermion b i] (conf hs k) = some (n', x)) : n' (.fermion 2) = conf hs k (.fermion 2) :=
  MatF.monAct_keep (m := [.fermion b i]) (by simp [Gen.mode, hi]) h

/-- The only difference is whether the mode 2 is occupied. -/
theorem hop_mat {i j : Nat} (hi : i ≠ 2) (k t : Nat) :
    matEl hs [.fermion true j, .fermion true 2, .fermion false 2, .fermion false i] t k
      = if conf hs k (.fermion 2) = 1 then matEl hs [.fermion true j, .fermion false i] t k else 0 := by
  split
  · next h => exact hop_same (fun n' x h1 => by rw [hop_keep hi h1, h]) t
  · next h => exact hop_none (fun n' x h1 => by rw [hop_keep hi h1]; exact h) t

open scoped Classical in
/-- The matrix of the correlated hopping. -/
theorem hop_el (t k : Nat) : opEl hs corrHop t k = if conf hs k (.fermion 2) = 1 then 0 else
    ((matEl hs [.fermion true 0, .fermion false 1] t k + matEl hs [.fermion true 1, .fermion false 0] t k : ℝ) : ℂ) := by
  rw [corrHop, opEl_add, opEl_add, opEl_add]
  unfold opEl
  rw [hop_terms 1 one_ne_zero _ (hop_canon _ (by simp)), hop_terms 1 one_ne_zero _ (hop_canon _ (by simp)),
    hop_terms (-1) (by simp) _ (hop_canon _ (by simp)), hop_terms (-1) (by simp) _ (hop_canon _ (by simp))]
  simp only [List.map_cons, List.map_nil, List.sum_cons, List.sum_nil, add_zero]
  rw [hop_mat (by decide), hop_mat (by decide)]
  split
  · simp only [one_mul, neg_mul, Complex.coe_algebraMap]
    ring
  · simp

end

open scoped Classical in
/-- **C107** Finding F47: `space_partition` connects basis states by the matrix elements of the operator, in which the contributions of several terms may
cancel, but `op(psi_view, phi_view)` adds the contributions of the terms one after another, and the first of the cancelling contributions is already
outside the range of the view. For correlated hopping, and in every Hilbert space with the fermionic modes 0, 1, 2 - there may be other degrees of freedom -
all basis states where the mode 1 and 2 are occupied and the mode 0 is not form one-dimensional subspaces where the operator is zero; but the application to a
vector in such a subspace throws `std::out_of_range`, contrary to the comment in examples/partition.cpp:163-165. -/
theorem C107_F47_cancelling_terms [HashImpl H Nat ℂ] (hs : HilbertSpace Nat) (hc : Constructed hs) (hpre : PredefinedSpaces hs)
    (hsmall : hs.foreachAlg.isSome → hs.dim < 2 ^ 31)
    (hmodes : ∀ i ∈ [0, 1, 2], hs.has (ESpace.fermion i) = true) :
    ∃ op sp, OperatorOn (InSpace (fun n _ => n = 2) hs) hs corrHop op ∧ SpacePartition.make H op hs.foreach hs.vecSize = .ok sp ∧
      (∃ k, ValidState hs k ∧ conf hs k (.fermion 0) = 0 ∧ conf hs k (.fermion 1) = 1 ∧ conf hs k (.fermion 2) = 1) ∧
      ∀ k, ValidState hs k → conf hs k (.fermion 0) = 0 → conf hs k (.fermion 1) = 1 → conf hs k (.fermion 2) = 1 →
        (∀ t, opEl hs corrHop t k = 0) ∧ ∃ i s, sp.Sub k i ∧ sp.subspaceBasis i = .ok ([k], s) ∧
          op.applyTo ((ofList [k] : BasisMapper H₁).makeView (⟨[1]⟩ : DenseSV ℂ)) ((ofList [k] : BasisMapper H₂).makeView (⟨[0]⟩ : DenseSV ℂ))
            = .error .outOfRange := by
  have hM : HalfAlone (fun n (_ : Nat) => n = 2) := fun i n _ h => h
  have hg : ∀ b, ∀ i ∈ [0, 1, 2], InSpace (fun n _ => n = 2) hs (Gen.fermion b i) := fun b i hi => ⟨trivial, hmodes i hi⟩
  have he : Reachable (InSpace (fun n _ => n = 2) hs) corrHop := by
    refine .add (.add (.ofMonomial _ _ ?_) (.ofMonomial _ _ ?_)) (.add (.ofMonomial _ _ ?_) (.ofMonomial _ _ ?_)) <;>
      simp only [List.mem_cons, List.not_mem_nil, or_false, forall_eq_or_imp, forall_eq] <;>
      simp [hg]
  obtain ⟨op, hop⟩ := make_ok hc hpre (reach_actsOn hM he)
  obtain ⟨op', hop', sp, hsp, -⟩ := C55_partition (H := H) hM hc hpre hsmall corrHop he
  rw [hop] at hop'
  cases hop'
  have hp : PartitionOf H ℂ (InSpace (fun n _ => n = 2) hs) hs sp := .make corrHop ⟨he, hop⟩ hsp
  refine ⟨op, sp, ⟨he, hop⟩, hsp, ?_, ?_⟩
  · let n : Config Nat := Function.update (Function.update (fun _ => 0) (.fermion 1) 1) (.fermion 2) 1
    have hn : ∀ k, n k ≠ 0 → n k = 1 ∧ (k = .fermion 1 ∨ k = .fermion 2) := by
      intro k hk
      by_cases h2 : k = .fermion 2
      · subst h2; exact ⟨Function.update_self _ _ _, Or.inr rfl⟩
      · by_cases h1 : k = .fermion 1
        · subst h1; exact ⟨by simp [n], Or.inl rfl⟩
        · exact absurd (by simp [n, h1, h2]) hk
    obtain ⟨k, h1, h2, -⟩ := MatF.exists_state hc n (fun k d hd => by
      by_cases h0 : n k = 0
      · rw [h0]
        obtain ⟨f, nb, d', hl⟩ := loc_of_has hc (MatF.has_of_dim hd)
        have := hl.pos
        have hdd := hl.dimOf
        rw [hd] at hdd
        cases hdd
        exact this
      · obtain ⟨h3, h4⟩ := hn k h0
        rw [h3]
        rcases h4 with rfl | rfl
        · rw [MatF.dim_fermion hc hpre hd (MatF.has_of_dim hd)]; decide
        · rw [MatF.dim_fermion hc hpre hd (MatF.has_of_dim hd)]; decide) (fun k hk => by
      by_contra h0
      rcases (hn k h0).2 with rfl | rfl
      · have := hmodes 1 (by simp)
        simp only [Mode.space] at hk
        rw [hk] at this; cases this
      · have := hmodes 2 (by simp)
        simp only [Mode.space] at hk
        rw [hk] at this; cases this)
    refine ⟨k, h1, ?_, ?_, ?_⟩ <;> rw [h2] <;> simp [n]
  · intro k hk k0 k1 k2
    have hzero : ∀ t, opEl hs corrHop t k = 0 := fun t => by rw [hop_el, if_pos k2]
    refine ⟨hzero, ?_⟩
    obtain ⟨i, hi, -⟩ := (C56_values (H := H) (S := ℂ) hM hc hpre hsmall sp hp).1 k hk
    have hlt := ((C56_values (H := H) (S := ℂ) hM hc hpre hsmall sp hp).2.1 i).2 ⟨k, hi⟩
    obtain ⟨l, s, b1, b2, b3⟩ := (C56_bases (H := H) (S := ℂ) hM hc hpre hsmall sp hp).1 i hlt
    have hinto : ∀ x, opEl hs corrHop k x = 0 := by
      intro x
      rw [hop_el]
      split
      · rfl
      · next hx =>
        have : ∀ i j : Nat, i ≠ 2 → j ≠ 2 → matEl hs [.fermion true j, .fermion false i] k x = 0 := by
          intro i j hi hj
          by_contra hne
          unfold matEl at hne
          split at hne
          · exact hne rfl
          · next n' y hm =>
            split at hne
            · next hE =>
              have h1 := MatF.monAct_keep (k := .fermion 2) (m := [.fermion true j, .fermion false i]) (by simp [Gen.mode, hi, hj]) hm
              rw [← hE.1, k2] at h1
              exact hx h1.symm
            · exact hne rfl
        rw [this 1 0 (by decide) (by decide), this 0 1 (by decide) (by decide)]
        simp
    have hall : ∀ k' ∈ l, k' = k := by
      intro k' hk'
      have := C55_finest (H := H) hM hc hpre hsmall corrHop op ⟨he, hop⟩ sp hsp (fun x => x = k) (fun x t hl => by
        apply propext
        constructor
        · rintro rfl; exact absurd (hzero t) hl.2.2
        · rintro rfl; exact absurd (hinto x) hl.2.2) k k' i hi ((b3 k').1 hk')
      exact (iff_of_eq this).1 rfl
    have hlk : l = [k] := by
      have hmem := (b3 k).2 hi
      cases l with
      | nil => cases hmem
      | cons a l =>
        have ha := hall a List.mem_cons_self
        subst ha
        cases l with
        | nil => rfl
        | cons b l =>
          have hb := hall b (by simp)
          have := (List.pairwise_cons.1 b2).1 b (by simp)
          omega
    subst hlk
    refine ⟨i, s, hi, b1, ?_⟩
    refine (C107_mapped_views (T := ℂ) (H₁ := H₁) (H₂ := H₂) hM hc hpre corrHop op ⟨he, hop⟩ [k] [k] (by simp) (by simp) (by simpa using hk)
      (by simpa using hk) ⟨[1]⟩ ⟨[0]⟩ rfl rfl).2 ?_
    intro hstay
    -- the first term
    have hw := he.wf (conjOK (fun _ _ => True)).good
    obtain ⟨c, hmem⟩ : ∃ c, ([Gen.fermion true 0, .fermion false 1], c) ∈ corrHop.terms := by
      have hco : corrHop.coeff [Gen.fermion true 0, .fermion false 1] = 1 := by
        rw [corrHop, coeff_add (wf_add (wf_ofMonomial _ _) (wf_ofMonomial _ _)) (wf_add (wf_ofMonomial _ _) (wf_ofMonomial _ _)),
          coeff_add (wf_ofMonomial _ _) (wf_ofMonomial _ _), coeff_add (wf_ofMonomial _ _) (wf_ofMonomial _ _)]
        unfold Expr.coeff
        rw [hop_terms 1 one_ne_zero _ (hop_canon _ (by simp)), hop_terms 1 one_ne_zero _ (hop_canon _ (by simp)),
          hop_terms (-1) (by simp) _ (hop_canon _ (by simp)), hop_terms (-1) (by simp) _ (hop_canon _ (by simp))]
        have c1 : monLt [Gen.fermion true 0, .fermion false 1] [Gen.fermion true (0 : Nat), .fermion false 1] = false := by decide
        have c2 : monLt [Gen.fermion true 0, .fermion false 1] [Gen.fermion true (1 : Nat), .fermion false 0] = true := by decide
        have c3 : monLt [Gen.fermion true 1, .fermion false 0] [Gen.fermion true (0 : Nat), .fermion false 1] = false := by decide
        have c4 : monLt [Gen.fermion true 0, .fermion true 2, .fermion false 2, .fermion false 1] [Gen.fermion true (0 : Nat), .fermion false 1]
          = false := by decide
        have c5 : monLt [Gen.fermion true 1, .fermion true 2, .fermion false 2, .fermion false 0] [Gen.fermion true (0 : Nat), .fermion false 1]
          = false := by decide
        have c6 : monLt [Gen.fermion true 0, .fermion false 1] [Gen.fermion true (0 : Nat), .fermion true 2, .fermion false 2, .fermion false 1]
          = true := by decide
        have c7 : monLt [Gen.fermion true 0, .fermion false 1] [Gen.fermion true (1 : Nat), .fermion true 2, .fermion false 2, .fermion false 0]
          = true := by decide
        simp [Terms.coeff, Terms.find?, c1, c2, c3, c4, c5, c6, c7]
      unfold Expr.coeff Terms.coeff at hco
      cases hf : corrHop.terms.find? [Gen.fermion true 0, .fermion false 1] with
      | none => rw [hf] at hco; simp at hco
      | some c => exact ⟨c, Terms.find?_mem hf⟩
    -- its target
    have hact : ∃ n' x, monAct (bosonDims hs) [.fermion true 0, .fermion false 1] (conf hs k) = some (n', x) ∧ n' (.fermion 0) = 1 := by
      simp only [monAct, Option.bind_some, genAct, k1, if_true, Option.map_some]
      rw [Function.update_of_ne (by simp), if_pos k0]
      exact ⟨_, _, rfl, by simp⟩
    obtain ⟨n', x, h1, h2⟩ := hact
    obtain ⟨hcm, hhas⟩ := reach_actsOn hM he _ hmem
    obtain ⟨ma, hma⟩ := monomialAction_make_ok hc hpre hcm hhas
    have hA := monomial_act hc hpre hcm hma hk (1 : ℂ)
    unfold ActsAs at hA
    rw [h1] at hA
    obtain ⟨u, a1, a2, a3, a4⟩ := hA
    have hx := (monAct_phys (conf_phys hc hpre hk) h1).2
    have hmat : matEl hs [.fermion true 0, .fermion false 1] u k ≠ 0 := by
      unfold matEl
      rw [h1]
      simp only
      rw [if_pos ⟨a3, a4⟩]
      exact hx
    have := hstay 0 k rfl (by simp) _ hmem u a2 hmat
    rw [List.mem_singleton] at this
    subst this
    rw [← a3, k0] at h2
    cases h2

/-! ### The hypotheses are met -/

open scoped Classical in
/-- For three fermionic modes and complex coefficients, all hypotheses of C107 are met by simple hopping `c†_0 c_1`, which connects the basis states 2 and 1; also
those of finding F47 are. -/
theorem c107_hypotheses : ∃ hs : HilbertSpace Nat, HalfAlone (fun n (_ : Nat) => n = 2) ∧ Constructed hs ∧ PredefinedSpaces hs ∧
    (hs.foreachAlg.isSome → hs.dim < 2 ^ 31) ∧ (∀ i ∈ [0, 1, 2], hs.has (ESpace.fermion i) = true) ∧
    ∃ op, OperatorOn (InSpace (fun n _ => n = 2) hs) hs (ofMonomial (1 : ℂ) [.fermion true 0, .fermion false 1]) op ∧
      OneTermEach hs (ofMonomial (1 : ℂ) [.fermion true 0, .fermion false 1]) ∧
      Leads hs (ofMonomial (1 : ℂ) [.fermion true 0, .fermion false 1]) 2 1 := by
  obtain ⟨hs, hof, hc, hpre, h3⟩ := smallSpace (l := [ESpace.fermion 0, ESpace.fermion 1, ESpace.fermion 2])
    (by simp only [List.mem_cons, List.not_mem_nil, or_false, forall_eq_or_imp, forall_eq]; exact ⟨wf_fermion _, wf_fermion _, wf_fermion _⟩)
    (by simp only [List.mem_cons, List.not_mem_nil, or_false, forall_eq_or_imp, forall_eq]
        exact ⟨⟨fun _ => ⟨_, rfl⟩, by simp [ESpace.fermion], by simp [ESpace.fermion]⟩,
          ⟨fun _ => ⟨_, rfl⟩, by simp [ESpace.fermion], by simp [ESpace.fermion]⟩,
          ⟨fun _ => ⟨_, rfl⟩, by simp [ESpace.fermion], by simp [ESpace.fermion]⟩⟩)
    (by decide +kernel)
  have facts : ((HilbertSpace.ofArgs [ESpace.fermion 0, ESpace.fermion 1, ESpace.fermion 2]).toOption.map fun hs : HilbertSpace Nat =>
    (decide (hs.foreach = [0, 1, 2, 3, 4, 5, 6, 7]) && decide (hs.dim = 8) && hs.has (ESpace.fermion 0) && hs.has (ESpace.fermion 1) &&
      hs.has (ESpace.fermion 2) && decide (conf hs 2 (.fermion 0) = 0) && decide (conf hs 2 (.fermion 1) = 1) && decide (conf hs 1 (.fermion 1) = 0) &&
      decide (conf hs 1 (.fermion 0) = 1) && decide (hs.spaces.map Prod.fst = [ESpace.fermion 0, ESpace.fermion 1, ESpace.fermion 2]) &&
      decide (conf hs 1 (.fermion 2) = conf hs 2 (.fermion 2)))) = some true := by decide +kernel
  rw [hof] at facts
  simp only [Except.toOption, Option.map_some, Option.some.injEq, Bool.and_eq_true, decide_eq_true_eq] at facts
  obtain ⟨⟨⟨⟨⟨⟨⟨⟨⟨⟨f1, f2⟩, f3⟩, f4⟩, f5⟩, f6⟩, f7⟩, f8⟩, f9⟩, f10⟩, f11⟩ := facts
  have hM : HalfAlone (fun n (_ : Nat) => n = 2) := fun i n _ h => h
  have hsmall : hs.foreachAlg.isSome → hs.dim < 2 ^ 31 := fun _ => by rw [f2]; norm_num
  have hv : ∀ k, ValidState hs k ↔ k < 8 := fun k => by
    rw [← mem_states hc hsmall, f1]
    simp only [List.mem_cons, List.not_mem_nil, or_false]; omega
  have he : Reachable (InSpace (fun n _ => n = 2) hs) (ofMonomial (1 : ℂ) [.fermion true 0, .fermion false 1]) := by
    refine .ofMonomial _ _ ?_
    simp only [List.mem_cons, List.not_mem_nil, or_false, forall_eq_or_imp, forall_eq]
    exact ⟨⟨trivial, f3⟩, ⟨trivial, f4⟩⟩
  obtain ⟨op, hop⟩ := make_ok hc hpre (reach_actsOn hM he)
  have hterms := hop_terms 1 one_ne_zero _ (hop_canon [Gen.fermion true 0, .fermion false 1] (by simp))
  refine ⟨hs, hM, hc, hpre, hsmall, by simp [f3, f4, f5], op, ⟨he, hop⟩, ?_, ?_⟩
  · intro k t _ _ _ p hp q hq _ _
    rw [hterms, List.mem_singleton] at hp hq
    rw [hp, hq]
  · refine ⟨(hv 2).2 (by decide), (hv 1).2 (by decide), ?_⟩
    rw [opEl, hterms]
    have hnone : ∀ (es : ESpace Nat), (∀ i ∈ [0, 1, 2], es.key ≠ (ESpace.fermion i).key) → ∀ s, occ hs s es = 0 := by
      intro es h s
      unfold occ HilbertSpace.bitRange
      cases hfs : findSpace es hs.spaces with
      | none => rfl
      | some r =>
        obtain ⟨h2, h4⟩ := findSpace_some hfs
        have h5 := List.mem_map_of_mem (f := Prod.fst) h2
        rw [f10] at h5
        simp only [List.mem_cons, List.not_mem_nil, or_false] at h5
        rcases h5 with h5 | h5 | h5
        · rw [h5] at h4; exact absurd h4.symm (h 0 (by simp))
        · rw [h5] at h4; exact absurd h4.symm (h 1 (by simp))
        · rw [h5] at h4; exact absurd h4.symm (h 2 (by simp))
    have hmat : matEl hs [Gen.fermion true 0, .fermion false 1] 1 2 ≠ 0 := by
      unfold matEl
      simp only [monAct, Option.bind_some, genAct, f7, if_true, Option.map_some]
      rw [Function.update_of_ne (by simp), if_pos f6]
      simp only [Option.map_some]
      rw [if_pos]
      · simp
      · refine ⟨?_, fun es hes => ?_⟩
        · funext x
          by_cases h0 : x = .fermion 0
          · subst h0; simp [f9]
          · by_cases h1 : x = .fermion 1
            · subst h1; simp [f8]
            · by_cases h2 : x = .fermion 2
              · subst h2; simp [f11]
              · rw [Function.update_of_ne h0, Function.update_of_ne h1]
                have : ∀ i ∈ [0, 1, 2], x.space.key ≠ (ESpace.fermion i).key := by
                  intro i hi hk
                  rw [ESpace.key_eq_iff] at hk
                  cases x with
                  | fermion j =>
                    simp only [Mode.space, ESpace.fermion] at hk
                    simp only [List.mem_cons, List.not_mem_nil, or_false] at hi
                    have := hk.2.2
                    simp only [Mode.fermion.injEq] at h0 h1 h2
                    simp_all
                  | boson j => simp [Mode.space, ESpace.fermion, ESpace.boson] at hk
                  | spin m j => simp [Mode.space, ESpace.fermion, ESpace.spin] at hk
                rw [conf, conf, hnone _ this, hnone _ this]
        · have : ∀ i ∈ [0, 1, 2], es.key ≠ (ESpace.fermion i).key := by
            intro i _ hk
            rw [ESpace.key_eq_iff] at hk
            exact hes.1 hk.1
          rw [hnone _ this, hnone _ this]
    simpa using hmat

end LC
