import Verif.Spec.FloatViews
import Verif.Proof.FloatViews
import Verif.Props.FloatAction
import Verif.Props.SectorAction
import Verif.Props.CompView
import Verif.Props.Mapper
/-
C103: linear operators with floating-point coefficients acting through views of vectors of floating-point numbers.
-/
set_option linter.unusedSectionVars false
set_option linter.unusedSimpArgs false
namespace LC
open Classical HilbertSpace
variable {ι D S T H R R' X Y 𝕜 : Type _} [LinearOrder ι] [RCLike 𝕜] {hs : HilbertSpace ι}
variable [AmpOps T] [CoefOps D S T] [HashImpl H Nat Nat] [RankingAlg R] [LawfulRanking R] [RankingAlg R'] [LawfulRanking R']
variable {u tol : ℝ} {vS : S → 𝕜} {vT : T → 𝕜} {fS : S → Prop} {fT : T → Prop}

section general
variable [Positions X (FloVec T)] [LawfulPositions X (FloVec T)] [Positions Y (FloVec T)] [LawfulPositions Y (FloVec T)]

theorem shows_good {x : X} {l : List Nat} {sv : FloVec T} (h : Shows x l sv) (hn : l.Nodup) (hlen : sv.data.length = l.length) :
    FloatSV.inv (⟨x⟩ : FloView X) ∧ (∀ n, n ∈ FloatSV.dom (⟨x⟩ : FloView X) ↔ n ∈ l) ∧
      (∀ i n, l[i]? = some n → FloatSV.amp (⟨x⟩ : FloView X) n = sv.data.getD i AmpOps.zero) ∧
      ∀ n, n ∉ l → FloatSV.amp (⟨x⟩ : FloView X) n = AmpOps.zero := by
  obtain ⟨hb, hi, o, ho, hp⟩ := h
  have hst : (⟨x⟩ : FloView X).states = o := by simp only [FloView.states]; rw [ho]
  have := FloView.good_of_list (⟨x⟩ : FloView X) l ⟨o, ho, fun p => by rw [hp.mem_iff]; exact List.mem_zipIdx_iff_getElem?⟩
    (by
      rw [hst]
      refine (hp.map Prod.fst).nodup_iff.2 ?_
      rw [List.zipIdx_map_fst]; exact hn)
    (fun i s his => positions_of_map hi i s his) trivial (fun i hil => by
      show i < (Positions.base x).data.length
      rw [hb]; omega)
  refine ⟨this.1, this.2.1, fun i n hin => ?_, this.2.2.2⟩
  rw [this.2.2.1 i n hin]
  show (Positions.base x).data.getD i AmpOps.zero = _
  rw [hb]

omit [CoefOps D S T] in
theorem sum_list (l : List Nat) (hl : l.Nodup) (hv : ∀ s ∈ l, ValidState hs s) (f : Nat → ℝ) (h0 : ∀ s, s ∉ l → f s = 0)
    (g : Nat → Nat → ℝ) (hg : ∀ i n, l[i]? = some n → f n = g n i) :
    ∑ k ∈ basisStates hs, f k = (l.zipIdx.map fun p => g p.1 p.2).sum := by
  have h1 : (l.zipIdx.map fun p => g p.1 p.2).sum = (l.map f).sum := by
    conv_rhs => rw [← List.zipIdx_map_fst 0 l, List.map_map]
    congr 1
    refine List.map_congr_left fun p hp => ?_
    exact (hg p.2 p.1 (List.mem_zipIdx_iff_getElem?.1 hp)).symm
  rw [h1, ← List.sum_toFinset _ hl]
  symm
  refine Finset.sum_subset (fun s hs1 => mem_basisStates.2 (hv s (List.mem_toFinset.1 hs1))) fun s _ hs1 => h0 s fun h2 => hs1 (List.mem_toFinset.2 h2)

/-- **C103** Let views of two `std::vector`s present the basis states of the lists `l` and `l'`, and let no term of `e` lead from `l` to a basis
state outside `l'`. Then `op(src_view, dst_view)` does not fail or access anything outside the vectors, and every element of the destination that is
finite differs from the exact one, i.e. the matrix of the expression between the two lists times the source vector, by at most

`((1+u)^(N+3d+2) - 1) * Σ_j |e|_{t,l(j)} |src_j|  +  tol * Σ_{j : is_zero(src_j)} |e|_{t,l(j)}`

with `N`, `d` the number of terms of `e` and the length of its longest monomial. -/
theorem C103_views (Rd : Rounding (D := D) u tol vS vT fS fT) (hc : Constructed hs) (hpre : PredefinedSpaces hs)
    (e : Expr (Gen ι) S) (he : ActsOn hs e) :
    ∃ op, LOperator.make e hs = .ok op ∧ ∀ l l' : List Nat, l.Nodup → l'.Nodup → (∀ s ∈ l, ValidState hs s) → (∀ s ∈ l', ValidState hs s) →
      (∀ k ∈ l, ∀ p ∈ e.terms, ∀ t, ValidState hs t → matEl hs p.1 t k ≠ 0 → t ∈ l') →
      ∀ src dst : FloVec T, src.data.length = l.length → dst.data.length = l'.length →
      ∀ (vs : X) (vd : Y), Shows vs l src → Shows vd l' dst →
      ∃ dst' : FloVec T, Flo.applyTo op (⟨vs⟩ : FloView X) (⟨vd⟩ : FloView Y) = .ok ⟨Positions.put vd dst'⟩ ∧
        dst'.data.length = l'.length ∧ ∀ i t, l'[i]? = some t → fT (dst'.data.getD i AmpOps.zero) →
          ‖vT (dst'.data.getD i AmpOps.zero) - rowTimesVector hs (e.values vS) t l (src.data.map vT)‖ ≤
            ((1 + u) ^ (e.terms.length + 3 * e.degree + 2) - 1) * absRow hs (e.values vS) t l (src.data.map vT)
              + tol * skippedRow hs (e.values vS) t l src.data := by
  obtain ⟨op, hop⟩ := make_ok hc hpre he
  refine ⟨op, hop, fun l l' hn hn' hv hv' hcl src dst hsl hdl vs vd hvs hvd => ?_⟩
  obtain ⟨a1, a2, a3, a4⟩ := shows_good hvs hn hsl
  obtain ⟨b1, b2, b3, b4⟩ := shows_good hvd hn' hdl
  obtain ⟨z1, z2, z3⟩ := FloatSV.zero (⟨vd⟩ : FloView Y) b1
  have hvis : ∀ k ∈ FloatSV.visited (⟨vs⟩ : FloView X), k ∈ l := fun k hk => (a2 k).1 hk.1
  obtain ⟨w, e1, e2, e3, e4⟩ := Flo.actImpl_bound_sharp Rd hc hpre hop (fun p hp => (he p hp).1) (⟨vs⟩ : FloView X)
    (StateVec.setZeros (⟨vd⟩ : FloView Y)) a1 z1 z3 (fun k hk => hv k (hvis k hk))
    (fun k hk p hp t ht hne => by rw [z2]; exact (b2 t).2 (hcl k (hvis k hk) p hp t ht hne))
  have happ : Flo.applyTo op (⟨vs⟩ : FloView X) (⟨vd⟩ : FloView Y) = .ok w := e1
  have hput := Flo.applyTo_put op (⟨vs⟩ : FloView X) (⟨vd⟩ : FloView Y) w happ
  have hlen : (Positions.base w.view).data.length = l'.length := by
    have hrel := Flo.applyAll_rel (W := FloView Y) (T := T) (S := S)
      (fun a b => (Positions.base b.view).data.length = (Positions.base a.view).data.length) (fun _ => rfl) (fun _ _ _ h1 h2 => h2.trans h1)
      (by
        intro v n a v' h
        simp only [StateVec.updateAdd] at h
        split at h
        · cases h
        · split at h
          · cases h
          · next sv hsv =>
            cases h
            simp only [LawfulPositions.base_put]
            unfold FloVec.updateAdd at hsv
            split at hsv
            · cases hsv; simp
            · cases hsv)
    have h1 := happ
    unfold Flo.applyTo Flo.actImpl at h1
    split at h1
    · cases h1
    · rw [hrel _ _ _ _ h1]
      simp only [StateVec.setZeros, LawfulPositions.base_put, List.length_map]
      rw [hvd.base]; exact hdl
  have hw : w = ⟨Positions.put vd (Positions.base w.view)⟩ := by
    obtain ⟨w⟩ := w; simp only at hput; rw [← hput]
  refine ⟨Positions.base w.view, by rw [← hw]; exact happ, hlen, fun i t hit hf => ?_⟩
  have htl : t ∈ l' := List.mem_of_getElem? hit
  have hshow : Shows w.view l' (Positions.base w.view) := by
    refine ⟨rfl, ?_, ?_⟩
    · rw [hput, LawfulPositions.idx_put]; exact hvd.idx
    · rw [hput, LawfulPositions.order_put]; exact hvd.order
  obtain ⟨c1, c2, c3, c4⟩ := shows_good hshow hn' hlen
  have hamp : FloatSV.amp w t = (Positions.base w.view).data.getD i AmpOps.zero := c3 i t hit
  have hb := e4 t (by rw [hamp]; exact hf)
  rw [hamp] at hb
  have hψ : ∀ i n, l[i]? = some n → vT (FloatSV.amp (⟨vs⟩ : FloView X) n) = (src.data.map vT).getD i 0 := by
    intro i n hi
    rw [a3 i n hi]
    have hlt : i < src.data.length := by rw [hsl]; exact (List.getElem?_eq_some_iff.1 hi).1
    rw [List.getD_eq_getElem?_getD, List.getD_eq_getElem?_getD, List.getElem?_map, List.getElem?_eq_getElem hlt]; rfl
  have hψ0 : ∀ n, n ∉ l → vT (FloatSV.amp (⟨vs⟩ : FloView X) n) = 0 := fun n hn => by rw [a4 n hn]; exact Rd.zero.2
  rw [opApply_list hs (e.values vS) (fun k => vT (FloatSV.amp (⟨vs⟩ : FloView X) k)) l (src.data.map vT) hn hv hψ0 hψ t (hv' t htl)] at hb
  refine hb.trans ?_
  have s1 : ∑ k ∈ basisStates hs, absEl hs (e.values vS) t k * ‖vT (FloatSV.amp (⟨vs⟩ : FloView X) k)‖ =
      absRow hs (e.values vS) t l (src.data.map vT) := by
    refine sum_list l hn hv _ (fun s hs1 => by rw [hψ0 s hs1, norm_zero, mul_zero]) (fun n i => absEl hs (e.values vS) t n * ‖(src.data.map vT).getD i 0‖) ?_
    intro i n hi
    rw [hψ i n hi]
  have s2 : ∑ k ∈ basisStates hs with AmpOps.isZero (FloatSV.amp (⟨vs⟩ : FloView X) k) = true,
      absEl hs (e.values vS) t k * ‖vT (FloatSV.amp (⟨vs⟩ : FloView X) k)‖ ≤ tol * skippedRow hs (e.values vS) t l src.data := by
    have : tol * skippedRow hs (e.values vS) t l src.data =
        ∑ k ∈ basisStates hs, if k ∈ l ∧ AmpOps.isZero (FloatSV.amp (⟨vs⟩ : FloView X) k) = true then tol * absEl hs (e.values vS) t k else 0 := by
      rw [sum_list l hn hv (fun k => if k ∈ l ∧ AmpOps.isZero (FloatSV.amp (⟨vs⟩ : FloView X) k) = true then tol * absEl hs (e.values vS) t k else 0)
        (fun s hs1 => by rw [if_neg fun h => hs1 h.1])
        (fun n i => tol * if AmpOps.isZero (src.data.getD i AmpOps.zero) then absEl hs (e.values vS) t n else 0) (fun i n hi => by
          rw [a3 i n hi]
          simp only [List.mem_of_getElem? hi, true_and]
          split <;> simp)]
      rw [skippedRow, List.sum_map_mul_left]
    rw [this, Finset.sum_filter]
    refine Finset.sum_le_sum fun k _ => ?_
    have hnn := mul_nonneg Rd.tol_nonneg (Flo.absEl_nonneg (hs := hs) (e.values vS) t k)
    by_cases hz : AmpOps.isZero (FloatSV.amp (⟨vs⟩ : FloView X) k) = true
    · rw [if_pos hz]
      by_cases hk : k ∈ l
      · rw [if_pos ⟨hk, hz⟩, mul_comm tol]
        exact mul_le_mul_of_nonneg_left (Rd.isZero _ hz).2 (Flo.absEl_nonneg _ _ _)
      · rw [hψ0 k hk, norm_zero, mul_zero]; split <;> [exact hnn; exact le_rfl]
    · rw [if_neg hz]; split <;> [exact hnn; exact le_rfl]
  have hdrop : dropErr u tol (FloatSV.drop (FloView Y)) e.terms.length = 0 := by simp [dropErr, FloatSV.drop]
  rw [hdrop, s1]
  linarith

end general

/-! ### The views of the library present lists of basis states -/

section shows
variable {V : Type _}

/-- **C103** Views made by a basis mapper that numbers the states of a list. -/
theorem C103_mapped_shows (b : BasisMapper H) (hb : b.map.Nodup) (d : List Nat) (s : Set Nat) (h : Numbers b.map d s) (sv : V) :
    Shows (b.makeView sv) d sv := by
  obtain ⟨h1, h2, h3, h4⟩ := h
  refine ⟨rfl, ?_, b.map.items, rfl, ?_⟩
  · refine List.ext_getElem? fun i => ?_
    rw [List.getElem?_map, List.getElem?_map]
    by_cases hi : i < d.length
    · rw [List.getElem?_range hi, List.getElem?_eq_getElem hi]
      simp only [Option.map_some, Option.some.injEq]
      show MappedView.mapIndex _ _ = _
      rw [MappedView.mapIndex]
      have : (b.makeView sv).map.find? d[i] = some i := (h4 _ _).2 (List.getElem?_eq_getElem hi)
      rw [this]
    · rw [List.getElem?_eq_none (by omega), List.getElem?_eq_none (by simp; omega)]; rfl
  · have hk : (b.map.items.map Prod.fst).Nodup := hb
    have hz : (d.zipIdx.map Prod.fst).Nodup := by rw [List.zipIdx_map_fst]; exact h1
    refine (List.perm_ext_iff_of_nodup hk.of_map hz.of_map).2 fun p => ?_
    rw [← UMap.find?_iff hb p.1 p.2, h4, List.mem_zipIdx_iff_getElem?]

/-- **C103** `make_comp_state_view`. -/
theorem C103_compressed_shows (h : Constructed hs) (h1 : 1 < hs.dim) (h2 : hs.dim < 2 ^ 31) (sv : V) :
    ∃ v, CompView.make sv hs = .ok v ∧ Shows v (validStates hs) sv := by
  obtain ⟨v, hv, hmap⟩ := C43_map_index sv hs h
  obtain ⟨e1, e2⟩ := comp_states hs h h1 h2 sv v hv
  have hlen : (validStates hs).length = hs.dim := C27_dim_counts_states hs h
  refine ⟨v, hv, e2, by rw [hlen]; exact hmap, (validStates hs).zipIdx, ?_, List.Perm.refl _⟩
  show Except.ok (v.foreachAlg.run fun _ ind => ind).1.zipIdx = _
  rw [e1]

/-- **C103** `make_nfs_view`. -/
theorem C103_sector_shows (h : Constructed hs) (hpre : PredefinedSpaces hs) (hid : DocumentedIds hs) (hsp : hs.isSparse = false)
    (hbits : hs.totalNBits ≠ 0) (N : Nat) (hN : N ≤ (fermionModes hs).length) (hex : (fermionModes hs).length ≤ 62 ∨ N ≤ 28 ∨ 35 ≤ N)
    (hsup : ∀ p : SectorParams, p.M = (fermionModes hs).length → LawfulRanking.supports R p) :
    ∃ l, sectorBasisStates hs N = .ok l ∧ l.Nodup ∧ (∀ s, s ∈ l ↔ InNSector hs N s) ∧
      ∀ sv : V, ∃ v : SectorView V R, SectorView.make sv hs N = .ok v ∧ Shows v l sv := by
  obtain ⟨l, b1, b2, b3, b4, b5⟩ := C51_sector_partial (V := V) (R := R) hs h hpre hid hsp hbits N hN hex hsup
  refine ⟨l, b1, b2, b3, fun sv => ?_⟩
  obtain ⟨v, v1, v2⟩ := b5 sv
  obtain ⟨hvis, hbase⟩ := sector_visit hsp b1 v1
  refine ⟨v, v1, hbase, v2, l.zipIdx, ?_, List.Perm.refl _⟩
  show (match v.visit with | none => Except.error SVError.ub | some l => .ok l.zipIdx) = _
  rw [hvis]

/-- **C103** `make_nfms_view`. -/
theorem C103_multisector_shows (h : Constructed hs) (hpre : PredefinedSpaces hs) (hsp : hs.isSparse = false) (hbits : hs.totalNBits ≠ 0)
    (d : List (SectorDesc ι)) (hset : SetIndices d) (hp : ProperSectors hs d) (hlow : LowModes hs d) (hN : ∀ x ∈ d, x.N ≤ x.indices.length)
    (hsup : ∀ p : SectorParams, p.M ≤ 32 → LawfulRanking.supports R p) :
    ∃ l, multiBasisStates hs d = .ok l ∧ l.Nodup ∧ (∀ s, s ∈ l ↔ InMultiSector hs d s) ∧
      ∀ sv : V, ∃ v : MultiView V R, MultiView.make sv hs d = .ok v ∧ Shows v l sv := by
  obtain ⟨l, b1, b2, b3, b4, b5⟩ := C52_multisector_partial (V := V) (R := R) hs h hpre hsp hbits d hset hp hlow hN hsup
  refine ⟨l, b1, b2, b3, fun sv => ?_⟩
  obtain ⟨v, v1, v2⟩ := b5 sv
  obtain ⟨hvis, hbase⟩ := multi_visit h hpre hsp hbits hset hp hlow hN b1 v1
  refine ⟨v, v1, hbase, v2, l.zipIdx, ?_, List.Perm.refl _⟩
  show (match v.visit with | none => Except.error SVError.ub | some l => .ok l.zipIdx) = _
  rw [hvis]

end shows

/-! ### Operators acting through them -/

/-- **C103** Through views of compressed vectors: all basis states of the Hilbert space, in increasing order. -/
theorem C103_compressed (Rd : Rounding (D := D) u tol vS vT fS fT) (hc : Constructed hs) (hpre : PredefinedSpaces hs) (h1 : 1 < hs.dim)
    (h2 : hs.dim < 2 ^ 31) (e : Expr (Gen ι) S) (he : ActsOn hs e) :
    ∃ op, LOperator.make e hs = .ok op ∧ ∀ src dst : FloVec T, src.data.length = hs.dim → dst.data.length = hs.dim →
      ∃ vs vd, CompView.make src hs = .ok vs ∧ CompView.make dst hs = .ok vd ∧ ∃ dst' : FloVec T,
        Flo.applyTo op (⟨vs⟩ : FloView (CompView (FloVec T))) (⟨vd⟩ : FloView (CompView (FloVec T))) = .ok ⟨{ vd with sv := dst' }⟩ ∧
        dst'.data.length = hs.dim ∧ ∀ i t, (validStates hs)[i]? = some t → fT (dst'.data.getD i AmpOps.zero) →
          ‖vT (dst'.data.getD i AmpOps.zero) - rowTimesVector hs (e.values vS) t (validStates hs) (src.data.map vT)‖ ≤
            ((1 + u) ^ (e.terms.length + 3 * e.degree + 2) - 1) * absRow hs (e.values vS) t (validStates hs) (src.data.map vT)
              + tol * skippedRow hs (e.values vS) t (validStates hs) src.data := by
  obtain ⟨op, hop, hact⟩ := C103_views (X := CompView (FloVec T)) (Y := CompView (FloVec T)) Rd hc hpre e he
  refine ⟨op, hop, fun src dst hs1 hs2 => ?_⟩
  obtain ⟨vs, a1, a2⟩ := C103_compressed_shows hc h1 h2 src
  obtain ⟨vd, b1, b2⟩ := C103_compressed_shows hc h1 h2 dst
  have hlen : (validStates hs).length = hs.dim := C27_dim_counts_states hs hc
  have h63 := (C26_bit_ranges hs hc).2.2.1
  have hvs : hs.vecSize = 2 ^ hs.totalNBits.toNat := by unfold vecSize; rw [pow2_eq (by omega)]
  have hmem : ∀ s, s ∈ validStates hs ↔ ValidState hs s := fun s => by
    rw [validStates, List.mem_filter, decide_eq_true_eq, List.mem_range]
    exact ⟨And.right, fun h => ⟨by rw [hvs]; exact h.1, h⟩⟩
  obtain ⟨dst', c1, c2, c3⟩ := hact (validStates hs) (validStates hs) (List.nodup_range.filter _) (List.nodup_range.filter _)
    (fun s h => (hmem s).1 h) (fun s h => (hmem s).1 h) (fun _ _ _ _ t ht _ => (hmem t).2 ht) src dst (by rw [hlen]; exact hs1) (by rw [hlen]; exact hs2)
    vs vd a2 b2
  exact ⟨vs, vd, a1, b1, dst', c1, by rw [← hlen]; exact c2, c3⟩

/-- **C103** Through views made by basis mappers. -/
theorem C103_mapped (Rd : Rounding (D := D) u tol vS vT fS fT) (hc : Constructed hs) (hpre : PredefinedSpaces hs)
    (e : Expr (Gen ι) S) (he : ActsOn hs e) (b b' : BasisMapper H) (hb : b.map.Nodup) (hb' : b'.map.Nodup) (l l' : List Nat) (s s' : Set Nat)
    (hn : Numbers b.map l s) (hn' : Numbers b'.map l' s') (hv : ∀ k ∈ s, ValidState hs k) (hv' : ∀ k ∈ s', ValidState hs k)
    (hcl : ∀ k ∈ s, ∀ p ∈ e.terms, ∀ t, ValidState hs t → matEl hs p.1 t k ≠ 0 → t ∈ s') :
    ∃ op, LOperator.make e hs = .ok op ∧ ∀ src dst : FloVec T, src.data.length = b.size → dst.data.length = b'.size →
      ∃ dst' : FloVec T, Flo.applyTo op (⟨b.makeView src⟩ : FloView (MappedView H (FloVec T))) (⟨b'.makeView dst⟩ : FloView (MappedView H (FloVec T))) =
          .ok ⟨b'.makeView dst'⟩ ∧
        dst'.data.length = b'.size ∧ ∀ i t, l'[i]? = some t → fT (dst'.data.getD i AmpOps.zero) →
          ‖vT (dst'.data.getD i AmpOps.zero) - rowTimesVector hs (e.values vS) t l (src.data.map vT)‖ ≤
            ((1 + u) ^ (e.terms.length + 3 * e.degree + 2) - 1) * absRow hs (e.values vS) t l (src.data.map vT)
              + tol * skippedRow hs (e.values vS) t l src.data := by
  obtain ⟨op, hop, hact⟩ := C103_views (X := MappedView H (FloVec T)) (Y := MappedView H (FloVec T)) Rd hc hpre e he
  refine ⟨op, hop, fun src dst hs1 hs2 => ?_⟩
  have q1 : b.size = l.length := hn.2.2.1
  have q2 : b'.size = l'.length := hn'.2.2.1
  rw [q2]
  exact hact l l' hn.1 hn'.1 (fun k hk => hv k ((hn.2.1 k).1 hk)) (fun k hk => hv' k ((hn'.2.1 k).1 hk))
    (fun k hk p hp t ht hne => (hn'.2.1 t).2 (hcl k ((hn.2.1 k).1 hk) p hp t ht hne)) src dst (hs1.trans q1) (hs2.trans q2) _ _
    (C103_mapped_shows b hb l s hn src) (C103_mapped_shows b' hb' l' s' hn' dst)

/-- **C103** Between N-fermion sectors; every term of `e` changes the number of fermions by `N' - N`. -/
theorem C103_sector (Rd : Rounding (D := D) u tol vS vT fS fT) (hc : Constructed hs) (hpre : PredefinedSpaces hs) (hid : DocumentedIds hs)
    (hsp : hs.isSparse = false) (hbits : hs.totalNBits ≠ 0)
    (hsup : ∀ p : SectorParams, p.M = (fermionModes hs).length → LawfulRanking.supports R p)
    (hsup' : ∀ p : SectorParams, p.M = (fermionModes hs).length → LawfulRanking.supports R' p)
    (N N' : Nat) (hN : N ≤ (fermionModes hs).length) (hN' : N' ≤ (fermionModes hs).length)
    (hex : (fermionModes hs).length ≤ 62 ∨ (N ≤ 28 ∨ 35 ≤ N) ∧ (N' ≤ 28 ∨ 35 ≤ N'))
    (e : Expr (Gen ι) S) (he : ActsOn hs e) (hch : ∀ p ∈ e.terms, (countFermions (fermionModes hs)).mon p.1 = (N' : Int) - N) :
    ∃ op l l', LOperator.make e hs = .ok op ∧ sectorBasisStates hs N = .ok l ∧ sectorBasisStates hs N' = .ok l' ∧
      ∀ src dst : FloVec T, src.data.length = l.length → dst.data.length = l'.length →
        ∃ (vs : SectorView (FloVec T) R) (vd : SectorView (FloVec T) R'), SectorView.make src hs N = .ok vs ∧ SectorView.make dst hs N' = .ok vd ∧
        ∃ dst' : FloVec T, Flo.applyTo op (⟨vs⟩ : FloView (SectorView (FloVec T) R)) (⟨vd⟩ : FloView (SectorView (FloVec T) R')) =
            .ok ⟨{ vd with sv := dst' }⟩ ∧
          dst'.data.length = l'.length ∧ ∀ i t, l'[i]? = some t → fT (dst'.data.getD i AmpOps.zero) →
            ‖vT (dst'.data.getD i AmpOps.zero) - rowTimesVector hs (e.values vS) t l (src.data.map vT)‖ ≤
              ((1 + u) ^ (e.terms.length + 3 * e.degree + 2) - 1) * absRow hs (e.values vS) t l (src.data.map vT)
                + tol * skippedRow hs (e.values vS) t l src.data := by
  obtain ⟨op, hop, hact⟩ := C103_views (X := SectorView (FloVec T) R) (Y := SectorView (FloVec T) R') Rd hc hpre e he
  obtain ⟨l, e1, e2, e3, e4⟩ := C103_sector_shows (V := FloVec T) (R := R) hc hpre hid hsp hbits N hN (hex.imp_right And.left) hsup
  obtain ⟨l', f1, f2, f3, f4⟩ := C103_sector_shows (V := FloVec T) (R := R') hc hpre hid hsp hbits N' hN' (hex.imp_right And.right) hsup'
  refine ⟨op, l, l', hop, e1, f1, fun src dst hsl hdl => ?_⟩
  obtain ⟨vs, a1, a2⟩ := e4 src
  obtain ⟨vd, b1, b2⟩ := f4 dst
  have hnd := (fermion_block hc hpre hid).2.2.2.1
  obtain ⟨dst', c1, c2, c3⟩ := hact l l' e2 f2 (fun s hs1 => ((e3 s).1 hs1).1) (fun s hs1 => ((f3 s).1 hs1).1)
    (by
      intro k hk p hp t ht hne
      refine (f3 t).2 ⟨ht, ?_⟩
      have h1 := matEl_charge hs p.1 t k _ hnd hne
      rw [((e3 k).1 hk).2, hch p hp] at h1
      omega) src dst hsl hdl vs vd a2 b2
  exact ⟨vs, vd, a1, b1, dst', c1, c2, c3⟩

/-- **C103** Between multisectors over the same sets of modes; every term of `e` changes the number of fermions in each set by the
difference of the prescribed numbers. -/
theorem C103_multisector (Rd : Rounding (D := D) u tol vS vT fS fT) (hc : Constructed hs) (hpre : PredefinedSpaces hs)
    (hsp : hs.isSparse = false) (hbits : hs.totalNBits ≠ 0)
    (hsup : ∀ p : SectorParams, p.M ≤ 32 → LawfulRanking.supports R p) (hsup' : ∀ p : SectorParams, p.M ≤ 32 → LawfulRanking.supports R' p)
    (d d' : List (SectorDesc ι)) (hset : SetIndices d) (hp : ProperSectors hs d) (hlow : LowModes hs d)
    (hset' : SetIndices d') (hp' : ProperSectors hs d') (hlow' : LowModes hs d')
    (hN : ∀ x ∈ d, x.N ≤ x.indices.length) (hN' : ∀ x ∈ d', x.N ≤ x.indices.length)
    (e : Expr (Gen ι) S) (he : ActsOn hs e)
    (hch : ∀ x' ∈ d', ∃ x ∈ d, x.indices = x'.indices ∧ ∀ p ∈ e.terms, (countFermions x.indices).mon p.1 = (x'.N : Int) - x.N) :
    ∃ op l l', LOperator.make e hs = .ok op ∧ multiBasisStates hs d = .ok l ∧ multiBasisStates hs d' = .ok l' ∧
      ∀ src dst : FloVec T, src.data.length = l.length → dst.data.length = l'.length →
        ∃ (vs : MultiView (FloVec T) R) (vd : MultiView (FloVec T) R'), MultiView.make src hs d = .ok vs ∧ MultiView.make dst hs d' = .ok vd ∧
        ∃ dst' : FloVec T, Flo.applyTo op (⟨vs⟩ : FloView (MultiView (FloVec T) R)) (⟨vd⟩ : FloView (MultiView (FloVec T) R')) =
            .ok ⟨{ vd with sv := dst' }⟩ ∧
          dst'.data.length = l'.length ∧ ∀ i t, l'[i]? = some t → fT (dst'.data.getD i AmpOps.zero) →
            ‖vT (dst'.data.getD i AmpOps.zero) - rowTimesVector hs (e.values vS) t l (src.data.map vT)‖ ≤
              ((1 + u) ^ (e.terms.length + 3 * e.degree + 2) - 1) * absRow hs (e.values vS) t l (src.data.map vT)
                + tol * skippedRow hs (e.values vS) t l src.data := by
  obtain ⟨op, hop, hact⟩ := C103_views (X := MultiView (FloVec T) R) (Y := MultiView (FloVec T) R') Rd hc hpre e he
  obtain ⟨l, e1, e2, e3, e4⟩ := C103_multisector_shows (V := FloVec T) (R := R) hc hpre hsp hbits d hset hp hlow hN hsup
  obtain ⟨l', f1, f2, f3, f4⟩ := C103_multisector_shows (V := FloVec T) (R := R') hc hpre hsp hbits d' hset' hp' hlow' hN' hsup'
  refine ⟨op, l, l', hop, e1, f1, fun src dst hsl hdl => ?_⟩
  obtain ⟨vs, a1, a2⟩ := e4 src
  obtain ⟨vd, b1, b2⟩ := f4 dst
  obtain ⟨dst', c1, c2, c3⟩ := hact l l' e2 f2 (fun s hs1 => ((e3 s).1 hs1).1) (fun s hs1 => ((f3 s).1 hs1).1)
    (by
      intro k hk p hp1 t ht hne
      refine (f3 t).2 ⟨ht, fun x' hx' => ?_⟩
      obtain ⟨x, hx, hxe, hxc⟩ := hch x' hx'
      have h1 := matEl_charge hs p.1 t k x.indices ((hset x hx).imp fun hab => ne_of_lt hab) hne
      rw [((e3 k).1 hk).2 x hx, hxc p hp1] at h1
      rw [← hxe]
      omega) src dst hsl hdl vs vd a2 b2
  exact ⟨vs, vd, a1, b1, dst', c1, c2, c3⟩

/-! ### The hypotheses can be met -/

namespace Sloppy

/-- An expression that moves a fermion from mode 2 to mode 0 and acts on a boson and a spin. -/
noncomputable def hop : Expr (Gen Nat) Num := ⟨[([], some 3), ([.fermion true 0, .fermion false 2, .boson true 1, .spin 2 .z 0], some (1 / 7))]⟩

/-- `C103_sector` and `C103_compressed` apply to the arithmetic `Sloppy`, the space `sectorExample`, the sectors `N = N' = 2`, the expression `hop`. -/
theorem c103_hypotheses : Rounding (D := ℝ) eps (100 * (2 * eps)) val val fin fin ∧ ∃ hs : HilbertSpace Nat, Constructed hs ∧ PredefinedSpaces hs ∧
    DocumentedIds hs ∧ hs.isSparse = false ∧ hs.totalNBits ≠ 0 ∧ 1 < hs.dim ∧ hs.dim < 2 ^ 31 ∧ 2 ≤ (fermionModes hs).length ∧
    (fermionModes hs).length ≤ 62 ∧ ActsOn hs hop ∧ (∀ p ∈ hop.terms, (countFermions (fermionModes hs)).mon p.1 = ((2 : Nat) : Int) - (2 : Nat)) ∧
    ∃ t k, t ≠ k ∧ InNSector hs 2 t ∧ InNSector hs 2 k ∧
      (∀ p, LawfulRanking.supports CombRanking p) := by
  refine ⟨rounding, ?_⟩
  obtain ⟨hs, hof, h1, h2, h3, h4, h5, h6, h7⟩ := sector_generators
  have facts : ((HilbertSpace.ofArgs sectorExample).toOption.map fun hs : HilbertSpace Nat => decide (1 < hs.dim ∧ hs.dim < 2 ^ 31)) = some true := by
    decide +kernel
  have hst : ((HilbertSpace.ofArgs sectorExample).toOption.bind fun hs : HilbertSpace Nat => (sectorBasisStates hs 2).toOption) =
      some [6, 14, 22, 30, 5, 13, 21, 29, 3, 11, 19, 27] := by decide +kernel
  rw [hof] at facts hst
  simp only [Except.toOption, Option.map_some, Option.some.injEq, decide_eq_true_eq, Option.bind_some] at facts hst
  obtain ⟨l, b1, b2, b3, -⟩ := C51_sector_partial (V := FloVec Num) (R := CombRanking) hs h1 h2 h3 h4 h5 2 (by simp [h6]) (by simp [h6]) (fun _ _ => trivial)
  rw [b1] at hst
  simp only [Option.some.injEq] at hst
  subst hst
  refine ⟨hs, h1, h2, h3, h4, h5, facts.1, facts.2, by simp [h6], by simp [h6], fun p hp => ?_, fun p hp => ?_, 6, 3, by decide, (b3 6).1 (by simp),
    (b3 3).1 (by simp), fun _ => trivial⟩
  · simp only [hop, List.mem_cons, List.not_mem_nil, or_false] at hp
    rcases hp with rfl | rfl
    · exact ⟨⟨[], [], [], rfl, ⟨[], [], rfl, by simp, by simp⟩, by simp, by simp⟩, by simp⟩
    · refine ⟨canonicalMonomial_of_chain ?_, ?_⟩
      · simp only [List.isChain_cons_cons, OKPair]; refine ⟨?_, ?_, ?_, List.IsChain.singleton _⟩ <;> decide +kernel
      · intro g hg
        refine h7 _ ?_
        simp only [List.mem_cons, List.not_mem_nil, or_false] at hg
        rcases hg with rfl | rfl | rfl | rfl <;> simp [Gen.mode]
  · simp only [hop, List.mem_cons, List.not_mem_nil, or_false] at hp
    rcases hp with rfl | rfl <;> simp [Charge.mon, Charge.gen, countFermions, h6]

end Sloppy
end LC
