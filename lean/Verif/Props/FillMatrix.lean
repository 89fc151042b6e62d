import Verif.Proof.FillMatrix
import Verif.Props.Products
import Verif.Props.Expression
import Verif.Proof.ConjAll
/-
C114: matrices filled column by column through views.
-/
set_option linter.unusedSectionVars false
set_option linter.unusedSimpArgs false
namespace LC
open HilbertSpace Expr FillMatrix
variable {ι S R R' : Type _} [LinearOrder ι] [CommRing S] [DecidableEq S] [ConstScalar S] [ScalarLaws S] [IsDomain S] [CharZero S]
  [Star S] [Algebra ℝ S] [RankingAlg R] [LawfulRanking R] [RankingAlg R'] [LawfulRanking R']

namespace FillMatrix
variable {X Y K : Type _} [StateVec X S] [ViewOf X (EigenSV S) S] [StateVec Y S] [ViewOf Y (EigenSV S) S]

/-- What is known about making a view of the states of a list. -/
structure MakeSpec (l : List Nat) (mk : EigenSV S → Option X) : Prop where
  ok : ∀ sv : EigenSV S, sv.view.Inside sv.mem.length → l.length ≤ sv.view.size → ∃ v, mk sv = some v ∧ ViewOf.base v = sv ∧ LawfulSV.inv v ∧
    (∀ n, n ∈ LawfulSV.dom v ↔ n ∈ l) ∧ ∀ i n, l[i]? = some n → ViewOf.idx v n = .ok i ∧ LawfulSV.amp v n = sv.view.amp sv.mem i

theorem setup_of_make {hs : HilbertSpace ι} {e : Expr (Gen ι) S} {l : List Nat} (hl : l.Nodup) (hv : ∀ s ∈ l, ValidState hs s)
    (hstay : ∀ k ∈ l, ∀ p ∈ e.terms, ∀ t, ValidState hs t → matEl hs p.1 t k ≠ 0 → t ∈ l)
    {src : EigenSV S → X} {mk : EigenSV S → Option X} (hsrc : ∀ sv, mk sv = some (src sv)) (hmk : MakeSpec l mk)
    {dst : EigenSV S → Option Y} (hdst : MakeSpec l dst) : Setup hs e l src dst := by
  have hsv : ∀ i, LawfulSV.inv (src (unit l.length i)) ∧ (∀ n, n ∈ LawfulSV.dom (src (unit l.length i)) ↔ n ∈ l) ∧
      ∀ j n, l[j]? = some n → LawfulSV.amp (src (unit l.length i)) n = (unit (S := S) l.length i).view.amp (unit (S := S) l.length i).mem j := by
    intro i
    obtain ⟨v, a1, -, a2, a3, a4⟩ := hmk.ok (unit l.length i) (unit_inside _ _) le_rfl
    rw [hsrc] at a1
    cases a1
    exact ⟨a2, a3, fun j n hj => (a4 j n hj).2⟩
  refine ⟨hv, hstay, fun i hi => (hsv i).1, fun i a ha s => ?_, fun i hi mem hm => ?_⟩
  · have hi := (List.getElem?_eq_some_iff.1 ha).1
    by_cases hs1 : s ∈ l
    · obtain ⟨j, hj⟩ := List.mem_iff_getElem?.1 hs1
      rw [(hsv i).2.2 j s hj, unit_amp _ _ _ hi]
      have hj' := (List.getElem?_eq_some_iff.1 hj).1
      congr 1
      refine propext ⟨fun h => ?_, fun h => ?_⟩
      · subst h; rw [ha] at hj; exact (Option.some.inj hj).symm
      · subst h; exact (List.getElem?_inj hj' hl).1 (hj.trans ha.symm)
    · rw [LawfulSV.amp_out _ _ (fun h => hs1 (((hsv i).2.1 s).1 h)), if_neg]
      rintro rfl
      exact hs1 (List.mem_of_getElem? ha)
  · obtain ⟨v, a1, a2, a3, a4, a5⟩ := hdst.ok ⟨mem, .col 0 l.length i⟩ (col_inside hi hm) le_rfl
    exact ⟨v, a1, a2, a3, a4, fun j n hj => (a5 j n hj).1⟩

theorem sectorMake_sv {V V' : Type _} (sv : V) (sv' : V') (hs : HilbertSpace ι) (N : Nat) (v : SectorView V R) (h : SectorView.make sv hs N = .ok v) :
    (SectorView.make sv' hs N : Except SectorError (SectorView V' R)) = .ok ⟨sv', v.params, v.ranking, v.unranking, v.fMask, v.mNon⟩ ∧ v.sv = sv := by
  unfold SectorView.make at h ⊢
  split at h
  · cases h
  · split at h
    · cases h
    · cases h; simp_all

theorem multiMake_sv {V V' : Type _} (sv : V) (sv' : V') (hs : HilbertSpace ι) (d : List (SectorDesc ι)) (v : MultiView V R)
    (h : MultiView.make sv hs d = .ok v) :
    (MultiView.make sv' hs d : Except SectorError (MultiView V' R)) =
      .ok ⟨sv', v.params, v.ranking, v.strides, v.unranking, v.mNon, v.nonMask⟩ ∧ v.sv = sv := by
  unfold MultiView.make at h ⊢
  split at h
  · cases h
  · split at h
    · cases h
    · cases h; simp_all

theorem compMake_sv {V V' : Type _} (sv : V) (sv' : V') (hs : HilbertSpace ι) (v : CompView V) (h : CompView.make sv hs = .ok v) :
    CompView.make sv' hs = .ok ⟨sv', v.masks, v.strides, v.foreachAlg⟩ ∧ v.sv = sv := by
  unfold CompView.make at h ⊢
  split at h
  · cases h
  · cases h; simp_all

theorem updateAdd_comp {V : Type _} [StateVec V S] (v : CompView V) (n : Nat) (a : S) (v' : CompView V) (h : StateVec.updateAdd v n a = .ok v') :
    ∃ k, ViewOf.idx v n = .ok k := by
  simp only [StateVec.updateAdd] at h
  cases hi : v.mapIndex n with
  | error e => rw [hi] at h; cases h
  | ok k => exact ⟨k, hi⟩

end FillMatrix

/-- The memory `mem` holds, column by column, the matrix of an expression between the basis states of a list. -/
def IsMatrixOf (hs : HilbertSpace ι) (e : Expr (Gen ι) S) (l : List Nat) (mem : List S) : Prop :=
  mem.length = l.length * l.length ∧ ∀ i a, l[i]? = some a → ∀ j b, l[j]? = some b → mem.getD (l.length * i + j) 0 = opEl hs e b a

/-- An expression does not lead out of the span of the states of a list. -/
def StaysIn (hs : HilbertSpace ι) (e : Expr (Gen ι) S) (l : List Nat) : Prop := ∀ k ∈ l, ∀ t, ValidState hs t → t ∉ l → opEl hs e t k = 0

theorem staysIn_of {hs : HilbertSpace ι} {e : Expr (Gen ι) S} {l : List Nat}
    (h : ∀ k ∈ l, ∀ p ∈ e.terms, ∀ t, ValidState hs t → matEl hs p.1 t k ≠ 0 → t ∈ l) : StaysIn hs e l := by
  intro k hk t ht hn
  rw [opEl]
  refine List.sum_eq_zero fun x hx => ?_
  obtain ⟨p, hp, rfl⟩ := List.mem_map.1 hx
  by_cases h0 : matEl hs p.1 t k = 0
  · rw [h0]; simp
  · exact absurd (h k hk p hp t ht h0) hn


/-- **C114** Filling a matrix column by column through views of an `N`-fermion sector, as in examples/n_fermion_sectors.cpp: the program ends, and
the matrix is that of the expression between the basis states of the sector, in the order of the list returned by
`n_fermion_sector_basis_states`, whatever the two vectors contained before. -/
theorem C114_sector_partial {M : Nat → ι → Prop} (hM : HalfAlone M) (hs : HilbertSpace ι) (h : Constructed hs) (hpre : PredefinedSpaces hs)
    (hid : DocumentedIds hs) (hsp : hs.isSparse = false) (hbits : hs.totalNBits ≠ 0)
    (hsup : ∀ p : SectorParams, p.M = (fermionModes hs).length → LawfulRanking.supports R p)
    (hsup' : ∀ p : SectorParams, p.M = (fermionModes hs).length → LawfulRanking.supports R' p)
    (N : Nat) (hN : N ≤ (fermionModes hs).length) (hex : (fermionModes hs).length ≤ 62 ∨ N ≤ 28 ∨ 35 ≤ N)
    (e : Expr (Gen ι) S) (he : Reachable (InSpace M hs) e) (hch : (countFermions (fermionModes hs)).Homogeneous 0 e) :
    ∃ op l, LOperator.make e hs = .ok op ∧ sectorBasisStates hs N = .ok l ∧ sectorSize hs N = .ok l.length ∧ l.Nodup ∧ StaysIn hs e l ∧
      ∀ psi mem : List S, mem.length = l.length * l.length → ∃ mem', FillMatrix.sector R R' op hs N psi mem = some mem' ∧ IsMatrixOf hs e l mem' := by
  obtain ⟨op, hop, -⟩ := C38_operator_action (V := DenseSV S) (W := DenseSV S) hM h hpre e he
  obtain ⟨l, e1, e2, e3, e4, e5⟩ := C51_sector_partial (V := EigenSV S) (R := R) hs h hpre hid hsp hbits N hN hex hsup
  obtain ⟨l', f1, -, -, -, f5⟩ := C51_sector_partial (V := EigenSV S) (R := R') hs h hpre hid hsp hbits N hN hex hsup'
  rw [e1] at f1
  cases f1
  have hnd := (fermion_block h hpre hid).2.2.2.1
  have hstay : ∀ k ∈ l, ∀ p ∈ e.terms, ∀ t, ValidState hs t → matEl hs p.1 t k ≠ 0 → t ∈ l := by
    intro k hk p hp t ht hne
    refine (e3 t).2 ⟨ht, ?_⟩
    have h1 := matEl_charge hs p.1 t k _ hnd hne
    rw [((e3 k).1 hk).2, hch p hp] at h1
    omega
  refine ⟨op, l, hop, e1, e4, e2, staysIn_of hstay, fun psi mem hmem => ?_⟩
  have make1 : MakeSpec l fun sv : EigenSV S => (SectorView.make sv hs N : Except SectorError (SectorView (EigenSV S) R)).toOption := by
    refine ⟨fun sv hin hsz => ?_⟩
    obtain ⟨v, a1, -, a2, a3, a4⟩ := C51_view_partial (R := R) hs h hpre hid hsp hbits N hN hex hsup l e1 sv hin
      (fun i hi => by show i < sv.view.size; omega)
    obtain ⟨v2, g1, g2⟩ := e5 sv
    rw [a1] at g1
    cases g1
    exact ⟨v, by rw [a1]; rfl, (sectorMake_sv sv sv hs N v a1).2, a2, fun n => (a3 n).trans (e3 n).symm,
      fun i n hi => ⟨positions_of_map g2 i n hi, a4 i n hi⟩⟩
  have make2 : MakeSpec l fun sv : EigenSV S => (SectorView.make sv hs N : Except SectorError (SectorView (EigenSV S) R')).toOption := by
    refine ⟨fun sv hin hsz => ?_⟩
    obtain ⟨v, a1, -, a2, a3, a4⟩ := C51_view_partial (R := R') hs h hpre hid hsp hbits N hN hex hsup' l e1 sv hin
      (fun i hi => by show i < sv.view.size; omega)
    obtain ⟨v2, g1, g2⟩ := f5 sv
    rw [a1] at g1
    cases g1
    exact ⟨v, by rw [a1]; rfl, (sectorMake_sv sv sv hs N v a1).2, a2, fun n => (a3 n).trans (e3 n).symm,
      fun i n hi => ⟨positions_of_map g2 i n hi, a4 i n hi⟩⟩
  obtain ⟨vs, v1, -⟩ := e5 ⟨psi, .map 0 l.length⟩
  have hset : Setup hs e l (fun sv : EigenSV S => { vs with sv := sv })
      (fun sv => (SectorView.make sv hs N : Except SectorError (SectorView (EigenSV S) R')).toOption) :=
    setup_of_make e2 (fun s hs1 => ((e3 s).1 hs1).1) hstay (mk := fun sv => (SectorView.make sv hs N).toOption)
      (fun sv => by rw [(sectorMake_sv _ sv hs N vs v1).1]; rfl) make1 make2
  obtain ⟨mem', m1, m2, m3, -⟩ := loop_spec updateAdd_sector hM h hpre e he op hop l _ _ hset some (List.range l.length) (List.range l.length) rfl
    (fun i hi => List.mem_range.1 hi) mem hmem
  refine ⟨mem', ?_, m2.trans hmem, fun i a ha j b hb => m3 i (List.mem_range.2 (List.getElem?_eq_some_iff.1 ha).1) a ha j b hb⟩
  rw [FillMatrix.sector, e4]
  simp only [v1]
  exact m1

/-- **C114** The same for a multisector. -/
theorem C114_multisector_partial {M : Nat → ι → Prop} (hM : HalfAlone M) (hs : HilbertSpace ι) (h : Constructed hs)
    (hpre : PredefinedSpaces hs) (hsp : hs.isSparse = false) (hbits : hs.totalNBits ≠ 0)
    (hsup : ∀ p : SectorParams, p.M ≤ 32 → LawfulRanking.supports R p) (hsup' : ∀ p : SectorParams, p.M ≤ 32 → LawfulRanking.supports R' p)
    (d : List (SectorDesc ι)) (hset : SetIndices d) (hp : ProperSectors hs d) (hlow : LowModes hs d) (hN : ∀ x ∈ d, x.N ≤ x.indices.length)
    (e : Expr (Gen ι) S) (he : Reachable (InSpace M hs) e) (hch : ∀ x ∈ d, (countFermions x.indices).Homogeneous 0 e) :
    ∃ op l, LOperator.make e hs = .ok op ∧ multiBasisStates hs d = .ok l ∧ multiSize hs d = .ok l.length ∧ l.Nodup ∧ StaysIn hs e l ∧
      ∀ psi mem : List S, mem.length = l.length * l.length →
        ∃ mem', FillMatrix.multisector R R' op hs d psi mem = some mem' ∧ IsMatrixOf hs e l mem' := by
  obtain ⟨op, hop, -⟩ := C38_operator_action (V := DenseSV S) (W := DenseSV S) hM h hpre e he
  obtain ⟨l, e1, e2, e3, e4, e5⟩ := C52_multisector_partial (V := EigenSV S) (R := R) hs h hpre hsp hbits d hset hp hlow hN hsup
  obtain ⟨l', f1, -, -, -, f5⟩ := C52_multisector_partial (V := EigenSV S) (R := R') hs h hpre hsp hbits d hset hp hlow hN hsup'
  rw [e1] at f1
  cases f1
  have hstay : ∀ k ∈ l, ∀ p ∈ e.terms, ∀ t, ValidState hs t → matEl hs p.1 t k ≠ 0 → t ∈ l := by
    intro k hk p hp1 t ht hne
    refine (e3 t).2 ⟨ht, fun x hx => ?_⟩
    have h1 := matEl_charge hs p.1 t k x.indices ((hset x hx).imp fun hab => ne_of_lt hab) hne
    rw [((e3 k).1 hk).2 x hx, hch x hx p hp1] at h1
    omega
  refine ⟨op, l, hop, e1, e4, e2, staysIn_of hstay, fun psi mem hmem => ?_⟩
  have make1 : MakeSpec l fun sv : EigenSV S => (MultiView.make sv hs d : Except SectorError (MultiView (EigenSV S) R)).toOption := by
    refine ⟨fun sv hin hsz => ?_⟩
    obtain ⟨v, a1, -, a2, a3, a4⟩ := C52_view_partial (R := R) hs h hpre hsp hbits d hset hp hlow hN hsup l e1 sv hin
      (fun i hi => by show i < sv.view.size; omega)
    obtain ⟨v2, g1, g2⟩ := e5 sv
    rw [a1] at g1
    cases g1
    exact ⟨v, by rw [a1]; rfl, (multiMake_sv sv sv hs d v a1).2, a2, fun n => (a3 n).trans (e3 n).symm,
      fun i n hi => ⟨positions_of_map g2 i n hi, a4 i n hi⟩⟩
  have make2 : MakeSpec l fun sv : EigenSV S => (MultiView.make sv hs d : Except SectorError (MultiView (EigenSV S) R')).toOption := by
    refine ⟨fun sv hin hsz => ?_⟩
    obtain ⟨v, a1, -, a2, a3, a4⟩ := C52_view_partial (R := R') hs h hpre hsp hbits d hset hp hlow hN hsup' l e1 sv hin
      (fun i hi => by show i < sv.view.size; omega)
    obtain ⟨v2, g1, g2⟩ := f5 sv
    rw [a1] at g1
    cases g1
    exact ⟨v, by rw [a1]; rfl, (multiMake_sv sv sv hs d v a1).2, a2, fun n => (a3 n).trans (e3 n).symm,
      fun i n hi => ⟨positions_of_map g2 i n hi, a4 i n hi⟩⟩
  obtain ⟨vs, v1, -⟩ := e5 ⟨psi, .map 0 l.length⟩
  have hset' : Setup hs e l (fun sv : EigenSV S => { vs with sv := sv })
      (fun sv => (MultiView.make sv hs d : Except SectorError (MultiView (EigenSV S) R')).toOption) :=
    setup_of_make e2 (fun s hs1 => ((e3 s).1 hs1).1) hstay (mk := fun sv => (MultiView.make sv hs d).toOption)
      (fun sv => by rw [(multiMake_sv _ sv hs d vs v1).1]; rfl) make1 make2
  obtain ⟨mem', m1, m2, m3, -⟩ := loop_spec updateAdd_multi hM h hpre e he op hop l _ _ hset' some (List.range l.length) (List.range l.length) rfl
    (fun i hi => List.mem_range.1 hi) mem hmem
  refine ⟨mem', ?_, m2.trans hmem, fun i a ha j b hb => m3 i (List.mem_range.2 (List.getElem?_eq_some_iff.1 ha).1) a ha j b hb⟩
  rw [FillMatrix.multisector, e4]
  simp only [v1]
  exact m1

/-- **C114** The same for a whole Hilbert space, sparse or not, through compressed views, as in examples/spin1_heisenberg.cpp: rows and columns are
ordered by increasing basis state index. -/
theorem C114_space {M : Nat → ι → Prop} (hM : HalfAlone M) (hs : HilbertSpace ι) (h : Constructed hs) (hpre : PredefinedSpaces hs)
    (h1 : 1 < hs.dim) (h2 : hs.dim < 2 ^ 31) (e : Expr (Gen ι) S) (he : Reachable (InSpace M hs) e) :
    ∃ op, LOperator.make e hs = .ok op ∧ (validStates hs).length = hs.dim ∧ (validStates hs).Nodup ∧ StaysIn hs e (validStates hs) ∧
      ∀ psi mem : List S, mem.length = hs.dim * hs.dim →
        ∃ mem', FillMatrix.comp op hs psi mem = some mem' ∧ IsMatrixOf hs e (validStates hs) mem' := by
  obtain ⟨op, hop, -⟩ := C38_operator_action (V := DenseSV S) (W := DenseSV S) hM h hpre e he
  have hlen : (validStates hs).length = hs.dim := C27_dim_counts_states hs h
  have hnd : (validStates hs).Nodup := List.nodup_range.filter _
  have h63 := (C26_bit_ranges hs h).2.2.1
  have hmemv : ∀ n, n ∈ validStates hs ↔ ValidState hs n := by
    intro n
    rw [validStates, List.mem_filter, List.mem_range, decide_eq_true_iff]
    refine ⟨fun h => h.2, fun hn => ⟨?_, hn⟩⟩
    rw [show hs.vecSize = 2 ^ hs.totalNBits.toNat by unfold vecSize; rw [pow2_eq (by omega)]]
    exact hn.1
  refine ⟨op, hop, hlen, hnd, fun k _ t ht hn => absurd ((hmemv t).2 ht) hn, fun psi mem hmem => ?_⟩
  have hf := (C27_foreach hs h fun _ => h2).1
  have make1 : MakeSpec (validStates hs) fun sv : EigenSV S => (CompView.make sv hs).toOption := by
    refine ⟨fun sv hin hsz => ?_⟩
    obtain ⟨v, a1, a2, a3, a4⟩ := C43_lawful hs h h1 h2 sv hin (fun i hi => by show i < sv.view.size; omega)
    obtain ⟨v2, g1, g2⟩ := C43_map_index sv hs h
    rw [a1] at g1
    cases g1
    have g3 := positions_of_map (f := v.mapIndex) (l := validStates hs) (by rw [hlen]; exact g2)
    refine ⟨v, by rw [a1]; rfl, (compMake_sv sv sv hs v a1).2, a2, fun n => (a3 n).trans (hmemv n).symm, fun i n hi => ⟨g3 i n hi, ?_⟩⟩
    obtain ⟨i', -, c1, c2⟩ := a4 n ((hmemv n).1 (List.mem_of_getElem? hi))
    rw [g3 i n hi] at c1
    cases c1
    exact c2
  obtain ⟨vs, v1, v2⟩ := C43_map_index (⟨psi, .map 0 hs.dim⟩ : EigenSV S) hs h
  have hset : Setup hs e (validStates hs) (fun sv : EigenSV S => { vs with sv := sv }) (fun sv => (CompView.make sv hs).toOption) :=
    setup_of_make hnd (fun s => (hmemv s).1) (fun k _ p _ t ht _ => (hmemv t).2 ht) (mk := fun sv => (CompView.make sv hs).toOption)
      (fun sv => by rw [(compMake_sv _ sv hs vs v1).1]; rfl) make1 make1
  obtain ⟨mem', m1, m2, m3, -⟩ := loop_spec updateAdd_comp hM h hpre e he op hop (validStates hs) _ _ hset (fun k => (vs.mapIndex k).toOption)
    hs.foreach (List.range hs.dim) (by
      rw [hf]
      have := congrArg (List.map Except.toOption) v2
      rw [List.map_map, List.map_map] at this
      exact this) (fun i hi => by rw [hlen]; exact List.mem_range.1 hi) mem (by rw [hlen]; exact hmem)
  refine ⟨mem', ?_, m2.trans (by rw [hlen]; exact hmem),
    fun i a ha j b hb => m3 i (List.mem_range.2 (hlen ▸ (List.getElem?_eq_some_iff.1 ha).1)) a ha j b hb⟩
  rw [FillMatrix.comp]
  simp only [v1]
  rw [hlen] at m1
  exact m1

/-- **C114** The matrix of an expression equal to its conjugate is equal to its conjugate transpose, so that a solver that reads one triangle of it
(`Eigen::SelfAdjointEigenSolver`) sees the whole matrix. -/
theorem C114_self_adjoint {S : Type _} [CommRing S] [DecidableEq S] [ConstScalar S] [ScalarLaws S] [IsDomain S] [CharZero S] [StarRing S]
    [Algebra ℝ S] (hreal : ∀ x : ℝ, star (algebraMap ℝ S x) = algebraMap ℝ S x) {M : Nat → ι → Prop} (hM : HalfAlone M) (hs : HilbertSpace ι)
    (h : Constructed hs) (hpre : PredefinedSpaces hs) (e : Expr (Gen ι) S) (he : Reachable (InSpace M hs) e) (hsa : e.conj.eqOp e = true)
    (l : List Nat) (hl : ∀ s ∈ l, ValidState hs s) (mem : List S) (hm : IsMatrixOf hs e l mem) (i j : Nat) (hi : i < l.length) (hj : j < l.length) :
    mem.getD (l.length * i + j) 0 = star (mem.getD (l.length * j + i) 0) := by
  rw [hm.2 i l[i] (List.getElem?_eq_getElem hi) j l[j] (List.getElem?_eq_getElem hj),
    hm.2 j l[j] (List.getElem?_eq_getElem hj) i l[i] (List.getElem?_eq_getElem hi)]
  conv_lhs => rw [← (eqOp_iff _ _).1 hsa]
  exact opEl_conj hreal hM h hpre (he.mono fun g hg => hg) (hl _ (List.getElem_mem hj)) (hl _ (List.getElem_mem hi))

/-- **C114** An eigenvector of the matrix, written into the positions of the basis states of a vector of the full space, is an eigenvector of the
operator, with the same eigenvalue. -/
theorem C114_eigenvectors {M : Nat → ι → Prop} (hM : HalfAlone M) (hs : HilbertSpace ι) (h : Constructed hs) (hpre : PredefinedSpaces hs)
    (e : Expr (Gen ι) S) (he : Reachable (InSpace M hs) e) (op : LOperator S) (hop : LOperator.make e hs = .ok op)
    (l : List Nat) (hnd : l.Nodup) (hl : ∀ s ∈ l, ValidState hs s) (hstay : StaysIn hs e l) (mem : List S) (hm : IsMatrixOf hs e l mem)
    (x : List S) (lam : S)
    (hx : ∀ j < l.length, (∑ i ∈ Finset.range l.length, mem.getD (l.length * i + j) 0 * x.getD i 0) = lam * x.getD j 0)
    (v : DenseSV S) (hv : v.data.length = hs.vecSize) (h1 : ∀ i s, l[i]? = some s → v.data.getD s 0 = x.getD i 0)
    (h0 : ∀ s, s ∉ l → v.data.getD s 0 = 0) :
    ∃ v', op.apply v = .ok v' ∧ v'.data.length = hs.vecSize ∧ ∀ t, v'.data.getD t 0 = lam * v.data.getD t 0 := by
  obtain ⟨op', hop', hact⟩ := C38_dense (T := S) hM h hpre e he
  rw [hop] at hop'
  cases hop'
  obtain ⟨v', a1, a2, a3⟩ := hact v hv (fun k hk => hl k (by by_contra hn; exact hk (h0 k hn)))
  refine ⟨v', a1, a2, fun t => ?_⟩
  rw [a3]
  by_cases ht : ValidState hs t
  · rw [opApply_list hs e _ l x hnd hl h0 h1 t ht, rowTimesVector]
    have sum_eq : ∀ f : Nat → Nat → S, (l.zipIdx.map fun p => f p.1 p.2).sum = ∑ i ∈ Finset.range l.length, f (l.getD i 0) i := by
      intro f
      rw [Finset.sum_range, ← List.sum_ofFn]
      congr 1
      apply List.ext_getElem
      · simp
      · intro n g1 g2
        have : n < l.length := by simpa using g1
        simp [this]
    rw [sum_eq fun s i => opEl hs e t s • x.getD i 0]
    by_cases htl : t ∈ l
    · obtain ⟨j, hj⟩ := List.mem_iff_getElem?.1 htl
      rw [h1 j t hj, ← hx j (List.getElem?_eq_some_iff.1 hj).1]
      refine Finset.sum_congr rfl fun i hi => ?_
      have hi := Finset.mem_range.1 hi
      have hg : l[i]? = some (l.getD i 0) := by simp [hi]
      rw [hm.2 i _ hg j t hj, smul_eq_mul]
    · rw [h0 t htl, mul_zero]
      refine Finset.sum_eq_zero fun i hi => ?_
      have hi := Finset.mem_range.1 hi
      rw [hstay _ (by simp [hi]) t ht htl, zero_smul]
  · rw [opApply, if_neg ht, h0 t (fun h => ht (hl t h)), mul_zero]

/-! ### Examples -/
open Factory

open scoped Classical in
/-- The hypotheses of the theorems are met: a space with three fermionic modes, a boson and a spin, the sector with two fermions, the multisector
`multiExample`, and a self-adjoint expression which moves a fermion between the modes 0 and 2; a space of dimension 6 in 3 bits with a coupling of its
fermion to its boson. -/
theorem c114_hypotheses : HalfAlone (fun n (_ : Nat) => n = 2) ∧ (∀ p, LawfulRanking.supports CombRanking p) ∧
    (∀ x : ℝ, star (algebraMap ℝ ℂ x) = algebraMap ℝ ℂ x) ∧
    (∃ hs : HilbertSpace Nat, Constructed hs ∧ PredefinedSpaces hs ∧ DocumentedIds hs ∧ hs.isSparse = false ∧ hs.totalNBits ≠ 0 ∧
      2 ≤ (fermionModes hs).length ∧ (fermionModes hs).length ≤ 62 ∧ SetIndices multiExample ∧
      ProperSectors hs multiExample ∧ LowModes hs multiExample ∧ (∀ x ∈ multiExample, x.N ≤ x.indices.length) ∧
      ∃ e : Expr (Gen Nat) ℂ, e = cDag 0 * c 2 + cDag 2 * c 0 ∧ Reachable (InSpace (fun n _ => n = 2) hs) e ∧ e.conj.eqOp e = true ∧
        (countFermions (fermionModes hs)).Homogeneous 0 e ∧ ∀ x ∈ multiExample, (countFermions x.indices).Homogeneous 0 e) ∧
    ∃ hs : HilbertSpace Nat, Constructed hs ∧ PredefinedSpaces hs ∧ hs.isSparse = true ∧ 1 < hs.dim ∧ hs.dim < 2 ^ 31 ∧
      Reachable (S := ℂ) (InSpace (fun n _ => n = 2) hs) (cDag 0 * c 0 * (aDag 0 + a 0)) := by
  obtain ⟨hs, hof, h1, h2, h3, h4, h5, h6, h7⟩ := sector_generators
  have hM : HalfAlone (fun n (_ : Nat) => n = 2) := fun _ n _ h => h
  have facts : ((HilbertSpace.ofArgs sectorExample).toOption.map fun hs : HilbertSpace Nat =>
      (decide (∀ d ∈ multiExample, ∀ i ∈ d.indices, hs.has (ESpace.fermion i) = true) &&
        decide (∀ d ∈ multiExample, ∀ i ∈ d.indices, ((hs.bitRange (ESpace.fermion i)).toOption.map fun r => decide (r.first < 32)) = some true))) =
        some true := by decide +kernel
  rw [hof] at facts
  simp only [Except.toOption, Option.map_some, Option.some.injEq, Bool.and_eq_true, decide_eq_true_eq] at facts
  obtain ⟨f3, f4⟩ := facts
  have al : ∀ d (i : Nat), Allowed (fun n _ => n = 2) (.fermion d i) := fun _ _ => trivial
  have hom1 : ∀ (is : List Nat) i j, (countFermions is).Homogeneous ((countFermions is).mon [.fermion true i] + (countFermions is).mon [.fermion false j])
      (cDag i * c j : Expr (Gen Nat) ℂ) := fun is i j =>
    (C62_grading hM _ _ _ (.ofMonomial 1 _ (by simpa using al true i)) (.ofMonomial 1 _ (by simpa using al false j)) _ _ 0
      (C62_monomial hM _ 1 _ (by simpa using al true i))).1 (C62_monomial hM _ 1 _ (by simpa using al false j))
  have rA : ∀ i j : Nat, Reachable (S := ℂ) (Allowed fun n _ => n = 2) (cDag i * c j) := fun i j =>
    .mul (.ofMonomial 1 _ (by simpa using al true i)) (.ofMonomial 1 _ (by simpa using al false j))
  have hom : ∀ is : List Nat, (0 ∈ is ↔ 2 ∈ is) → (countFermions is).Homogeneous 0 (cDag 0 * c 2 + cDag 2 * c 0 : Expr (Gen Nat) ℂ) := by
    intro is his
    have a1 := hom1 is 0 2
    have a2 := hom1 is 2 0
    have e1 : (countFermions is).mon [.fermion true 0] + (countFermions is).mon [.fermion false 2] = 0 := by
      simp only [Charge.mon, Charge.gen, countFermions, List.map_cons, List.map_nil, List.sum_cons, List.sum_nil, his]
      by_cases h : 2 ∈ is <;> simp [h]
    have e2 : (countFermions is).mon [.fermion true 2] + (countFermions is).mon [.fermion false 0] = 0 := by
      simp only [Charge.mon, Charge.gen, countFermions, List.map_cons, List.map_nil, List.sum_cons, List.sum_nil, his]
      by_cases h : 2 ∈ is <;> simp [h]
    rw [e1] at a1
    rw [e2] at a2
    exact ((C62_grading hM _ _ _ (rA 0 2) (rA 2 0) 0 0 0 a1).2.1 a2).1
  have ok : ∀ d (i : Nat), i ∈ [0, 2] → Reachable (S := ℂ) (InSpace (fun n _ => n = 2) hs) (ofMonomial 1 [.fermion d i]) := by
    intro d i hi
    refine .ofMonomial _ _ ?_
    simp only [List.mem_singleton, forall_eq]
    refine ⟨trivial, h7 (.fermion i) ?_⟩
    rcases (by simpa using hi : i = 0 ∨ i = 2) with rfl | rfl <;> simp
  refine ⟨hM, fun _ => trivial, fun x => by simp, ⟨hs, h1, h2, h3, h4, h5, by simp [h6], by simp [h6], by unfold SetIndices; decide, ⟨f3, by decide⟩, ?_,
    by decide, _, rfl, ?_, ?_, ?_, ?_⟩, ?_⟩
  · intro d hd i hi r hr
    have := of_decide_eq_true f4 d hd i hi
    rw [hr] at this
    simpa using this
  · exact .add (.mul (ok true 0 (by simp)) (ok false 2 (by simp))) (.mul (ok true 2 (by simp)) (ok false 0 (by simp)))
  · have rf : ∀ d (i : Nat), Reachable (S := ℂ) FBS (ofMonomial 1 [.fermion d i]) := fun d i => .ofMonomial 1 _ (by simp [FBS])
    have rp : ∀ i j : Nat, Reachable (S := ℂ) FBS (cDag i * c j) := fun i j => .mul (rf true i) (rf false j)
    have cj : ∀ d (i : Nat), (ofMonomial 1 [.fermion d i] : Expr (Gen Nat) ℂ).conj = ofMonomial 1 [.fermion (!d) i] := by
      intro d i
      have g1 : ∀ d, (ofMonomial 1 [.fermion d i] : Expr (Gen Nat) ℂ).terms = [([.fermion d i], 1)] := fun d => ofMonomial_single_terms _
      have g3 : (ofMonomial 1 [.fermion d i] : Expr (Gen Nat) ℂ).conj = 0 + const 1 * ofLinFun (GenOps.conj (Gen.fermion d i)) := by
        rw [Expr.conj, g1]
        simp only [List.foldl_cons, List.foldl_nil, List.reverse_singleton, star_one, if_neg (one_ne_zero : (1 : ℂ) ≠ 0)]
        rfl
      have g5 := ofLinFun_conj (S := ℂ) (Gen.fermion d i)
      rw [g3, g5]
      apply Expr.ext
      rw [g1]
      simp [mul_def, add_def, Expr.const, mulLog, emits_single, Terms.storeAll, Terms.store, Terms.find?, Terms.emplace, Gen.dag]
    have k1 : ∀ i j : Nat, (cDag i * c j : Expr (Gen Nat) ℂ).conj = cDag j * c i := fun i j => by
      have := (eqOp_iff _ _).1 (C17_conj (1 : ℂ) (rf true i) (rf false j)).2.2.2.1
      rw [cj, cj] at this
      exact this
    have k2 := (eqOp_iff _ _).1 (C17_conj (1 : ℂ) (rp 0 2) (rp 2 0)).2.1
    rw [eqOp_iff, k2, k1, k1]
    exact (eqOp_iff _ _).1 (C08_add_comm_assoc (rp 2 0) (rp 0 2) (rp 0 2)).1
  · exact hom _ (by rw [h6]; decide)
  · intro x hx
    refine hom _ ?_
    simp only [multiExample, List.mem_cons, List.not_mem_nil, or_false] at hx
    rcases hx with rfl | rfl <;> decide
  · obtain ⟨hs', q1, q2, q3, q4⟩ := smallSpace (l := [ESpace.fermion 0, ESpace.boson 3 0]) (by
      intro es hes
      simp only [List.mem_cons, List.not_mem_nil, or_false] at hes
      rcases hes with rfl | rfl
      · exact wf_fermion 0
      · exact wf_boson 3 (by decide) 0) (by
      intro es hes
      simp only [List.mem_cons, List.not_mem_nil, or_false] at hes
      rcases hes with rfl | rfl
      · exact ⟨fun _ => ⟨0, rfl⟩, fun h => absurd h (by decide), fun h => absurd h (by decide)⟩
      · exact ⟨fun h => absurd h (by decide), fun _ => ⟨3, 0, rfl⟩, fun h => absurd h (by decide)⟩) (by decide +kernel)
    have facts : ((HilbertSpace.ofArgs [ESpace.fermion 0, ESpace.boson 3 0]).toOption.map fun hs : HilbertSpace Nat =>
      (decide (hs.isSparse = true) && decide (1 < hs.dim) && decide (hs.dim < 2 ^ 31) &&
        decide (∀ k ∈ ([.fermion 0, .boson 0] : List (Mode Nat)), hs.has k.space = true))) = some true := by decide +kernel
    rw [q1] at facts
    simp only [Except.toOption, Option.map_some, Option.some.injEq, Bool.and_eq_true, decide_eq_true_eq] at facts
    have r : ∀ g : Gen Nat, g.mode ∈ ([.fermion 0, .boson 0] : List (Mode Nat)) →
        Reachable (S := ℂ) (InSpace (fun n _ => n = 2) hs') (ofMonomial 1 [g]) := fun g hg => .ofMonomial _ _ (by
      simp only [List.mem_singleton, forall_eq]
      refine ⟨?_, facts.2 _ hg⟩
      cases g <;> simp_all [Allowed, Gen.mode])
    exact ⟨hs', q2, q3, facts.1.1.1, facts.1.1.2, facts.1.2, .mul (.mul (r (.fermion true 0) (by simp [Gen.mode])) (r (.fermion false 0) (by simp [Gen.mode])))
      (.add (r (.boson true 0) (by simp [Gen.mode])) (r (.boson false 0) (by simp [Gen.mode])))⟩

end LC
