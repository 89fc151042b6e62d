import Verif.Proof.SectorAction
import Verif.Props.MultiSector
import Verif.Props.LOperator
import Verif.Props.Charge
/-
C60, C61: operators acting between N-fermion sectors and multisectors through views.
-/
set_option linter.unusedSectionVars false
namespace LC
open HilbertSpace Expr
variable {ι S T R R' : Type _} [LinearOrder ι] [CommRing S] [DecidableEq S] [ConstScalar S] [ScalarLaws S] [IsDomain S] [CharZero S]
  [Star S] [Algebra ℝ S] [AddCommGroup T] [DecidableEq T] [Module S T] [RankingAlg R] [LawfulRanking R] [RankingAlg R'] [LawfulRanking R']

/-- The matrix of an expression between the basis states `t` and those of the list `l`, applied to the elements of a vector: the
`j`-th element is the amplitude of the `j`-th state of the list. -/
noncomputable def rowTimesVector (hs : HilbertSpace ι) (e : Expr (Gen ι) S) (t : Nat) (l : List Nat) (x : List T) : T :=
  (l.zipIdx.map fun p => opEl hs e t p.1 • x.getD p.2 0).sum

omit [DecidableEq S] [ConstScalar S] [ScalarLaws S] [IsDomain S] [CharZero S] [Star S] [DecidableEq T] in
theorem opApply_list (hs : HilbertSpace ι) (e : Expr (Gen ι) S) (ψ : Nat → T) (l : List Nat) (x : List T) (hl : l.Nodup)
    (hv : ∀ s ∈ l, ValidState hs s) (h0 : ∀ s, s ∉ l → ψ s = 0) (hx : ∀ i n, l[i]? = some n → ψ n = x.getD i 0) (t : Nat)
    (ht : ValidState hs t) : opApply hs e ψ t = rowTimesVector hs e t l x := by
  classical
  have h1 : rowTimesVector hs e t l x = (l.map fun s => opEl hs e t s • ψ s).sum := by
    unfold rowTimesVector
    have : l.map (fun s => opEl hs e t s • ψ s) = l.zipIdx.map fun p => opEl hs e t p.1 • ψ p.1 := by
      conv_lhs => rw [← List.zipIdx_map_fst 0 l, List.map_map]
      rfl
    rw [this]
    congr 1
    refine List.map_congr_left fun p hp => ?_
    rw [hx p.2 p.1 (List.mem_zipIdx_iff_getElem?.1 hp)]
  rw [h1, opApply, if_pos ht, ← List.sum_toFinset _ hl]
  symm
  refine Finset.sum_subset ?_ ?_
  · intro s hs1
    have hs2 := hv s (List.mem_toFinset.1 hs1)
    exact Finset.mem_filter.2 ⟨Finset.mem_range.2 hs2.1, hs2⟩
  · intro s _ hs1
    rw [h0 s (fun h2 => hs1 (List.mem_toFinset.2 h2)), smul_zero]

theorem updateAdd_sector {V : Type _} [StateVec V T] (v : SectorView V R) (n : Nat) (a : T) (v' : SectorView V R)
    (h : StateVec.updateAdd v n a = .ok v') : ∃ k, ViewOf.idx v n = .ok k := by
  simp only [StateVec.updateAdd] at h
  cases hi : v.mapIndex n with
  | error e => rw [hi] at h; cases h
  | ok k => exact ⟨k, hi⟩

theorem updateAdd_multi {V : Type _} [StateVec V T] (v : MultiView V R) (n : Nat) (a : T) (v' : MultiView V R)
    (h : StateVec.updateAdd v n a = .ok v') : ∃ k, ViewOf.idx v n = .ok k := by
  simp only [StateVec.updateAdd] at h
  cases hi : v.mapIndex n with
  | error e => rw [hi] at h; cases h
  | ok k => exact ⟨k, hi⟩

/-- The common part of C60 and C61. -/
theorem action_between_views {X Y : Type _} [StateVec X T] [ViewOf X (DenseSV T) T] [StateVec Y T] [ViewOf Y (DenseSV T) T]
    (hupd : ∀ (v : Y) n (a : T) v', StateVec.updateAdd v n a = .ok v' → ∃ k, ViewOf.idx v n = .ok k)
    {M : Nat → ι → Prop} (hM : HalfAlone M) (hs : HilbertSpace ι) (h : Constructed hs)
    (hpre : PredefinedSpaces hs) (e : Expr (Gen ι) S) (he : Reachable (InSpace M hs) e) (op : LOperator S)
    (hop : LOperator.make e hs = .ok op) (l l' : List Nat) (hl : l.Nodup) (hv : ∀ s ∈ l, ValidState hs s) (hv' : ∀ s ∈ l', ValidState hs s)
    (hch : ∀ k ∈ l, ∀ p ∈ e.terms, ∀ t, ValidState hs t → matEl hs p.1 t k ≠ 0 → t ∈ l') (src dst : DenseSV T) (vs : X) (vd : Y)
    (a2 : LawfulSV.inv vs) (a3 : ∀ n, n ∈ LawfulSV.dom vs ↔ n ∈ l) (a4 : ∀ i n, l[i]? = some n → LawfulSV.amp vs n = src.data.getD i 0)
    (b1 : ViewOf.base vd = dst) (b2 : LawfulSV.inv vd) (b3 : ∀ n, n ∈ LawfulSV.dom vd ↔ n ∈ l')
    (b4 : ∀ i n, l'[i]? = some n → ViewOf.idx vd n = .ok i) :
    ∃ vd', op.applyTo vs vd = .ok vd' ∧ (ViewOf.base vd').data.length = dst.data.length ∧
      ∀ i t, l'[i]? = some t → (ViewOf.base vd').data.getD i 0 = rowTimesVector hs e t l src.data := by
  obtain ⟨op', hop', hact⟩ := C38_operator_action (V := X) (W := Y) hM h hpre e he
  rw [hop] at hop'
  cases hop'
  have hvis : ∀ k ∈ LawfulSV.visited vs, k ∈ l := fun k hk => (a3 k).1 (by by_contra hn; exact hk (LawfulSV.amp_out vs k hn))
  obtain ⟨vd', c1, c2, c3, c4⟩ := hact vs vd a2 b2 (fun k hk => hv k (hvis k hk))
    (fun k hk p hp t ht hne => (b3 t).2 (hch k (hvis k hk) p hp t ht hne))
  obtain ⟨w, rfl, hw⟩ := applyTo_put hupd op vs vd vd' c1
  refine ⟨_, c1, by rw [ViewOf.base_put, hw, b1], fun i t hi => ?_⟩
  have htl : t ∈ l' := List.mem_of_getElem? hi
  rw [← view_amp_eq _ c2 (by rw [c3]; exact (b3 t).2 htl) (by rw [ViewOf.idx_put]; exact b4 i t hi), c4]
  refine opApply_list hs e _ l _ hl hv (fun s hs1 => LawfulSV.amp_out vs s fun h2 => hs1 ((a3 s).1 h2)) a4 t (hv' t htl)

theorem positions_of_map {f : Nat → Except SVError Nat} {l : List Nat} (h : l.map f = (List.range l.length).map .ok) (i n : Nat)
    (hi : l[i]? = some n) : f n = .ok i := by
  have h1 := congrArg (fun m => m[i]?) h
  have hlt := (List.getElem?_eq_some_iff.1 hi).1
  simp only [List.getElem?_map, hi, List.getElem?_range hlt, Option.map_some, Option.some.injEq] at h1
  exact h1

/-- **C60** Let every term of an expression change the number of fermions by `N' - N`. Then the operator can be applied through views of the
`N`-fermion and the `N'`-fermion sectors: no position outside the vectors is accessed, and the result is the matrix of the expression between
the two sectors, whose rows and columns are ordered as the lists returned by `n_fermion_sector_basis_states`, times the source vector. The
ranking algorithms of the two views may differ. -/
theorem C60_sector_action_partial {M : Nat → ι → Prop} (hM : HalfAlone M) (hs : HilbertSpace ι) (h : Constructed hs) (hpre : PredefinedSpaces hs)
    (hid : DocumentedIds hs) (hsp : hs.isSparse = false) (hbits : hs.totalNBits ≠ 0)
    (hsup : ∀ p : SectorParams, p.M = (fermionModes hs).length → LawfulRanking.supports R p)
    (hsup' : ∀ p : SectorParams, p.M = (fermionModes hs).length → LawfulRanking.supports R' p)
    (N N' : Nat) (hN : N ≤ (fermionModes hs).length) (hN' : N' ≤ (fermionModes hs).length)
    (hex : (fermionModes hs).length ≤ 62 ∨ (N ≤ 28 ∨ 35 ≤ N) ∧ (N' ≤ 28 ∨ 35 ≤ N'))
    (e : Expr (Gen ι) S) (he : Reachable (InSpace M hs) e) (hch : (countFermions (fermionModes hs)).Homogeneous ((N' : Int) - N) e) :
    ∃ op l l', LOperator.make e hs = .ok op ∧ sectorBasisStates hs N = .ok l ∧ sectorBasisStates hs N' = .ok l' ∧
      ∀ src dst : DenseSV T, src.data.length = l.length → dst.data.length = l'.length →
        ∃ (vs : SectorView (DenseSV T) R) (vd vd' : SectorView (DenseSV T) R'),
          SectorView.make src hs N = .ok vs ∧ SectorView.make dst hs N' = .ok vd ∧ op.applyTo vs vd = .ok vd' ∧
          vd'.sv.data.length = l'.length ∧
          ∀ i t, l'[i]? = some t → vd'.sv.data.getD i 0 = rowTimesVector hs e t l src.data := by
  obtain ⟨op, hop, -⟩ := C38_operator_action (V := DenseSV S) (W := DenseSV S) hM h hpre e he
  have hex1 : (fermionModes hs).length ≤ 62 ∨ N ≤ 28 ∨ 35 ≤ N := hex.imp_right And.left
  have hex2 : (fermionModes hs).length ≤ 62 ∨ N' ≤ 28 ∨ 35 ≤ N' := hex.imp_right And.right
  obtain ⟨l, e1, e2, e3, -, -⟩ := C51_sector_partial (V := DenseSV T) (R := R) hs h hpre hid hsp hbits N hN hex1 hsup
  obtain ⟨l', f1, f2, f3, -, f5⟩ := C51_sector_partial (V := DenseSV T) (R := R') hs h hpre hid hsp hbits N' hN' hex2 hsup'
  refine ⟨op, l, l', hop, e1, f1, fun src dst hsl hdl => ?_⟩
  obtain ⟨vs, a1, -, a2, a3, a4⟩ := C51_view_partial (R := R) hs h hpre hid hsp hbits N hN hex1 hsup l e1 src trivial
    (fun i hi => by show i < src.data.length; omega)
  obtain ⟨vd, b1, -, b2, b3, -⟩ := C51_view_partial (R := R') hs h hpre hid hsp hbits N' hN' hex2 hsup' l' f1 dst trivial
    (fun i hi => by show i < dst.data.length; omega)
  obtain ⟨vd2, g1, g2⟩ := f5 dst
  rw [b1] at g1
  cases g1
  have hnd := (fermion_block h hpre hid).2.2.2.1
  have hbase : vd.sv = dst := by
    unfold SectorView.make at b1
    split at b1
    · cases b1
    · split at b1
      · cases b1
      · cases b1; rfl
  obtain ⟨vd', c1, c2, c3⟩ := action_between_views (X := SectorView (DenseSV T) R) (Y := SectorView (DenseSV T) R') updateAdd_sector hM hs h hpre
    e he op hop l l' e2 (fun s hs1 => ((e3 s).1 hs1).1) (fun s hs1 => ((f3 s).1 hs1).1)
    (by
      intro k hk p hp t ht hne
      refine (f3 t).2 ⟨ht, ?_⟩
      have h1 := matEl_charge hs p.1 t k _ hnd hne
      rw [((e3 k).1 hk).2, hch p hp] at h1
      omega) src dst vs vd a2 (fun n => (a3 n).trans (e3 n).symm) a4 hbase b2 (fun n => (b3 n).trans (f3 n).symm)
    (positions_of_map g2)
  exact ⟨vs, vd, vd', a1, b1, c1, c2.trans hdl, c3⟩

/-- **C61** The same for multisectors over the same sets of modes: if every term of an expression changes the number of fermions in each set of
modes by the difference of the particle numbers prescribed for the two multisectors, the operator can be applied through views of the two. -/
theorem C61_multisector_action_partial {M : Nat → ι → Prop} (hM : HalfAlone M) (hs : HilbertSpace ι) (h : Constructed hs)
    (hpre : PredefinedSpaces hs) (hsp : hs.isSparse = false) (hbits : hs.totalNBits ≠ 0)
    (hsup : ∀ p : SectorParams, p.M ≤ 32 → LawfulRanking.supports R p) (hsup' : ∀ p : SectorParams, p.M ≤ 32 → LawfulRanking.supports R' p)
    (d d' : List (SectorDesc ι)) (hset : SetIndices d) (hp : ProperSectors hs d) (hlow : LowModes hs d)
    (hN : ∀ x ∈ d, x.N ≤ x.indices.length) (hN' : ∀ x ∈ d', x.N ≤ x.indices.length)
    (e : Expr (Gen ι) S) (he : Reachable (InSpace M hs) e)
    (hch : List.Forall₂ (fun x x' => x.indices = x'.indices ∧ (countFermions x.indices).Homogeneous ((x'.N : Int) - x.N) e) d d') :
    ∃ op l l', LOperator.make e hs = .ok op ∧ multiBasisStates hs d = .ok l ∧ multiBasisStates hs d' = .ok l' ∧
      ∀ src dst : DenseSV T, src.data.length = l.length → dst.data.length = l'.length →
        ∃ (vs : MultiView (DenseSV T) R) (vd vd' : MultiView (DenseSV T) R'),
          MultiView.make src hs d = .ok vs ∧ MultiView.make dst hs d' = .ok vd ∧ op.applyTo vs vd = .ok vd' ∧
          vd'.sv.data.length = l'.length ∧
          ∀ i t, l'[i]? = some t → vd'.sv.data.getD i 0 = rowTimesVector hs e t l src.data := by
  obtain ⟨hset', hp', hlow'⟩ : SetIndices d' ∧ ProperSectors hs d' ∧ LowModes hs d' := by
    have hmem : ∀ x' ∈ d', ∃ x ∈ d, x.indices = x'.indices := by
      intro x' hx'
      clear hset hp hlow hN hN'
      induction hch with
      | nil => cases hx'
      | cons h1 _ ih =>
        rcases List.mem_cons.1 hx' with rfl | h2
        · exact ⟨_, List.mem_cons_self, h1.1⟩
        · obtain ⟨x, hx, hxe⟩ := ih h2; exact ⟨x, List.mem_cons_of_mem _ hx, hxe⟩
    refine ⟨fun x' hx' => ?_, ⟨fun x' hx' => ?_, ?_⟩, fun x' hx' => ?_⟩
    · obtain ⟨x, hx, hxe⟩ := hmem x' hx'; rw [← hxe]; exact hset x hx
    · obtain ⟨x, hx, hxe⟩ := hmem x' hx'; rw [← hxe]; exact hp.inSpace x hx
    · have hm : d.map SectorDesc.indices = d'.map SectorDesc.indices := by
        clear hset hp hlow hN hN' hmem
        induction hch with
        | nil => rfl
        | cons h1 _ ih => rw [List.map_cons, List.map_cons, h1.1, ih]
      have h1 := hp.disjoint
      rw [← List.pairwise_map (f := SectorDesc.indices) (R := fun a b : List ι => ∀ i ∈ a, i ∉ b), hm, List.pairwise_map] at h1
      exact h1
    · obtain ⟨x, hx, hxe⟩ := hmem x' hx'; rw [← hxe]; exact hlow x hx
  obtain ⟨op, hop, -⟩ := C38_operator_action (V := DenseSV S) (W := DenseSV S) hM h hpre e he
  obtain ⟨l, e1, e2, e3, -, -⟩ := C52_multisector_partial (V := DenseSV T) (R := R) hs h hpre hsp hbits d hset hp hlow hN hsup
  obtain ⟨l', f1, f2, f3, -, f5⟩ := C52_multisector_partial (V := DenseSV T) (R := R') hs h hpre hsp hbits d' hset' hp' hlow' hN' hsup'
  refine ⟨op, l, l', hop, e1, f1, fun src dst hsl hdl => ?_⟩
  obtain ⟨vs, a1, -, a2, a3, a4⟩ := C52_view_partial (R := R) hs h hpre hsp hbits d hset hp hlow hN hsup l e1 src trivial
    (fun i hi => by show i < src.data.length; omega)
  obtain ⟨vd, b1, -, b2, b3, -⟩ := C52_view_partial (R := R') hs h hpre hsp hbits d' hset' hp' hlow' hN' hsup' l' f1 dst trivial
    (fun i hi => by show i < dst.data.length; omega)
  obtain ⟨vd2, g1, g2⟩ := f5 dst
  rw [b1] at g1
  cases g1
  have hbase : vd.sv = dst := by
    unfold MultiView.make at b1
    split at b1
    · cases b1
    · split at b1
      · cases b1
      · cases b1; rfl
  obtain ⟨vd', c1, c2, c3⟩ := action_between_views (X := MultiView (DenseSV T) R) (Y := MultiView (DenseSV T) R') updateAdd_multi hM hs h hpre
    e he op hop l l' e2 (fun s hs1 => ((e3 s).1 hs1).1) (fun s hs1 => ((f3 s).1 hs1).1)
    (by
      intro k hk p hp1 t ht hne
      refine (f3 t).2 ⟨ht, fun x' hx' => ?_⟩
      obtain ⟨x, hx, hxe, hxc⟩ : ∃ x ∈ d, x.indices = x'.indices ∧ (countFermions x.indices).mon p.1 = (x'.N : Int) - x.N := by
        clear hset hp hlow hN hN' hset' hp' hlow' e1 e3 f1 f3 f5 a1 a3 b1 b3
        induction hch with
        | nil => cases hx'
        | cons h1 _ ih =>
          rcases List.mem_cons.1 hx' with rfl | h2
          · exact ⟨_, List.mem_cons_self, h1.1, h1.2 p hp1⟩
          · obtain ⟨x, hx, hxe⟩ := ih h2; exact ⟨x, List.mem_cons_of_mem _ hx, hxe⟩
      have h1 := matEl_charge hs p.1 t k x.indices ((hset x hx).imp fun hab => ne_of_lt hab) hne
      rw [((e3 k).1 hk).2 x hx, hxc] at h1
      rw [← hxe]
      omega) src dst vs vd a2 (fun n => (a3 n).trans (e3 n).symm) a4 hbase b2 (fun n => (b3 n).trans (f3 n).symm)
    (positions_of_map g2)
  exact ⟨vs, vd, vd', a1, b1, c1, c2.trans hdl, c3⟩

/-! ### Examples -/
open Factory

theorem sector_generators : ∃ hs, HilbertSpace.ofArgs sectorExample = .ok hs ∧ Constructed hs ∧ PredefinedSpaces hs ∧ DocumentedIds hs ∧
    hs.isSparse = false ∧ hs.totalNBits ≠ 0 ∧ fermionModes hs = [0, 1, 2] ∧
    ∀ k ∈ ([.fermion 0, .fermion 1, .fermion 2, .boson 1, .spin 2 0] : List (Mode Nat)), hs.has k.space = true := by
  obtain ⟨hs, hof, h1, h2, h3⟩ := sectorExample_space
  have facts : ((HilbertSpace.ofArgs sectorExample).toOption.map fun hs : HilbertSpace Nat =>
      (decide (hs.isSparse = false) && decide (hs.totalNBits ≠ 0) &&
        decide (∀ k ∈ ([.fermion 0, .fermion 1, .fermion 2, .boson 1, .spin 2 0] : List (Mode Nat)), hs.has k.space = true))) = some true := by
    decide +kernel
  rw [hof] at facts
  simp only [Except.toOption, Option.map_some, Option.some.injEq, Bool.and_eq_true, decide_eq_true_eq] at facts
  exact ⟨hs, hof, h1, h2, by unfold DocumentedIds; rw [h3]; decide, facts.1.1, facts.1.2, by unfold fermionModes; rw [h3]; decide, facts.2⟩

open scoped Classical in
/-- The hypotheses of C60 are met: a space with three fermionic modes, a boson and a spin, `N = N' = 2`, and a Hamiltonian with complex coefficients that
moves fermions between the modes and couples them to the boson and the spin. -/
example : ∃ hs : HilbertSpace Nat, Constructed hs ∧ PredefinedSpaces hs ∧ DocumentedIds hs ∧ hs.isSparse = false ∧ hs.totalNBits ≠ 0 ∧
    2 ≤ (fermionModes hs).length ∧ (fermionModes hs).length ≤ 62 ∧ HalfAlone (fun n (_ : Nat) => n = 2) ∧
    ∃ e : Expr (Gen Nat) ℂ, e = Complex.I • (cDag 0 * c 2) * spin 2 .plus 0 + cDag 1 * aDag 1 * c 1 ∧
      Reachable (InSpace (fun n _ => n = 2) hs) e ∧ (countFermions (fermionModes hs)).Homogeneous (((2 : Nat) : Int) - (2 : Nat)) e ∧
      (∀ p, LawfulRanking.supports CombRanking p) := by
  obtain ⟨hs, hof, h1, h2, h3, h4, h5, h6, h7⟩ := sector_generators
  have hM : HalfAlone (fun n (_ : Nat) => n = 2) := fun _ n _ h => h
  have ok : ∀ g : Gen Nat, g.mode ∈ ([.fermion 0, .fermion 1, .fermion 2, .boson 1, .spin 2 0] : List (Mode Nat)) →
      InSpace (fun n _ => n = 2) hs g := by
    intro g hg
    refine ⟨?_, h7 _ hg⟩
    cases g <;> simp_all [Allowed, Gen.mode]
  have one : ∀ g : Gen Nat, g.mode ∈ ([.fermion 0, .fermion 1, .fermion 2, .boson 1, .spin 2 0] : List (Mode Nat)) →
      Reachable (S := ℂ) (InSpace (fun n _ => n = 2) hs) (ofMonomial 1 [g]) := fun g hg => .ofMonomial _ _ (by simpa using ok g hg)
  have hom : ∀ g : Gen Nat, g.mode ∈ ([.fermion 0, .fermion 1, .fermion 2, .boson 1, .spin 2 0] : List (Mode Nat)) →
      ∀ d : Int, (countFermions (fermionModes hs)).mon [g] = d → (countFermions (fermionModes hs)).Homogeneous d (ofMonomial (1 : ℂ) [g]) := by
    intro g hg d hd
    rw [← hd]
    exact C62_monomial hM _ 1 [g] (by simpa using (ok g hg).1)
  have weak : ∀ {e : Expr (Gen Nat) ℂ}, Reachable (InSpace (fun n _ => n = 2) hs) e → Reachable (Allowed fun n _ => n = 2) e :=
    fun he => he.mono fun g hg => hg.1
  refine ⟨hs, h1, h2, h3, h4, h5, by simp [h6], by simp [h6], hM, _, rfl, ?_, ?_, fun _ => trivial⟩
  · exact .add (.mul (.smulPrefix _ (.mul (one _ (by simp [Gen.mode])) (one _ (by simp [Gen.mode])))) (one _ (by simp [Gen.mode])))
      (.mul (.mul (one _ (by simp [Gen.mode])) (one _ (by simp [Gen.mode]))) (one _ (by simp [Gen.mode])))
  · have r1 : Reachable (S := ℂ) (Allowed fun n (_ : Nat) => n = 2) (cDag 0) := weak (one (.fermion true 0) (by simp [Gen.mode]))
    have r2 : Reachable (S := ℂ) (Allowed fun n (_ : Nat) => n = 2) (c 2) := weak (one (.fermion false 2) (by simp [Gen.mode]))
    have r3 : Reachable (S := ℂ) (Allowed fun n (_ : Nat) => n = 2) (spin 2 .plus 0) := weak (one (.spin 2 .plus 0) (by simp [Gen.mode]))
    have r4 : Reachable (S := ℂ) (Allowed fun n (_ : Nat) => n = 2) (cDag 1) := weak (one (.fermion true 1) (by simp [Gen.mode]))
    have r5 : Reachable (S := ℂ) (Allowed fun n (_ : Nat) => n = 2) (aDag 1) := weak (one (.boson true 1) (by simp [Gen.mode]))
    have r6 : Reachable (S := ℂ) (Allowed fun n (_ : Nat) => n = 2) (c 1) := weak (one (.fermion false 1) (by simp [Gen.mode]))
    have q1 := hom (.fermion true 0) (by simp [Gen.mode]) 1 (by simp [Charge.mon, Charge.gen, countFermions, h6])
    have q2 := hom (.fermion false 2) (by simp [Gen.mode]) (-1) (by simp [Charge.mon, Charge.gen, countFermions, h6])
    have q3 := hom (.spin 2 .plus 0) (by simp [Gen.mode]) 0 (by simp [Charge.mon, Charge.gen, countFermions, h6])
    have q4 := hom (.fermion true 1) (by simp [Gen.mode]) 1 (by simp [Charge.mon, Charge.gen, countFermions, h6])
    have q5 := hom (.boson true 1) (by simp [Gen.mode]) 0 (by simp [Charge.mon, Charge.gen, countFermions, h6])
    have q6 := hom (.fermion false 1) (by simp [Gen.mode]) (-1) (by simp [Charge.mon, Charge.gen, countFermions, h6])
    have s1 := (C62_grading hM _ _ _ r1 r2 _ _ 0 q1).1 q2
    have s2 := (C62_grading hM _ _ _ (.mul r1 r2) r2 _ (-1) Complex.I s1).2.2.2.1
    have s3 := (C62_grading hM _ _ _ (.smulPrefix Complex.I (.mul r1 r2)) r3 _ _ 0 s2).1 q3
    have t1 := (C62_grading hM _ _ _ r4 r5 _ _ 0 q4).1 q5
    have t2 := (C62_grading hM _ _ _ (.mul r4 r5) r6 _ _ 0 t1).1 q6
    exact ((C62_grading hM _ _ _ (.mul (.smulPrefix Complex.I (.mul r1 r2)) r3) (.mul (.mul r4 r5) r6) _ 0 0 s3).2.1 t2).1

open scoped Classical in
/-- The hypotheses of C61 are met by the multisector `multiExample` (one fermion in the modes 0 and 2, none in mode 1) of the same space and a term that moves
a fermion from mode 2 to mode 0. -/
example : ∃ hs : HilbertSpace Nat, Constructed hs ∧ PredefinedSpaces hs ∧ hs.isSparse = false ∧ hs.totalNBits ≠ 0 ∧ SetIndices multiExample ∧
    ProperSectors hs multiExample ∧ LowModes hs multiExample ∧ (∀ x ∈ multiExample, x.N ≤ x.indices.length) ∧
    ∃ e : Expr (Gen Nat) ℂ, e = cDag 0 * c 2 ∧ Reachable (InSpace (fun n _ => n = 2) hs) e ∧
      List.Forall₂ (fun x x' => x.indices = x'.indices ∧ (countFermions x.indices).Homogeneous ((x'.N : Int) - x.N) e) multiExample multiExample := by
  obtain ⟨hs, hof, h1, h2, h3, h4, h5, h6, h7⟩ := sector_generators
  have hM : HalfAlone (fun n (_ : Nat) => n = 2) := fun _ n _ h => h
  have facts : ((HilbertSpace.ofArgs sectorExample).toOption.map fun hs : HilbertSpace Nat =>
      (decide (∀ d ∈ multiExample, ∀ i ∈ d.indices, hs.has (ESpace.fermion i) = true) &&
        decide (∀ d ∈ multiExample, ∀ i ∈ d.indices, ((hs.bitRange (ESpace.fermion i)).toOption.map fun r => decide (r.first < 32)) = some true))) =
        some true := by decide +kernel
  rw [hof] at facts
  simp only [Except.toOption, Option.map_some, Option.some.injEq, Bool.and_eq_true, decide_eq_true_eq] at facts
  obtain ⟨f3, f4⟩ := facts
  have a1 : Allowed (ι := Nat) (fun n _ => n = 2) (.fermion true 0) := trivial
  have a2 : Allowed (ι := Nat) (fun n _ => n = 2) (.fermion false 2) := trivial
  have hom : ∀ is : List Nat, (countFermions is).Homogeneous ((countFermions is).mon [.fermion true 0] + (countFermions is).mon [.fermion false 2])
      (cDag 0 * c 2 : Expr (Gen Nat) ℂ) := fun is =>
    (C62_grading hM _ _ _ (.ofMonomial 1 _ (by simpa using a1)) (.ofMonomial 1 _ (by simpa using a2)) _ _ 0 (C62_monomial hM _ 1 _ (by simpa using a1))).1
      (C62_monomial hM _ 1 _ (by simpa using a2))
  refine ⟨hs, h1, h2, h4, h5, by unfold SetIndices; decide, ⟨f3, by decide⟩, ?_, by decide, _, rfl, ?_, ?_⟩
  · intro d hd i hi r hr
    have := of_decide_eq_true f4 d hd i hi
    rw [hr] at this
    simpa using this
  · exact .mul (.ofMonomial _ _ (by simpa using ⟨a1, h7 (.fermion 0) (by simp)⟩)) (.ofMonomial _ _ (by simpa using ⟨a2, h7 (.fermion 2) (by simp)⟩))
  · refine .cons ⟨rfl, ?_⟩ (.cons ⟨rfl, ?_⟩ .nil)
    · have := hom [0, 2]
      simpa [Charge.mon, Charge.gen, countFermions] using this
    · have := hom [1]
      simpa [Charge.mon, Charge.gen, countFermions] using this

end LC
