import Verif.Proof.ViewCopy
import Verif.Props.MultiSector
/-!
C86: copies of multisector views. Programs (`ViewOp`, `runViews`) are in Model/ViewCopy.lean, `origin`, `constructedAt` and `Moved` in
Spec/ViewCopy.lean.
-/
set_option linter.unusedSectionVars false
set_option linter.unusedSimpArgs false
namespace LC
variable {ι : Type _} [LinearOrder ι] {V R : Type _}

/-- What the constructor of a view for proper sectors makes. -/
theorem made_view [RankingAlg R] {hs : HilbertSpace ι} (h : Constructed hs) (hpre : PredefinedSpaces hs)
    (hsp : hs.isSparse = false) (hbits : hs.totalNBits ≠ 0) {l : List (SectorDesc ι)} (hset : SetIndices l) (hp : ProperSectors hs l)
    (hlow : LowModes hs l) (hN : ∀ d ∈ l, d.N ≤ d.indices.length) {sv : V} {v : MultiView V R} (hv : MultiView.make sv hs l = .ok v) :
    (∀ p ∈ v.params, p.Good) ∧ DisjointMasks v.params ∧ (∀ s ∈ lexList (v.params.map sectorWords), s < W64) ∧
    multiSizeOf v.params < 2 ^ 31 ∧ v.unranking = MultiGen.make v.params ∧ ¬ (v.params.length = 0 ∧ v.mNon = 0) ∧
    ∃ st, multiBasisStates hs l = .ok st ∧ multiStates (MultiGen.make v.params) v.mNon v.nonMask = some st := by
  obtain ⟨ps, T, nm, st, a1, a2, a3, a4, a5, a6, a7, a8, a9, a10, -, -, a13, a14, a15⟩ := multi_core_all h hpre hsp hset hp hlow hN
  unfold MultiView.make at hv
  rw [a3] at hv
  simp only [hsp, Bool.false_eq_true, if_false, a6] at hv
  cases hv
  refine ⟨a2, a13, a14, a15, rfl, ?_, st, ?_, a8⟩
  · rintro ⟨c1, c2⟩
    have c1 : ps.length = 0 := c1
    have : (l.map fun d => d.indices.length).sum = 0 := by
      rw [← (multiSizeOf_paramsOf hs l hN).2, ← a1, List.length_eq_zero_iff.1 c1]; rfl
    have c2 : bitCount nm = 0 := c2
    omega
  · unfold multiBasisStates
    rw [hsp, a3]
    simp only [Bool.false_eq_true, if_false, a6, a8]
    rw [if_neg (by omega)]

/-- **C86** (partial, see F35: the conditions on the original cannot be dropped) In every program without undefined behaviour: a view
that has been obtained by any sequence of copies and moves from a view `r` made by the constructor, and has not been moved from, visits
exactly the states of the multisector, in the order of `n_fermion_multisector_basis_states`, provided that `r` itself has neither been
destroyed nor moved from. Earlier iterations (of the view, the original or other copies, finished or left by an exception) do not matter. -/
theorem C86_foreach_of_copies_partial [RankingAlg R] (hs : HilbertSpace ι) (h : Constructed hs) (hpre : PredefinedSpaces hs)
    (hsp : hs.isSparse = false) (hbits : hs.totalNBits ≠ 0) (l : List (SectorDesc ι)) (hset : SetIndices l) (hp : ProperSectors hs l)
    (hlow : LowModes hs l) (hN : ∀ d ∈ l, d.N ≤ d.indices.length) (sv : V) (v : MultiView V R) (hv : MultiView.make sv hs l = .ok v)
    (prog : List (ViewOp V R)) (mem : ViewMem V R) (hrun : runViews prog = some mem) (r : Nat) (hr : ViewOp.constructedAt prog r = some v)
    (a : Nat) (o : ViewObj V R) (ha : mem[a]? = some (some o)) (hor : ViewOp.origin prog a = some r) (hma : ¬ ViewOp.Moved prog a)
    (hdr : .destroy r ∉ prog) (hmr : ¬ ViewOp.Moved prog r) :
    ∃ st, multiBasisStates hs l = .ok st ∧ visitAt mem a = some st := by
  obtain ⟨b1, b2, b3, b4, b5, b6, st, b7, b8⟩ := made_view h hpre hsp hbits hset hp hlow hN hv
  have T := ViewOp.tracks b1 b2 b3 b4 (by rw [b5]; exact MultiGen.ready_make b1 b4) prog hrun hr
  obtain ⟨src, hsrc⟩ := T.alive hdr
  have hS := T.same a o ha hor hma
  have hSr := T.same r src hsrc T.origin hmr
  refine ⟨st, b7, ?_⟩
  unfold visitAt ViewObj.gen
  rw [ha]
  simp only
  rw [T.ref a o ha hor, hsrc]
  simp only
  rw [hS.params, hS.mNon, hS.nonMask, if_neg b6, hSr.params, ← b8]
  have hready : MultiGen.Ready v.params { o.view.unranking with params := v.params } := ⟨hS.ready.total, hS.ready.len, hS.ready.plen, hS.ready.gens⟩
  unfold multiStates
  have hsz : multiSizeOf v.params < W64 := b4.trans (by decide)
  rw [MultiGen.drain_after b1 b2 b3 hsz (multiSizeOf v.params) 0 _ W64 (MultiGen.ready_after b1 hready rfl) (by omega) hsz.le,
    MultiGen.drain_after b1 b2 b3 hsz (multiSizeOf v.params) 0 _ W64 (MultiGen.make_after b1 b4) (by omega) hsz.le]

/-- **C86** `map_index` (and with it `get_element` and `update_add_element`) of every copy that has not been moved from agrees with the original
as constructed, whatever has happened to the original. -/
theorem C86_map_index_of_copies [RankingAlg R] (hs : HilbertSpace ι) (h : Constructed hs) (hpre : PredefinedSpaces hs)
    (hsp : hs.isSparse = false) (hbits : hs.totalNBits ≠ 0) (l : List (SectorDesc ι)) (hset : SetIndices l) (hp : ProperSectors hs l)
    (hlow : LowModes hs l) (hN : ∀ d ∈ l, d.N ≤ d.indices.length) (sv : V) (v : MultiView V R) (hv : MultiView.make sv hs l = .ok v)
    (prog : List (ViewOp V R)) (mem : ViewMem V R) (hrun : runViews prog = some mem) (r : Nat) (hr : ViewOp.constructedAt prog r = some v)
    (a : Nat) (o : ViewObj V R) (ha : mem[a]? = some (some o)) (hor : ViewOp.origin prog a = some r) (hma : ¬ ViewOp.Moved prog a)
    (index : Nat) : mapIndexAt mem a index = v.mapIndex index := by
  obtain ⟨b1, b2, b3, b4, b5, -⟩ := made_view h hpre hsp hbits hset hp hlow hN hv
  have T := ViewOp.tracks b1 b2 b3 b4 (by rw [b5]; exact MultiGen.ready_make b1 b4) prog hrun hr
  have hS := T.same a o ha hor hma
  unfold mapIndexAt MultiView.mapIndex
  rw [ha]
  simp only [hS.params, hS.ranking, hS.strides, hS.mNon, hS.nonMask]

/-- The hypotheses are met: a view of `multiExample` is constructed, copied, the copy is used and copied twice, and one of the copies is
destroyed. The last copy is the view 3. -/
example : ∃ (hs : HilbertSpace Nat) (v : MultiView (DenseSV Int) CombRanking) (mem : ViewMem (DenseSV Int) CombRanking) (o : _),
    Constructed hs ∧ PredefinedSpaces hs ∧ hs.isSparse = false ∧ hs.totalNBits ≠ 0 ∧ SetIndices multiExample ∧ ProperSectors hs multiExample ∧
    LowModes hs multiExample ∧ (∀ d ∈ multiExample, d.N ≤ d.indices.length) ∧ MultiView.make ⟨[1, 2, 3, 4, 5, 6, 7, 8]⟩ hs multiExample = .ok v ∧
    v.params ≠ [] ∧
    let prog : List (ViewOp (DenseSV Int) CombRanking) := [.destroy 1, .copy 2, .copy 1, .iterate 1 3, .copy 0, .construct v]
    runViews prog = some mem ∧ ViewOp.constructedAt prog 0 = some v ∧ mem[3]? = some (some o) ∧ ViewOp.origin prog 3 = some 0 ∧
    ¬ ViewOp.Moved prog 3 ∧ .destroy 0 ∉ prog ∧ ¬ ViewOp.Moved prog 0 := by
  obtain ⟨hs, hof, h1, h2, h3⟩ := sectorExample_space
  have facts : ((HilbertSpace.ofArgs sectorExample).toOption.map fun hs : HilbertSpace Nat =>
      (decide (hs.isSparse = false) && decide (hs.totalNBits ≠ 0) && decide (∀ d ∈ multiExample, ∀ i ∈ d.indices, hs.has (ESpace.fermion i) = true) &&
        decide (∀ d ∈ multiExample, ∀ i ∈ d.indices, ((hs.bitRange (ESpace.fermion i)).toOption.map fun r => decide (r.first < 32)) = some true) &&
        ((MultiView.make (R := CombRanking) (⟨[1, 2, 3, 4, 5, 6, 7, 8]⟩ : DenseSV Int) hs multiExample).toOption.map fun v => v.params.length == 2 &&
          ((ViewObj.iterate [some ⟨v, 0⟩, some ⟨v, 0⟩] 3 ⟨v, 0⟩).map fun o => o.ref == 0) == some true) == some true)) = some true := by decide +kernel
  rw [hof] at facts
  simp only [Except.toOption, Option.map_some, Option.some.injEq, Bool.and_eq_true, decide_eq_true_eq] at facts
  obtain ⟨⟨⟨⟨f1, f2⟩, f3⟩, f4⟩, f5⟩ := facts
  cases hv : MultiView.make (R := CombRanking) (⟨[1, 2, 3, 4, 5, 6, 7, 8]⟩ : DenseSV Int) hs multiExample with
  | error e => rw [hv] at f5; simp at f5
  | ok v =>
    rw [hv] at f5
    simp only [Option.map_some, beq_iff_eq, Option.some.injEq, Bool.and_eq_true] at f5
    obtain ⟨f5, f6⟩ := f5
    cases hit : ViewObj.iterate [some ⟨v, 0⟩, some ⟨v, 0⟩] 3 ⟨v, 0⟩ with
    | none => rw [hit] at f6; simp at f6
    | some o =>
      refine ⟨hs, v, [some ⟨v, 0⟩, none, some o, some o], o, h1, h2, f1, f2, by unfold SetIndices; decide, ⟨f3, by decide⟩, ?_, by decide, hv, ?_, ?_⟩
      · intro d hd i hi r hr
        have := of_decide_eq_true f4 d hd i hi
        rw [hr] at this
        simpa using this
      · intro hc; rw [hc] at f5; simp at f5
      · refine ⟨?_, rfl, rfl, rfl, ?_, ?_, ?_⟩
        · simp [runViews, ViewOp.step, hit]
        · simp [ViewOp.Moved, ViewOp.count]
        · simp
        · simp [ViewOp.Moved, ViewOp.count]

/-- **C86, F35** After the original has been destroyed, `foreach` of a copy reads a vector that does not exist any more (undefined
behaviour). Such a program arises when a function returns a copy of a local view, or when views are stored in a container. -/
theorem C86_F35_original_destroyed (v : MultiView V R) (hv : v.params ≠ []) :
    ∃ (mem : ViewMem V R) (o : ViewObj V R), runViews [.destroy 0, .copy 0, .construct v] = some mem ∧ mem[1]? = some (some o) ∧
      o.view = v ∧ visitAt mem 1 = none := by
  refine ⟨[none, some ⟨v, 0⟩], ⟨v, 0⟩, rfl, rfl, rfl, ?_⟩
  simp [visitAt, hv, ViewObj.gen]

/-- **C86, F35** A view made by moving another one cannot be iterated even while the other one exists: the vector it refers to is empty
(`sector_params[0]` is undefined behaviour). -/
theorem C86_F35_moved [RankingAlg R] (hs : HilbertSpace ι) (h : Constructed hs) (hpre : PredefinedSpaces hs)
    (hsp : hs.isSparse = false) (hbits : hs.totalNBits ≠ 0) (l : List (SectorDesc ι)) (hset : SetIndices l) (hp : ProperSectors hs l)
    (hlow : LowModes hs l) (hN : ∀ d ∈ l, d.N ≤ d.indices.length) (sv : V) (v : MultiView V R) (hmk : MultiView.make sv hs l = .ok v)
    (hv : v.params ≠ []) :
    ∃ (mem : ViewMem V R) (o : ViewObj V R), runViews [.move 0, .construct v] = some mem ∧ mem[1]? = some (some o) ∧
      o.view = v ∧ visitAt mem 1 = none := by
  obtain ⟨b1, b2, b3, b4, b5, b6, -⟩ := made_view h hpre hsp hbits hset hp hlow hN hmk
  refine ⟨[some (ViewObj.movedFrom ⟨v, 0⟩), some ⟨v, 0⟩], ⟨v, 0⟩, rfl, rfl, rfl, ?_⟩
  have hready := MultiGen.ready_make b1 b4
  have hpos := multiSizeOf_pos v.params b1
  have hlen : v.params.length ≠ 0 := fun hc => hv (List.length_eq_zero_iff.1 hc)
  have hW : W64 = (W64 - 1) + 1 := by decide
  have : ({ v.unranking with params := [] } : MultiGen).init.drain W64 = none := by
    rw [hW, MultiGen.drain.eq_def]
    simp only
    rw [if_neg (by
      show ¬ ((0 : Nat) == v.unranking.total) = true
      have := hready.total
      rw [← b5] at this
      simp; omega)]
    rw [MultiGen.next_empty_params (by
      show (v.unranking.gens.map UnrankGen.init).length ≠ 0
      rw [List.length_map, b5, hready.len]; exact hlen) rfl rfl]
  show (if v.params.length = 0 ∧ v.mNon = 0 then some [] else multiStates { v.unranking with params := [] } v.mNon v.nonMask) = none
  rw [if_neg b6]
  unfold multiStates
  rw [this]

end LC
