import Verif.Proof.MultiGen
import Verif.Spec.ViewCopy
/-! Invariants of programs that copy, move and destroy multisector views. -/
set_option linter.unusedSectionVars false
namespace LC
variable {V R : Type _}

/-- A generator for the sectors `ps` in any state it can be left in. -/
structure MultiGen.Ready (ps : List SectorParams) (g : MultiGen) : Prop where
  total : g.total = multiSizeOf ps
  len : g.gens.length = ps.length
  plen : g.part.length = ps.length
  gens : ∀ (j : Nat) (p : SectorParams), ps[j]? = some p → ∃ (gen : UnrankGen) (k : Nat), g.gens[j]? = some gen ∧ gen.At p k

namespace MultiGen
variable {ps : List SectorParams} {g : MultiGen}

theorem ready_make (h : ∀ p ∈ ps, p.Good) (hp : multiSizeOf ps < 2 ^ 31) : Ready ps (MultiGen.make ps) := by
  obtain ⟨h1, -, h3⟩ := make_after h hp
  refine ⟨h1, by simp [MultiGen.make], by simp [MultiGen.make], fun j p hj => ?_⟩
  have hg := h p (List.mem_of_getElem? hj)
  exact ⟨UnrankGen.make p, 0, by simp [MultiGen.make, hj], UnrankGen.make_at p hg.valid (Good.binom hg)⟩

theorem ready_init_gens (h : ∀ p ∈ ps, p.Good) (hr : Ready ps g) (j : Nat) (p : SectorParams) (hj : ps[j]? = some p) :
    ∃ gen : UnrankGen, g.init.gens[j]? = some gen ∧ gen.At p 0 := by
  obtain ⟨gen, k, e1, e2⟩ := hr.gens j p hj
  have hg := h p (List.mem_of_getElem? hj)
  exact ⟨gen.init, by simp [MultiGen.init, e1], UnrankGen.init_at p hg.valid (Good.binom hg) e2⟩

theorem ready_init (h : ∀ p ∈ ps, p.Good) (hr : Ready ps g) : Ready ps g.init :=
  ⟨hr.total, by simp [MultiGen.init, hr.len], hr.plen, fun j p hj =>
    let ⟨gen, a, b⟩ := ready_init_gens h hr j p hj
    ⟨gen, 0, a, b⟩⟩

theorem ready_after (h : ∀ p ∈ ps, p.Good) (hr : Ready ps g) (hps : g.params = ps) : After ps 0 g.init := by
  refine ⟨hr.total, rfl, ?_⟩
  rw [if_pos rfl]
  exact ⟨rfl, hps, by simp [MultiGen.init, hr.len], hr.plen, ready_init_gens h hr, by omega, by omega⟩

theorem after_ready {n : Nat} (hne : ps ≠ []) (ha : After ps n g) : Ready ps g := by
  obtain ⟨h1, -, h3⟩ := ha
  have key : ∀ {k s}, Inv ps k s g → Ready ps g := fun hi =>
    ⟨h1, hi.len, hi.plen, fun j p hj => let ⟨gen, a, b⟩ := hi.gens j p hj; ⟨gen, _, a, b⟩⟩
  split at h3
  · exact key h3.2
  · rcases h3 with ⟨hc, -⟩ | ⟨d, -, -, -, -, hI⟩
    · exact absurd hc hne
    · exact key hI

theorem advance_after (h : ∀ p ∈ ps, p.Good) (hdis : DisjointMasks ps) (hW : ∀ s ∈ lexList (ps.map sectorWords), s < W64)
    (hsz : multiSizeOf ps < W64) (n : Nat) : ∀ (m : Nat) (g : MultiGen), After ps m g → m ≤ multiSizeOf ps →
      ∃ g' m', advance n g = some g' ∧ After ps m' g' := by
  induction n with
  | zero => intro m g ha _; exact ⟨g, m, rfl, ha⟩
  | succ n ih =>
    intro m g ha hm
    unfold advance
    by_cases hd : g.done = true
    · exact ⟨g, m, by simp [hd], ha⟩
    · have hlt : m < multiSizeOf ps := by
        rw [done, ha.2.1, ha.1] at hd
        simp at hd
        omega
      obtain ⟨x, g', e1, -, e3⟩ := next_after h hdis hW m hlt (by omega) g ha
      obtain ⟨g'', m', a1, a2⟩ := ih (m + 1) g' e3 (by omega)
      refine ⟨g'', m', ?_, a2⟩
      simp only [hd, Bool.false_eq_true, if_false, e1, a1]

theorem advance_nil (n : Nat) : ∀ (g g' : MultiGen), g.gens.length = 0 → advance n g = some g' →
    g'.gens.length = 0 ∧ g'.part = g.part ∧ g'.total = g.total := by
  induction n with
  | zero => intro g g' h0 h; cases h; exact ⟨h0, rfl, rfl⟩
  | succ n ih =>
    intro g g' h0 h
    unfold advance at h
    split at h
    · cases h; exact ⟨h0, rfl, rfl⟩
    · have hn : g.next = some (0, { g with s := -1, i := add64 g.i 1 }) := by
        unfold next; rw [if_pos h0]
      rw [hn] at h
      exact ih { g with s := -1, i := add64 g.i 1 } g' h0 h

theorem next_empty_params (hlen : g.gens.length ≠ 0) (hp : g.params = []) (hs : g.s = 0) : g.next = none := by
  unfold next
  rw [if_neg hlen]
  have : nextLoop (2 * g.gens.length + 1) g = none := by
    rw [nextLoop, if_neg (by omega), hp]
    simp
  rw [this]

end MultiGen

/-- All members except `state_vector` are those of `v`, the state of the generator aside. -/
structure MultiView.Same (v w : MultiView V R) : Prop where
  params : w.params = v.params
  ranking : w.ranking = v.ranking
  strides : w.strides = v.strides
  mNon : w.mNon = v.mNon
  nonMask : w.nonMask = v.nonMask
  ready : MultiGen.Ready v.params w.unranking

namespace ViewOp

theorem origin_lt (hist : List (ViewOp V R)) : ∀ {a r : Nat}, origin hist a = some r → r < count hist := by
  induction hist with
  | nil => intro a r h; simp [origin] at h
  | cons op past ih =>
    intro a r h
    cases op with
    | construct v =>
      simp only [origin, count] at h ⊢
      split at h
      · cases h; omega
      · have := ih h; omega
    | copy b =>
      simp only [origin, count] at h ⊢
      split at h <;> (have := ih h; omega)
    | move b =>
      simp only [origin, count] at h ⊢
      split at h <;> (have := ih h; omega)
    | destroy b => simp only [origin, count] at h ⊢; exact ih h
    | iterate b n => simp only [origin, count] at h ⊢; exact ih h

theorem constructedAt_lt (hist : List (ViewOp V R)) : ∀ {r : Nat} {v}, constructedAt hist r = some v → r < count hist := by
  induction hist with
  | nil => intro r v h; simp [constructedAt] at h
  | cons op past ih =>
    intro r v h
    cases op with
    | construct w =>
      simp only [constructedAt, count] at h ⊢
      split at h
      · omega
      · have := ih h; omega
    | copy b => simp only [constructedAt, count] at h ⊢; have := ih h; omega
    | move b => simp only [constructedAt, count] at h ⊢; have := ih h; omega
    | destroy b => simp only [constructedAt, count] at h ⊢; exact ih h
    | iterate b n => simp only [constructedAt, count] at h ⊢; exact ih h

/-- The invariant for the views that come from the view `v` constructed at address `r`. -/
structure Tracks (hist : List (ViewOp V R)) (mem : ViewMem V R) (r : Nat) (v : MultiView V R) : Prop where
  origin : origin hist r = some r
  moved : ∀ (a : Nat) (o : ViewObj V R), mem[a]? = some (some o) → ViewOp.origin hist a = some r → Moved hist a → o.view.params = []
  same : ∀ (a : Nat) (o : ViewObj V R), mem[a]? = some (some o) → ViewOp.origin hist a = some r → ¬ Moved hist a → v.Same o.view
  ref : ∀ (a : Nat) (o : ViewObj V R), mem[a]? = some (some o) → ViewOp.origin hist a = some r → o.ref = r
  alive : .destroy r ∉ hist → ∃ o, mem[r]? = some (some o)

theorem run_length (hist : List (ViewOp V R)) : ∀ {mem}, runViews hist = some mem → mem.length = count hist := by
  induction hist with
  | nil => intro mem h; cases h; rfl
  | cons op past ih =>
    intro mem h
    simp only [runViews] at h
    cases hr : runViews past with
    | none => rw [hr] at h; cases h
    | some m =>
      rw [hr] at h
      have := ih hr
      cases op with
      | construct v => cases h; simp [count, this]
      | copy a =>
        simp only [step] at h
        split at h
        · cases h; simp [count, this]
        · cases h
      | move a =>
        simp only [step] at h
        split at h
        · cases h; simp [count, this]
        · cases h
      | destroy a => cases h; simp [count, this]
      | iterate a n =>
        simp only [step] at h
        split at h
        · obtain ⟨o, _, rfl⟩ := Option.map_eq_some_iff.1 h; simp [count, this]
        · cases h

theorem getElem?_snoc {α : Type _} (l : List α) (x : α) (a : Nat) :
    (l ++ [x])[a]? = if a = l.length then some x else l[a]? := by
  rw [List.getElem?_append]
  split
  · rw [if_neg (by omega)]
  · split
    · next h => subst h; simp
    · rw [List.getElem?_eq_none (by simp; omega), List.getElem?_eq_none (by omega)]

theorem getElem?_set' {α : Type _} (l : List α) (x y : α) (a b : Nat) (h : (l.set a x)[b]? = some y) :
    (b = a ∧ y = x) ∨ (b ≠ a ∧ l[b]? = some y) := by
  by_cases hb : b = a
  · subst hb
    have hlt : b < l.length := by
      have := (List.getElem?_eq_some_iff.1 h).1
      simpa using this
    rw [List.getElem?_set_self hlt] at h
    exact Or.inl ⟨rfl, (Option.some.inj h).symm⟩
  · rw [List.getElem?_set_ne (Ne.symm hb)] at h
    exact Or.inr ⟨hb, h⟩

variable {r : Nat} {v : MultiView V R}

/-- `foreach` leaves a view in a state in which it can be used again. -/
theorem iterate_same (h : ∀ p ∈ v.params, p.Good) (hdis : DisjointMasks v.params)
    (hW : ∀ s ∈ lexList (v.params.map sectorWords), s < W64) (hsz : multiSizeOf v.params < 2 ^ 31) {mem : ViewMem V R} {n : Nat}
    {o o' : ViewObj V R} (hs : v.Same o.view) (hmem : ∀ src, mem[o.ref]? = some (some src) → src.view.params = v.params ∨ src.view.params = [])
    (hi : o.iterate mem n = some o') : v.Same o'.view ∧ o'.ref = o.ref := by
  have hsz' : multiSizeOf v.params < W64 := hsz.trans (by decide)
  unfold ViewObj.iterate at hi
  split at hi
  · cases hi; exact ⟨hs, rfl⟩
  · unfold ViewObj.gen at hi
    split at hi
    · cases hi
    · next g hg =>
      split at hg
      · next src hsrc =>
        cases hg
        split at hi
        · cases hi
        · next g' hadv =>
          cases hi
          refine ⟨⟨hs.params, hs.ranking, hs.strides, hs.mNon, hs.nonMask, ?_⟩, rfl⟩
          show MultiGen.Ready v.params g'
          have hready : MultiGen.Ready v.params { o.view.unranking with params := src.view.params } :=
            ⟨hs.ready.total, hs.ready.len, hs.ready.plen, hs.ready.gens⟩
          by_cases hnil : v.params = []
          · have hi := MultiGen.ready_init h hready
            obtain ⟨a1, a2, a3⟩ := MultiGen.advance_nil n _ g' (by rw [hi.len, hnil]; rfl) hadv
            refine ⟨a3.trans hi.total, by rw [a1, hnil]; rfl, by rw [a2, hi.plen], fun j p hj => ?_⟩
            rw [hnil] at hj; simp at hj
          · rcases hmem src hsrc with hp | hp
            · obtain ⟨g'', m', b1, b2⟩ := MultiGen.advance_after h hdis hW hsz' n 0 _ (MultiGen.ready_after h hready hp) (by omega)
              rw [b1] at hadv
              cases hadv
              exact MultiGen.after_ready hnil b2
            · cases n with
              | zero => cases hadv; exact MultiGen.ready_init h hready
              | succ n =>
                have hpos := multiSizeOf_pos v.params h
                have hi := MultiGen.ready_init h hready
                unfold MultiGen.advance at hadv
                rw [if_neg (by
                  show ¬ ((0 : Nat) == o.view.unranking.total) = true
                  have := hs.ready.total
                  simp; omega),
                  MultiGen.next_empty_params (by
                    rw [hi.len]; exact fun hc => hnil (List.length_eq_zero_iff.1 hc)) hp rfl] at hadv
                cases hadv
      · cases hg

theorem tracks (h : ∀ p ∈ v.params, p.Good) (hdis : DisjointMasks v.params)
    (hW : ∀ s ∈ lexList (v.params.map sectorWords), s < W64) (hsz : multiSizeOf v.params < 2 ^ 31)
    (hu : MultiGen.Ready v.params v.unranking) (hist : List (ViewOp V R)) :
    ∀ {mem}, runViews hist = some mem → constructedAt hist r = some v → Tracks hist mem r v := by
  induction hist with
  | nil => intro mem _ h; simp [constructedAt] at h
  | cons op past ih =>
    intro mem hrun hcon
    simp only [runViews] at hrun
    cases hr : runViews past with
    | none => rw [hr] at hrun; cases hrun
    | some m =>
      rw [hr] at hrun
      have hlen := run_length past hr
      cases op with
      | construct w =>
        cases hrun
        simp only [constructedAt] at hcon
        by_cases hrc : r = count past
        · rw [if_pos hrc] at hcon
          cases hcon
          have hnew : ∀ a o, (m ++ [some (⟨v, m.length⟩ : ViewObj V R)])[a]? = some (some o) →
              ViewOp.origin (.construct v :: past) a = some r → a = r ∧ o = ⟨v, m.length⟩ := by
            intro a o ha ho
            simp only [ViewOp.origin] at ho
            rw [getElem?_snoc] at ha
            split at ho
            · next hac =>
              rw [if_pos (by omega)] at ha
              cases ha
              exact ⟨by omega, rfl⟩
            · have := origin_lt past ho; omega
          refine ⟨by simp [ViewOp.origin, hrc], ?_, ?_, ?_, ?_⟩
          · intro a o ha ho hm
            obtain ⟨rfl, rfl⟩ := hnew a o ha ho
            exact absurd hrc hm.1
          · intro a o ha ho hm
            obtain ⟨rfl, rfl⟩ := hnew a o ha ho
            exact ⟨rfl, rfl, rfl, rfl, rfl, hu⟩
          · intro a o ha ho
            obtain ⟨rfl, rfl⟩ := hnew a o ha ho
            simp; omega
          · intro _
            exact ⟨_, by rw [getElem?_snoc, if_pos (by omega)]⟩
        · rw [if_neg hrc] at hcon
          have T := ih hr hcon
          have hrl := constructedAt_lt past hcon
          have hold : ∀ a o, (m ++ [some (⟨w, m.length⟩ : ViewObj V R)])[a]? = some (some o) →
              ViewOp.origin (.construct w :: past) a = some r → a ≠ count past ∧ m[a]? = some (some o) ∧ ViewOp.origin past a = some r := by
            intro a o ha ho
            simp only [ViewOp.origin] at ho
            split at ho
            · next hac => cases ho; exact absurd hac hrc
            · next hac =>
              rw [getElem?_snoc, if_neg (by omega)] at ha
              exact ⟨hac, ha, ho⟩
          refine ⟨by simp [ViewOp.origin, hrc, T.origin], ?_, ?_, ?_, ?_⟩
          · intro a o ha ho hm
            obtain ⟨-, a1, a2⟩ := hold a o ha ho
            exact T.moved a o a1 a2 hm.2
          · intro a o ha ho hm
            obtain ⟨a0, a1, a2⟩ := hold a o ha ho
            exact T.same a o a1 a2 fun hc => hm ⟨a0, hc⟩
          · intro a o ha ho
            obtain ⟨-, a1, a2⟩ := hold a o ha ho
            exact T.ref a o a1 a2
          · intro hd
            obtain ⟨o, ho⟩ := T.alive fun hc => hd (List.mem_cons_of_mem _ hc)
            exact ⟨o, by rw [getElem?_snoc, if_neg (by omega)]; exact ho⟩
      | copy b =>
        simp only [constructedAt] at hcon
        have T := ih hr hcon
        have hrl := constructedAt_lt past hcon
        simp only [step] at hrun
        split at hrun
        · next ob hb =>
          cases hrun
          have hcase : ∀ a o, (m ++ [some ob])[a]? = some (some o) → ViewOp.origin (.copy b :: past) a = some r →
              ∃ a', m[a']? = some (some o) ∧ ViewOp.origin past a' = some r ∧ (Moved (.copy b :: past) a ↔ Moved past a') := by
            intro a o ha ho
            simp only [ViewOp.origin] at ho
            rw [getElem?_snoc] at ha
            by_cases hac : a = count past
            · rw [if_pos hac] at ho
              rw [if_pos (by omega)] at ha
              cases ha
              exact ⟨b, hb, ho, by simp only [Moved]; rw [if_pos hac]⟩
            · rw [if_neg hac] at ho
              rw [if_neg (by omega)] at ha
              exact ⟨a, ha, ho, by simp only [Moved]; rw [if_neg hac]⟩
          refine ⟨by simp only [ViewOp.origin]; rw [if_neg (by omega)]; exact T.origin, ?_, ?_, ?_, ?_⟩
          · intro a o ha ho hm
            obtain ⟨a', a1, a2, a3⟩ := hcase a o ha ho
            exact T.moved a' o a1 a2 (a3.1 hm)
          · intro a o ha ho hm
            obtain ⟨a', a1, a2, a3⟩ := hcase a o ha ho
            exact T.same a' o a1 a2 (mt a3.2 hm)
          · intro a o ha ho
            obtain ⟨a', a1, a2, a3⟩ := hcase a o ha ho
            exact T.ref a' o a1 a2
          · intro hd
            obtain ⟨o, ho⟩ := T.alive fun hc => hd (List.mem_cons_of_mem _ hc)
            exact ⟨o, by rw [getElem?_snoc, if_neg (by omega)]; exact ho⟩
        · cases hrun
      | move b =>
        simp only [constructedAt] at hcon
        have T := ih hr hcon
        have hrl := constructedAt_lt past hcon
        simp only [step] at hrun
        split at hrun
        · next ob hb =>
          cases hrun
          have hblt : b < m.length := (List.getElem?_eq_some_iff.1 hb).1
          have hcase : ∀ a o, (m.set b (some ob.movedFrom) ++ [some ob])[a]? = some (some o) → ViewOp.origin (.move b :: past) a = some r →
              (∃ a', m[a']? = some (some o) ∧ ViewOp.origin past a' = some r ∧ (Moved (.move b :: past) a ↔ Moved past a')) ∨
              (a = b ∧ o = ob.movedFrom ∧ ViewOp.origin past b = some r ∧ Moved (.move b :: past) a) := by
            intro a o ha ho
            simp only [ViewOp.origin] at ho
            rw [getElem?_snoc, List.length_set] at ha
            by_cases hac : a = count past
            · rw [if_pos hac] at ho
              rw [if_pos (by omega)] at ha
              cases ha
              exact Or.inl ⟨b, hb, ho, by simp only [Moved]; rw [if_pos hac]⟩
            · rw [if_neg hac] at ho
              rw [if_neg (by omega)] at ha
              rcases getElem?_set' _ _ _ _ _ ha with ⟨rfl, e⟩ | ⟨hne, e⟩
              · cases e
                exact Or.inr ⟨rfl, rfl, ho, by simp only [Moved]; rw [if_neg hac]; exact Or.inl trivial⟩
              · exact Or.inl ⟨a, e, ho, by simp only [Moved]; rw [if_neg hac]; simp [hne]⟩
          refine ⟨by simp only [ViewOp.origin]; rw [if_neg (by omega)]; exact T.origin, ?_, ?_, ?_, ?_⟩
          · intro a o ha ho hm
            rcases hcase a o ha ho with ⟨a', a1, a2, a3⟩ | ⟨-, rfl, -, -⟩
            · exact T.moved a' o a1 a2 (a3.1 hm)
            · rfl
          · intro a o ha ho hm
            rcases hcase a o ha ho with ⟨a', a1, a2, a3⟩ | ⟨-, -, -, hm'⟩
            · exact T.same a' o a1 a2 (mt a3.2 hm)
            · exact absurd hm' hm
          · intro a o ha ho
            rcases hcase a o ha ho with ⟨a', a1, a2, a3⟩ | ⟨-, rfl, hob, -⟩
            · exact T.ref a' o a1 a2
            · exact T.ref b ob hb hob
          · intro hd
            obtain ⟨o, ho⟩ := T.alive fun hc => hd (List.mem_cons_of_mem _ hc)
            rw [getElem?_snoc, List.length_set, if_neg (by omega)]
            by_cases hrb : r = b
            · subst hrb; exact ⟨_, List.getElem?_set_self hblt⟩
            · rw [List.getElem?_set_ne (Ne.symm hrb)]; exact ⟨o, ho⟩
        · cases hrun
      | destroy b =>
        simp only [constructedAt] at hcon
        have T := ih hr hcon
        cases hrun
        have hold : ∀ (a : Nat) (o : ViewObj V R), (m.set b none)[a]? = some (some o) → m[a]? = some (some o) := by
          intro a o ha
          rcases getElem?_set' _ _ _ _ _ ha with ⟨-, e⟩ | ⟨-, e⟩
          · cases e
          · exact e
        refine ⟨T.origin, fun a o ha => T.moved a o (hold a o ha), fun a o ha => T.same a o (hold a o ha),
          fun a o ha => T.ref a o (hold a o ha), fun hd => ?_⟩
        obtain ⟨o, ho⟩ := T.alive fun hc => hd (List.mem_cons_of_mem _ hc)
        have hrb : b ≠ r := by rintro rfl; exact hd List.mem_cons_self
        exact ⟨o, by rw [List.getElem?_set_ne hrb]; exact ho⟩
      | iterate b n =>
        simp only [constructedAt] at hcon
        have T := ih hr hcon
        simp only [step] at hrun
        split at hrun
        · next ob hb =>
          obtain ⟨o', hit, rfl⟩ := Option.map_eq_some_iff.1 hrun
          have hblt : b < m.length := (List.getElem?_eq_some_iff.1 hb).1
          have hpar : o'.view.params = ob.view.params ∧ o'.ref = ob.ref := by
            unfold ViewObj.iterate at hit
            split at hit
            · cases hit; exact ⟨rfl, rfl⟩
            · split at hit
              · cases hit
              · split at hit
                · cases hit
                · cases hit; exact ⟨rfl, rfl⟩
          refine ⟨T.origin, ?_, ?_, ?_, ?_⟩
          · intro a o ha ho hm
            rcases getElem?_set' _ _ _ _ _ ha with ⟨rfl, e⟩ | ⟨-, e⟩
            · cases e; rw [hpar.1]; exact T.moved a ob hb ho hm
            · exact T.moved a o e ho hm
          · intro a o ha ho hm
            rcases getElem?_set' _ _ _ _ _ ha with ⟨rfl, e⟩ | ⟨-, e⟩
            · cases e
              refine (iterate_same h hdis hW hsz (T.same a ob hb ho hm) ?_ hit).1
              intro src hsrc
              rw [T.ref a ob hb ho] at hsrc
              by_cases hmr : Moved past r
              · exact Or.inr (T.moved r src hsrc T.origin hmr)
              · exact Or.inl (T.same r src hsrc T.origin hmr).params
            · exact T.same a o e ho hm
          · intro a o ha ho
            rcases getElem?_set' _ _ _ _ _ ha with ⟨rfl, e⟩ | ⟨-, e⟩
            · cases e; rw [hpar.2]; exact T.ref a ob hb ho
            · exact T.ref a o e ho
          · intro hd
            obtain ⟨o, ho⟩ := T.alive fun hc => hd (List.mem_cons_of_mem _ hc)
            by_cases hrb : b = r
            · subst hrb; exact ⟨o', List.getElem?_set_self hblt⟩
            · exact ⟨o, by rw [List.getElem?_set_ne hrb]; exact ho⟩
        · cases hrun

end ViewOp
end LC
