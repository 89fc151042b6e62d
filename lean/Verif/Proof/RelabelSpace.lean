import Verif.Proof.Relabel
import Verif.Proof.DynIndices
/-
Hilbert spaces and operators under a strictly monotone renaming of indices (C96).
-/
set_option linter.unusedSectionVars false
set_option linter.unusedSimpArgs false
namespace LC.Relabel
variable {ι κ S : Type _} [LinearOrder ι] [LinearOrder κ] {f : ι → κ} (hf : StrictMono f)
include hf

/-- Renaming of the map of elementary spaces. -/
def renSp (f : ι → κ) (l : List (ESpace ι × BitRange)) : List (ESpace κ × BitRange) :=
  l.map fun p => (p.1.relabel f, p.2)

theorem es_lt (a b : ESpace ι) : (a.relabel f).ltOp (b.relabel f) = a.ltOp b := by
  have h : decide (f a.indices < f b.indices) = decide (a.indices < b.indices) := by simp [hf.lt_iff_lt]
  unfold ESpace.ltOp ESpace.less
  rw [show (a.relabel f).indices = f a.indices from rfl, show (b.relabel f).indices = f b.indices from rfl, h]
  rfl

theorem es_eq (a b : ESpace ι) : (a.relabel f).eqOp (b.relabel f) = a.eqOp b := by
  simp [ESpace.eqOp, ESpace.equal, ESpace.relabel, hf.injective.eq_iff]

theorem emplaceSpace_ren (es : ESpace ι) (l : List (ESpace ι × BitRange)) :
    HilbertSpace.emplaceSpace (es.relabel f) (renSp f l) = (HilbertSpace.emplaceSpace es l).map (renSp f) := by
  induction l with
  | nil => rfl
  | cons p l ih =>
    obtain ⟨k, r⟩ := p
    simp only [renSp, List.map_cons] at ih ⊢
    simp only [HilbertSpace.emplaceSpace, es_lt hf, ih]
    split
    · cases HilbertSpace.emplaceSpace es l <;> rfl
    · split <;> rfl

theorem findSpace_ren (es : ESpace ι) (l : List (ESpace ι × BitRange)) :
    HilbertSpace.findSpace (es.relabel f) (renSp f l)
      = (HilbertSpace.findSpace es l).map fun p => (p.1.relabel f, p.2) := by
  induction l with
  | nil => rfl
  | cons p l ih =>
    obtain ⟨k, r⟩ := p
    simp only [renSp, List.map_cons] at ih ⊢
    simp only [HilbertSpace.findSpace, es_lt hf, ih]
    split
    · rfl
    · split <;> rfl

theorem recomputeLoop_ren (l : List (ESpace ι × BitRange)) (alg : List (Int × BitRange)) (e : Int) :
    HilbertSpace.recomputeLoop (renSp f l) alg e
      = (renSp f (HilbertSpace.recomputeLoop l alg e).1, (HilbertSpace.recomputeLoop l alg e).2) := by
  induction l generalizing alg e with
  | nil => rfl
  | cons p l ih =>
    obtain ⟨es, r⟩ := p
    simp only [renSp, List.map_cons] at ih ⊢
    simp only [HilbertSpace.recomputeLoop, ih]
    rfl

theorem recompute_ren (hs : HilbertSpace ι) :
    (hs.relabel f).recompute = (hs.recompute.1.relabel f, hs.recompute.2) := by
  have h := recomputeLoop_ren hf hs.spaces [] (-1)
  unfold HilbertSpace.recompute
  rw [show (hs.relabel f).spaces = renSp f hs.spaces from rfl, h]
  rfl

theorem initForeach_ren (hs : HilbertSpace ι) : (hs.relabel f).initForeach = hs.initForeach.relabel f := by
  have key : ∀ (l : List (ESpace ι)) (m : Nat) (s : List Nat),
      HilbertSpace.mergeSizes (l.map (ESpace.relabel f)) m s = HilbertSpace.mergeSizes l m s := by
    intro l
    induction l with
    | nil => intro m s; rfl
    | cons es l ih =>
      intro m s
      simp only [List.map_cons, HilbertSpace.mergeSizes, ih]
      rfl
  unfold HilbertSpace.initForeach
  have e : ((hs.relabel f).spaces.map (·.1)) = (hs.spaces.map (·.1)).map (ESpace.relabel f) := by
    simp [HilbertSpace.relabel, List.map_map, Function.comp_def]
  rw [e, key]
  rfl

theorem addSp_ren (hs : HilbertSpace ι) (es : ESpace ι) :
    (hs.relabel f).add (es.relabel f) = ((hs.add es).1.relabel f, (hs.add es).2) := by
  unfold HilbertSpace.add
  have h := emplaceSpace_ren hf es hs.spaces
  have e0 : (hs.relabel f).spaces = renSp f hs.spaces := rfl
  rw [e0, h]
  cases hsp : HilbertSpace.emplaceSpace es hs.spaces with
  | none => rfl
  | some sp =>
    dsimp only [Option.map_some]
    have hr := recompute_ren hf { hs with spaces := sp }
    have e1 : ({ hs.relabel f with spaces := renSp f sp } : HilbertSpace κ)
        = ({ hs with spaces := sp } : HilbertSpace ι).relabel f := rfl
    rw [e1, hr]
    generalize ({ hs with spaces := sp } : HilbertSpace ι).recompute = q
    obtain ⟨q, o⟩ := q
    cases o with
    | some e => rfl
    | none =>
      dsimp only
      rw [← initForeach_ren hf]
      rfl

theorem ofArgsFrom_ren (l : List (ESpace ι)) (hs : HilbertSpace ι) :
    HilbertSpace.ofArgsFrom (hs.relabel f) (l.map (ESpace.relabel f))
      = (HilbertSpace.ofArgsFrom hs l).map (HilbertSpace.relabel f) := by
  induction l generalizing hs with
  | nil => rfl
  | cons es l ih =>
    simp only [List.map_cons, HilbertSpace.ofArgsFrom, addSp_ren hf]
    generalize hs.add es = q
    obtain ⟨q, o⟩ := q
    cases o with
    | some e => rfl
    | none => exact ih q

theorem ofArgs_ren (l : List (ESpace ι)) :
    HilbertSpace.ofArgs (l.map (ESpace.relabel f)) = (HilbertSpace.ofArgs l).map (HilbertSpace.relabel f) :=
  ofArgsFrom_ren hf l HilbertSpace.empty

theorem ofPtrsLoop_ren (l : List (ESpace ι)) (hs : HilbertSpace ι) :
    HilbertSpace.ofPtrsLoop (hs.relabel f) (l.map (ESpace.relabel f))
      = (HilbertSpace.ofPtrsLoop hs l).map (HilbertSpace.relabel f) := by
  induction l generalizing hs with
  | nil => rfl
  | cons es l ih =>
    simp only [List.map_cons, HilbertSpace.ofPtrsLoop]
    have h := emplaceSpace_ren hf es hs.spaces
    have e0 : (hs.relabel f).spaces = renSp f hs.spaces := rfl
    rw [e0, h]
    cases HilbertSpace.emplaceSpace es hs.spaces with
    | none => rfl
    | some sp => exact ih { hs with spaces := sp, dim := mul64 hs.dim es.dim }

theorem ofPtrs_ren (l : List (ESpace ι)) :
    HilbertSpace.ofPtrs (l.map (ESpace.relabel f)) = (HilbertSpace.ofPtrs l).map (HilbertSpace.relabel f) := by
  unfold HilbertSpace.ofPtrs
  have h := ofPtrsLoop_ren hf l HilbertSpace.empty
  have e0 : (HilbertSpace.empty : HilbertSpace ι).relabel f = HilbertSpace.empty := rfl
  rw [e0] at h
  rw [h]
  cases HilbertSpace.ofPtrsLoop HilbertSpace.empty l with
  | error e => rfl
  | ok hs =>
    simp only [Except.map]
    rw [recompute_ren hf]
    generalize hs.recompute = q
    obtain ⟨q, o⟩ := q
    cases o with
    | some e => rfl
    | none => simp only [initForeach_ren hf]

theorem esConstruct_ren (d : Option Nat) (g : Gen ι) :
    esConstruct d (g.relabel f) = (esConstruct d g).map (ESpace.relabel f) := by
  cases g with
  | fermion b i => rfl
  | boson b i => cases d <;> rfl
  | spin m c i => rfl

theorem collect_ren (d : Option Nat) (l : List (Gen ι)) (sp : List (ESpace ι × BitRange)) :
    HilbertSpace.collect (esConstruct d) (l.map (Gen.relabel f)) (renSp f sp)
      = (HilbertSpace.collect (esConstruct d) l sp).map (renSp f) := by
  induction l generalizing sp with
  | nil => rfl
  | cons g l ih =>
    simp only [List.map_cons, HilbertSpace.collect, esConstruct_ren hf]
    cases esConstruct d g with
    | none => rfl
    | some es =>
      simp only [Option.map_some]
      rw [← ih, emplaceSpace_ren hf]
      cases HilbertSpace.emplaceSpace es sp <;> rfl

theorem ofMonomials_ren (d : Option Nat) (ms : List (List (Gen ι))) :
    HilbertSpace.ofMonomials (esConstruct d) (ms.map (List.map (Gen.relabel f)))
      = (HilbertSpace.ofMonomials (esConstruct d) ms).map (HilbertSpace.relabel f) := by
  unfold HilbertSpace.ofMonomials
  have h := collect_ren hf d ms.flatten []
  rw [← List.map_flatten]
  have e0 : renSp f ([] : List (ESpace ι × BitRange)) = [] := rfl
  rw [e0] at h
  rw [h]
  cases HilbertSpace.collect (esConstruct d) ms.flatten [] with
  | error e => rfl
  | ok sp =>
    simp only [Except.map]
    have e1 : ({ (HilbertSpace.empty : HilbertSpace κ) with spaces := renSp f sp } : HilbertSpace κ)
        = ({ (HilbertSpace.empty : HilbertSpace ι) with spaces := sp } : HilbertSpace ι).relabel f := rfl
    rw [e1, recompute_ren hf]
    generalize ({ (HilbertSpace.empty : HilbertSpace ι) with spaces := sp } : HilbertSpace ι).recompute = q
    obtain ⟨q, o⟩ := q
    cases o with
    | some e => rfl
    | none =>
      dsimp only
      rw [← initForeach_ren hf]
      congr 2
      simp [HilbertSpace.relabel, ESpace.relabel, List.map_map, Function.comp_def]

theorem has_ren (hs : HilbertSpace ι) (es : ESpace ι) : (hs.relabel f).has (es.relabel f) = hs.has es := by
  unfold HilbertSpace.has
  have h := findSpace_ren hf es hs.spaces
  have e0 : (hs.relabel f).spaces = renSp f hs.spaces := rfl
  rw [e0, h]
  cases HilbertSpace.findSpace es hs.spaces <;> rfl

theorem bitRange_ren (hs : HilbertSpace ι) (es : ESpace ι) : (hs.relabel f).bitRange (es.relabel f) = hs.bitRange es := by
  unfold HilbertSpace.bitRange
  have h := findSpace_ren hf es hs.spaces
  have e0 : (hs.relabel f).spaces = renSp f hs.spaces := rfl
  rw [e0, h]
  cases HilbertSpace.findSpace es hs.spaces <;> rfl

theorem dimOf_ren (hs : HilbertSpace ι) (es : ESpace ι) : (hs.relabel f).dimOf (es.relabel f) = hs.dimOf es := by
  unfold HilbertSpace.dimOf
  have h := findSpace_ren hf es hs.spaces
  have e0 : (hs.relabel f).spaces = renSp f hs.spaces := rfl
  rw [e0, h]
  cases HilbertSpace.findSpace es hs.spaces <;> rfl

theorem es_inj : Function.Injective (ESpace.relabel f) := by
  intro a b h
  cases a; cases b
  simp only [ESpace.relabel, ESpace.mk.injEq] at h
  obtain ⟨h1, h2, h3, h4, h5⟩ := h
  rw [hf.injective h3, h1, h2, h4, h5]

theorem index_ren (hs : HilbertSpace ι) (es : ESpace ι) : (hs.relabel f).index (es.relabel f) = hs.index es := by
  unfold HilbertSpace.index
  have h := findSpace_ren hf es hs.spaces
  have e0 : (hs.relabel f).spaces = renSp f hs.spaces := rfl
  rw [e0, h]
  cases HilbertSpace.findSpace es hs.spaces with
  | none => rfl
  | some k =>
    simp only [Option.map_some]
    congr 1
    have hinj : Function.Injective fun p : ESpace ι × BitRange => (p.1.relabel f, p.2) := by
      rintro ⟨a, r⟩ ⟨b, s⟩ hab
      simp only [Prod.mk.injEq] at hab
      rw [es_inj hf hab.1, hab.2]
    unfold renSp
    have : ∀ l : List (ESpace ι × BitRange),
        (l.map fun p => (p.1.relabel f, p.2)).idxOf (k.1.relabel f, k.2) = l.idxOf k := by
      intro l
      induction l with
      | nil => rfl
      | cons x l ih =>
        simp only [List.map_cons, List.idxOf_cons, ih]
        by_cases hx : x = k
        · subst hx; simp
        · have : ¬ ((x.1.relabel f, x.2) = (k.1.relabel f, k.2)) := fun h => hx (hinj h)
          have h1 : (x == k) = false := by simpa using hx
          have h2 : ((x.1.relabel f, x.2) == (k.1.relabel f, k.2)) = false := by simpa using this
          rw [h1, h2]
    exact this hs.spaces

theorem eqOp_hs (a b : HilbertSpace ι) : (a.relabel f).eqOp (b.relabel f) = a.eqOp b := by
  unfold HilbertSpace.eqOp
  simp only [HilbertSpace.relabel, List.length_map]
  congr 1
  generalize a.spaces = l
  generalize b.spaces = m
  induction l generalizing m with
  | nil => simp
  | cons x l ih => cases m with
    | nil => simp
    | cons y m => simp [es_eq hf, ih]

/-! ### Actions and operators -/

/-- Renaming in the exception, no change in the value. -/
def err (f : ι → κ) {α : Type _} : Except (ActError ι) α → Except (ActError κ) α
  | .error e => .error (e.relabel f)
  | .ok a => .ok a

theorem findSubrange_ren (a : Int) (m : List (Gen ι)) :
    findSubrange a (m.map (Gen.relabel f))
      = (err f (findSubrange a m)).map
          (fun p : List (Gen ι) × List (Gen ι) => (p.1.map (Gen.relabel f), p.2.map (Gen.relabel f))) := by
  induction m with
  | nil => rfl
  | cons g m ih =>
    have ha : (g.relabel f).algebraId = g.algebraId := by cases g <;> rfl
    simp only [List.map_cons, findSubrange, ha]
    split
    · rfl
    · split
      · rw [ih]
        cases findSubrange a m <;> rfl
      · rfl

theorem fermionLoop_ren (hs : HilbertSpace ι) (m : List (Gen ι)) (b : FermionBits) :
    fermionLoop (hs.relabel f) (m.map (Gen.relabel f)) b = err f (fermionLoop hs m b) := by
  induction m generalizing b with
  | nil => rfl
  | cons g m ih =>
    cases g with
    | fermion d i =>
      have h1 := has_ren hf hs (ESpace.fermion i)
      have h2 := bitRange_ren hf hs (ESpace.fermion i)
      have e : ESpace.fermion (f i) = (ESpace.fermion i).relabel f := rfl
      simp only [List.map_cons, Gen.relabel, fermionLoop, e, h1, h2]
      split
      · rfl
      · cases hs.bitRange (ESpace.fermion i) with
        | error e => rfl
        | ok br => exact ih _
    | boson d i => rfl
    | spin n c i => rfl

theorem fermionMake_ren (m : List (Gen ι)) (hs : HilbertSpace ι) :
    FermionAction.make (m.map (Gen.relabel f)) (hs.relabel f) = err f (FermionAction.make m hs) := by
  unfold FermionAction.make
  have e : (m.map (Gen.relabel f)).isEmpty = m.isEmpty := by cases m <;> rfl
  rw [e, fermionLoop_ren hf]
  split
  · rfl
  · cases fermionLoop hs m ⟨[], [], 0, 0⟩ with
    | error e => rfl
    | ok b =>
      have e : (hs.relabel f).algebraBitRange (-3) = hs.algebraBitRange (-3) := rfl
      simp only [err, e]
      cases hs.algebraBitRange (-3) <;> rfl

theorem runEnds_ren (g : Gen ι) (m : List (Gen ι)) : runEnds (g.relabel f) (m.map (Gen.relabel f)) = runEnds g m := by
  cases m with
  | nil => rfl
  | cons h m =>
    have := (relabel_genHom hf).eq h g
    simp only [GenOps.eq] at this
    simp only [List.map_cons, runEnds, this]

theorem bosonLoop_ren (hs : HilbertSpace ι) (m : List (Gen ι)) (power size : Nat) (u : List BosonUpdate) :
    bosonLoop (hs.relabel f) (m.map (Gen.relabel f)) power size u = err f (bosonLoop hs m power size u) := by
  induction m generalizing power size u with
  | nil => rfl
  | cons g m ih =>
    cases g with
    | boson d i =>
      have h0 := runEnds_ren hf (.boson d i) m
      have h1 := has_ren hf hs (ESpace.boson 1 i)
      have h2 := bitRange_ren hf hs (ESpace.boson 1 i)
      have h3 := dimOf_ren hf hs (ESpace.boson 1 i)
      have e : ESpace.boson 1 (f i) = (ESpace.boson 1 i).relabel f := rfl
      have eg : Gen.boson d (f i) = (Gen.boson d i).relabel f := rfl
      simp only [List.map_cons]
      rw [show (Gen.boson d i).relabel f = Gen.boson d (f i) from rfl]
      simp only [bosonLoop]
      rw [eg, h0, e, h1, h2, h3]
      split
      · split
        · rfl
        · cases hs.bitRange (ESpace.boson 1 i) with
          | error e => rfl
          | ok br =>
            cases hs.dimOf (ESpace.boson 1 i) with
            | error e => rfl
            | ok dim =>
              dsimp only
              split
              · rfl
              · exact ih _ _ _
      · exact ih _ _ _
    | fermion d i => rfl
    | spin n c i => rfl

theorem spinLoop_ren (hs : HilbertSpace ι) (m : List (Gen ι)) (power size : Nat) (u : List SpinUpdate) :
    spinLoop (hs.relabel f) (m.map (Gen.relabel f)) power size u = err f (spinLoop hs m power size u) := by
  induction m generalizing power size u with
  | nil => rfl
  | cons g m ih =>
    cases g with
    | spin n c i =>
      have h0 := runEnds_ren hf (.spin n c i) m
      have h1 := has_ren hf hs (ESpace.spin n i)
      have h2 := bitRange_ren hf hs (ESpace.spin n i)
      have e : ESpace.spin n (f i) = (ESpace.spin n i).relabel f := rfl
      have eg : Gen.spin n c (f i) = (Gen.spin n c i).relabel f := rfl
      simp only [List.map_cons]
      rw [show (Gen.spin n c i).relabel f = Gen.spin n c (f i) from rfl]
      simp only [spinLoop]
      rw [eg, h0, e, h1, h2]
      split
      · split
        · rfl
        · cases hs.bitRange (ESpace.spin n i) with
          | error e => rfl
          | ok br => exact ih _ _ _
      · exact ih _ _ _
    | fermion d i => rfl
    | boson d i => rfl

theorem make_ren (m : List (Gen ι)) (hs : HilbertSpace ι) :
    MonomialAction.make (m.map (Gen.relabel f)) (hs.relabel f) = err f (MonomialAction.make m hs) := by
  unfold MonomialAction.make
  rw [findSubrange_ren hf]
  cases findSubrange (-3) m with
  | error e => rfl
  | ok p =>
    obtain ⟨mf, m⟩ := p
    simp only [Except.map, err]
    rw [fermionMake_ren hf]
    cases FermionAction.make mf hs with
    | error e => rfl
    | ok a =>
      simp only [err]
      rw [findSubrange_ren hf]
      cases findSubrange (-2) m with
      | error e => rfl
      | ok p =>
        obtain ⟨mb, m⟩ := p
        simp only [Except.map, err]
        unfold BosonAction.make SpinAction.make
        rw [bosonLoop_ren hf]
        cases bosonLoop hs mb 1 0 [] with
        | error e => rfl
        | ok b =>
          simp only [err]
          rw [spinLoop_ren hf]
          cases spinLoop hs m 1 0 [] <;> rfl

theorem lop_ren (e : Expr (Gen ι) S) (hs : HilbertSpace ι) :
    LOperator.make (e.relabel f) (hs.relabel f) = err f (LOperator.make e hs) := by
  have key : ∀ l : List (List (Gen ι) × S),
      LOperator.makeLoop (hs.relabel f) (l.map fun p => (p.1.map (Gen.relabel f), p.2)) = err f (LOperator.makeLoop hs l) := by
    intro l
    induction l with
    | nil => rfl
    | cons p l ih =>
      obtain ⟨m, c⟩ := p
      simp only [List.map_cons, LOperator.makeLoop, make_ren hf, ih]
      cases MonomialAction.make m hs with
      | error e => rfl
      | ok a => simp only [err]; cases LOperator.makeLoop hs l <;> rfl
  unfold LOperator.make
  simp only [Expr.relabel, key]
  cases LOperator.makeLoop hs e.terms <;> rfl

end LC.Relabel
