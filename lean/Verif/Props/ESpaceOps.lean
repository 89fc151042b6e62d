import Mathlib.Tactic.FieldSimp
import Mathlib.Tactic.Linarith
import Mathlib.Data.List.Forall2
import Verif.Model.ESpaceOps
import Verif.Spec.TotalOrder
import Verif.Spec.Fock
import Verif.Proof.HSOrder
/-
C99: elementary spaces: comparisons, and construction from generators.
-/
set_option linter.unusedSectionVars false
set_option linter.unusedSimpArgs false
namespace LC
variable {ι : Type _} [LinearOrder ι]

/-! ### Comparisons -/

/-- **C99** Elementary spaces are compared by algebra, multiplicity and indices (not by dimension): exactly one of `<`, `==`, `>`
holds, `<` is transitive, `>` is its converse, `!=` is the negation of `==`. -/
theorem C99_order (a b c : ESpace ι) :
    (a.eqOp b = true ↔ a.algebraId = b.algebraId ∧ a.mult = b.mult ∧ a.indices = b.indices) ∧
    ((a.ltOp b = true ∧ a.eqOp b = false ∧ a.gtOp b = false) ∨ (a.ltOp b = false ∧ a.eqOp b = true ∧ a.gtOp b = false) ∨
      (a.ltOp b = false ∧ a.eqOp b = false ∧ a.gtOp b = true)) ∧
    (a.ltOp b = true → b.ltOp c = true → a.ltOp c = true) ∧ a.gtOp b = b.ltOp a ∧ a.neOp b = !a.eqOp b := by
  have hgt : ∀ a b : ESpace ι, a.gtOp b = b.ltOp a := by
    intro a b
    unfold ESpace.gtOp ESpace.ltOp ESpace.greater ESpace.less
    simp only [gt_iff_lt, ne_eq, eq_comm (a := a.algebraId), eq_comm (a := a.mult)]
  refine ⟨by rw [ESpace.eqOp_iff, ESpace.key_eq_iff], ?_, fun h1 h2 => ?_, hgt a b, rfl⟩
  · rw [hgt]
    rcases lt_trichotomy a.key b.key with h | h | h
    · left
      refine ⟨(ESpace.ltOp_iff _ _).2 h, ?_, ?_⟩
      · rw [← Bool.not_eq_true, ESpace.eqOp_iff]; exact ne_of_lt h
      · rw [← Bool.not_eq_true, ESpace.ltOp_iff]; exact not_lt_of_gt h
    · right; left
      refine ⟨?_, (ESpace.eqOp_iff _ _).2 h, ?_⟩
      · rw [← Bool.not_eq_true, ESpace.ltOp_iff, h]; exact lt_irrefl _
      · rw [← Bool.not_eq_true, ESpace.ltOp_iff, h]; exact lt_irrefl _
    · right; right
      refine ⟨?_, ?_, (ESpace.ltOp_iff _ _).2 h⟩
      · rw [← Bool.not_eq_true, ESpace.ltOp_iff]; exact not_lt_of_gt h
      · rw [← Bool.not_eq_true, ESpace.eqOp_iff]; exact (ne_of_lt h).symm
  · rw [ESpace.ltOp_iff] at *
    exact h1.trans h2

/-- **C99** Spaces that compare equal are interchangeable in all comparisons. -/
theorem C99_congruence (a b c : ESpace ι) (h : a.eqOp b = true) :
    a.ltOp c = b.ltOp c ∧ c.ltOp a = c.ltOp b ∧ a.eqOp c = b.eqOp c ∧ a.gtOp c = b.gtOp c := by
  obtain ⟨h1, h2, h3⟩ := (C99_order a b c).1.1 h
  unfold ESpace.ltOp ESpace.eqOp ESpace.gtOp ESpace.less ESpace.equal ESpace.greater
  simp only [h1, h2, h3, and_self]

/-- Spaces of one bosonic mode compare equal whatever their dimensions are; spaces of spins with different multiplicities do not. -/
example : (ESpace.boson 4 (0 : Nat)).eqOp (ESpace.boson 7 0) = true ∧ (ESpace.spin 2 (0 : Nat)).eqOp (ESpace.spin 3 0) = false ∧
    (ESpace.spin 2 (1 : Nat)).ltOp (ESpace.spin 3 0) = true ∧ (ESpace.fermion (1 : Nat)).gtOp (ESpace.fermion 0) = true := by
  decide +kernel

/-! ### `es_constructor` -/

/-- **C99** The spaces of two generators compare equal if and only if the generators act on the same degree of freedom. -/
theorem C99_spaces_of_generators (d : Nat) (g h : Gen ι) (x y : ESpace ι) (hx : esConstruct (some d) g = some x)
    (hy : esConstruct (some d) h = some y) : x.eqOp y = true ↔ g.mode = h.mode := by
  rw [(C99_order x y x).1]
  cases g <;> cases h <;> simp only [esConstruct, Option.map_some, Option.some.injEq] at hx hy <;> subst hx <;> subst hy <;>
    simp [ESpace.fermion, ESpace.boson, ESpace.spin, Gen.mode]

section chain
variable {Arg G E : Type _}

theorem buildDefault_spec {cs : List (AlgCtor Arg G E)} {ch : EsChain G E} (h : AlgCtor.buildDefault cs = some ch) :
    List.Forall₂ (fun c x => x.1 = c.id ∧ c.default = some x.2) cs ch := by
  induction cs generalizing ch with
  | nil => simp only [AlgCtor.buildDefault, Option.some.injEq] at h; subst h; exact .nil
  | cons c cs ih =>
    rw [AlgCtor.buildDefault] at h
    split at h
    · next f r hf hr =>
      simp only [Option.some.injEq] at h
      subst h
      exact .cons ⟨rfl, hf⟩ (ih hr)
    · simp at h

/-- How arguments are distributed: `choice` lists the argument, if any, of each subobject. -/
def Distributes (cs : List (AlgCtor Arg G E)) (args : List Arg) (ch : EsChain G E) (choice : List (Option Arg)) : Prop :=
  choice.length = cs.length ∧ ch.length = cs.length ∧ choice.filterMap id = args ∧
  ∀ (j : Nat) c x, cs[j]? = some c → ch[j]? = some x → x.1 = c.id ∧
    (choice[j]? = some none → c.default = some x.2 ∧ ∀ a rest, (choice.drop j).filterMap id = a :: rest → c.ofArg a = none) ∧
    ∀ a, choice[j]? = some (some a) → c.ofArg a = some x.2

theorem distributes_default {cs : List (AlgCtor Arg G E)} {ch : EsChain G E} (h : AlgCtor.buildDefault cs = some ch) :
    Distributes cs [] ch (List.replicate cs.length none) := by
  have hf := buildDefault_spec h
  refine ⟨by simp, hf.length_eq.symm, ?_, fun j c x hc hx => ?_⟩
  · rw [List.filterMap_replicate_of_none rfl]
  · have hj := (List.getElem?_eq_some_iff.1 hc).1
    have hj' := (List.getElem?_eq_some_iff.1 hx).1
    have h1 := (List.forall₂_iff_get.1 hf).2 j hj hj'
    have e1 : cs[j] = c := (List.getElem?_eq_some_iff.1 hc).2
    have e2 : ch[j] = x := (List.getElem?_eq_some_iff.1 hx).2
    simp only [List.get_eq_getElem, e1, e2] at h1
    refine ⟨h1.1, fun _ => ⟨h1.2, fun a rest hr => ?_⟩, fun a ha => ?_⟩
    · rw [List.drop_replicate, List.filterMap_replicate_of_none rfl] at hr
      simp at hr
    · rw [List.getElem?_replicate] at ha
      split at ha <;> simp at ha

theorem distributes_cons {c : AlgCtor Arg G E} {cs : List (AlgCtor Arg G E)} {args : List Arg} {ch : EsChain G E}
    {choice : List (Option Arg)} (h : Distributes cs args ch choice) (o : Option Arg) (f : G → E)
    (h0 : o = none → c.default = some f ∧ ∀ a rest, args = a :: rest → c.ofArg a = none) (h1 : ∀ a, o = some a → c.ofArg a = some f) :
    Distributes (c :: cs) (o.toList ++ args) ((c.id, f) :: ch) (o :: choice) := by
  obtain ⟨a1, a2, a3, a4⟩ := h
  refine ⟨by simp [a1], by simp [a2], by cases o <;> simp <;> exact a3, fun j d x hd hx => ?_⟩
  cases j with
  | zero =>
    simp only [List.getElem?_cons_zero, Option.some.injEq] at hd hx
    subst hd hx
    refine ⟨rfl, fun ho => ?_, fun a ha => ?_⟩
    · simp only [List.getElem?_cons_zero, Option.some.injEq] at ho
      subst ho
      refine ⟨(h0 rfl).1, fun a rest hr => (h0 rfl).2 a rest ?_⟩
      rw [← a3]; simpa using hr
    · simp only [List.getElem?_cons_zero, Option.some.injEq] at ha
      exact h1 a ha
  | succ j =>
    simp only [List.getElem?_cons_succ, List.drop_succ_cons] at *
    exact a4 j d x hd hx

/-- **C99** Whenever `es_constructor<IDs...>(args...)` compiles, every argument initialises exactly one of the constructors of the
algebras, in the given order, each the first remaining one that accepts it; all others are default constructed. -/
theorem C99_arguments (cs : List (AlgCtor Arg G E)) (args : List Arg) (ch : EsChain G E) (h : AlgCtor.build cs args = some ch) :
    ∃ choice, Distributes cs args ch choice := by
  induction cs generalizing args ch with
  | nil => simp [AlgCtor.build] at h
  | cons c cs ih =>
    cases args with
    | nil =>
      have : AlgCtor.build (c :: cs) [] = AlgCtor.buildDefault (c :: cs) := by
        cases cs <;> rfl
      rw [this] at h
      exact ⟨_, distributes_default h⟩
    | cons a as =>
      cases cs with
      | nil =>
        cases as with
        | nil =>
          simp only [AlgCtor.build, Option.map_eq_some_iff] at h
          obtain ⟨f, hf, rfl⟩ := h
          refine ⟨[some a], ?_⟩
          have := distributes_cons (c := c) (cs := []) (args := []) (ch := []) (choice := []) (by
            refine ⟨rfl, rfl, rfl, fun j d x hd _ => by simp at hd⟩) (some a) f (by simp) (by rintro b ⟨rfl⟩; exact hf)
          simpa using this
        | cons b as => simp [AlgCtor.build] at h
      | cons c' cs =>
        rw [AlgCtor.build] at h
        cases ha : c.ofArg a with
        | some f =>
          rw [ha] at h
          simp only [Option.map_eq_some_iff] at h
          obtain ⟨r, hr, rfl⟩ := h
          obtain ⟨choice, hch⟩ := ih as r hr
          exact ⟨_, distributes_cons hch (some a) f (by simp) (by rintro b ⟨rfl⟩; exact ha)⟩
        | none =>
          rw [ha] at h
          simp only at h
          split at h
          · next f r hf hr =>
            simp only [Option.some.injEq] at h
            subst h
            obtain ⟨choice, hch⟩ := ih (a :: as) r hr
            refine ⟨_, distributes_cons hch none f (fun _ => ⟨hf, fun b rest hb => ?_⟩) (by simp)⟩
            simp only [List.cons.injEq] at hb
            rw [← hb.1]; exact ha
          · simp at h

theorem call_eq (id : G → Int) (ch : EsChain G E) (hn : (ch.map Prod.fst).Nodup) (g : G) :
    (∀ e, ch.call id g = some e ↔ ∃ f, (id g, f) ∈ ch ∧ e = f g) ∧ (ch.call id g = none ↔ id g ∉ ch.map Prod.fst) := by
  induction ch with
  | nil => simp [EsChain.call]
  | cons x ch ih =>
    obtain ⟨i, f⟩ := x
    simp only [List.map_cons, List.nodup_cons] at hn
    obtain ⟨h1, h2⟩ := ih hn.2
    rw [EsChain.call]
    split
    · next hi =>
      subst hi
      refine ⟨fun e => ?_, by simp⟩
      simp only [Option.some.injEq, List.mem_cons, Prod.mk.injEq]
      constructor
      · rintro rfl; exact ⟨f, .inl (by simp), rfl⟩
      · rintro ⟨f', ⟨_, rfl⟩ | h, rfl⟩
        · rfl
        · exact absurd (List.mem_map.2 ⟨_, h, rfl⟩) hn.1
    · next hi =>
      refine ⟨fun e => ?_, ?_⟩
      · rw [h1]
        simp only [List.mem_cons, Prod.mk.injEq, hi, false_and, false_or]
      · rw [h2]; simp [hi]

theorem idsOrdered_iff (l : List Int) : idsOrdered l = true ↔ l.Pairwise (· < ·) := by
  induction l with
  | nil => simp [idsOrdered]
  | cons a l ih =>
    cases l with
    | nil => simp [idsOrdered]
    | cons b l =>
      rw [idsOrdered, Bool.and_eq_true, ih, decide_eq_true_eq, ← List.isChain_iff_pairwise, ← List.isChain_iff_pairwise,
        List.isChain_cons_cons]

/-- **C99** A constructor for several algebras, if the static assertion on the order of the IDs holds, hands every generator to the
constructor of its algebra, and throws `es_construction_failure` exactly for the generators of other algebras. -/
theorem C99_dispatch (id : G → Int) (cs : List (AlgCtor Arg G E)) (args : List Arg) (ch : EsChain G E)
    (h : AlgCtor.build cs args = some ch) (hord : idsOrdered (cs.map AlgCtor.id) = true) (g : G) :
    (∀ e, ch.call id g = some e ↔ ∃ f, (id g, f) ∈ ch ∧ e = f g) ∧ (ch.call id g = none ↔ id g ∉ cs.map AlgCtor.id) := by
  obtain ⟨choice, h1, h2, h3, h4⟩ := C99_arguments cs args ch h
  have hids : ch.map Prod.fst = cs.map AlgCtor.id := by
    refine List.ext_getElem (by simp [h2]) fun j a b => ?_
    simp only [List.length_map] at a b
    simp only [List.getElem_map]
    exact (h4 j _ _ (List.getElem?_eq_getElem b) (List.getElem?_eq_getElem a)).1
  have hn : (ch.map Prod.fst).Nodup := by
    rw [hids]
    exact ((idsOrdered_iff _).1 hord).imp fun h => ne_of_lt h
  have := call_eq id ch hn g
  rw [hids] at this
  exact this

end chain

/-- **C99** `boson_es_constructor(d)` and `default_es_constructor()` are the functors used in the model of `hilbert_space`; there is no
`boson_es_constructor()` without a dimension. -/
theorem C99_predefined (d : Nat) :
    (∃ ch, AlgCtor.build [fermionCtor, bosonCtor, spinCtor] [d] = some ch ∧
      ∀ g : Gen ι, ch.call Gen.algebraId g = esConstruct (some d) g) ∧
    (∃ ch, AlgCtor.build [fermionCtor, spinCtor] [] = some ch ∧ ∀ g : Gen ι, ch.call Gen.algebraId g = esConstruct none g) ∧
    AlgCtor.build [fermionCtor, bosonCtor, (spinCtor : AlgCtor Nat (Gen ι) (ESpace ι))] [] = none ∧
    idsOrdered [-3, -2, -1] = true := by
  refine ⟨⟨_, rfl, fun g => ?_⟩, ⟨_, rfl, fun g => ?_⟩, rfl, rfl⟩ <;> cases g <;> rfl

/-! ### Copies -/

/-- **C99** (finding F44) A copy of a non-const `es_constructor<IDs...>` keeps the first subobject only; the others are default
constructed. -/
theorem C99_F44_copy_is_not_a_copy {Arg G E : Type _} (c : AlgCtor Arg G E) (cs : List (AlgCtor Arg G E)) (x : Int × (G → E))
    (xs y : EsChain G E) (h : EsChain.copyNonConst (c :: cs) (x :: xs) = some y) :
    ∃ ys, y = x :: ys ∧ AlgCtor.buildDefault cs = some ys := by
  simp only [EsChain.copyNonConst, Option.map_eq_some_iff] at h
  obtain ⟨ys, h1, h2⟩ := h
  exact ⟨ys, h2.symm, h1⟩

/-- F44: copying a non-const `boson_es_constructor` does not compile; copying a constructor for fermions and an algebra with a
stored dimension (5) gives a constructor with the default dimension (1). -/
example : EsChain.copyNonConst [fermionCtor, bosonCtor, (spinCtor : AlgCtor Nat (Gen Nat) (ESpace Nat))]
      ((AlgCtor.build [fermionCtor, bosonCtor, spinCtor] [4]).getD []) = none ∧
    ∃ user : AlgCtor Nat (Gen Nat) (ESpace Nat), ∃ ch ch',
      AlgCtor.build [fermionCtor, user] [5] = some ch ∧ EsChain.copyNonConst [fermionCtor, user] ch = some ch' ∧
      (ch.call (fun _ => 0) (.fermion true 0)).map ESpace.dim = some 5 ∧
      (ch'.call (fun _ => 0) (.fermion true 0)).map ESpace.dim = some 1 := by
  refine ⟨rfl, ⟨0, some fun _ => ⟨0, 0, 0, 1, 0⟩, fun d => some fun _ => ⟨0, 0, 0, d, 3⟩⟩, _, _, rfl, rfl, rfl, rfl⟩

/-! ### Spins given as floating-point numbers -/

/-- Integers and half-integers in the range of `int` are representable. -/
def ExactHalves (rnd : ℚ → ℚ) : Prop := ∀ k : ℤ, |k| ≤ 2 ^ 32 → rnd (k / 2) = k / 2

/-- **C99** `generator_spin` and `elementary_space_spin` constructed with the spin `k/2` have multiplicity `k+1`; `spin()` gives back
`k/2`; the space made for a generator by `es_constructor<spin>` has its multiplicity. -/
theorem C99_spin_multiplicity (rnd : ℚ → ℚ) (hr : ExactHalves rnd) (k : Nat) (hk : k + 1 < 2 ^ 31) :
    spinMultiplicity rnd (k / 2) = some (k + 1) ∧ spinOf rnd (k + 1) = k / 2 ∧ spinSpaceMultiplicity rnd (k + 1) = some (k + 1) := by
  have h1 : rnd (2 * ((k : ℚ) / 2) + 1) = ((k + 1 : ℕ) : ℚ) := by
    have := hr (2 * (k + 1)) (by rw [abs_of_nonneg (by positivity)]; omega)
    have e : (((2 * ((k : ℤ) + 1) : ℤ)) : ℚ) / 2 = ((k + 1 : ℕ) : ℚ) := by push_cast; ring
    rw [e] at this
    have e' : 2 * ((k : ℚ) / 2) + 1 = ((k + 1 : ℕ) : ℚ) := by push_cast; ring
    rw [e', this]
  have hm : spinMultiplicity rnd (k / 2) = some (k + 1) := by
    unfold spinMultiplicity
    simp only [h1]
    rw [if_pos (Nat.cast_nonneg _), Int.floor_natCast, if_pos ⟨by omega, by omega⟩]
    simp
  have hs : spinOf rnd (k + 1) = k / 2 := by
    unfold spinOf
    have := hr k (by rw [abs_of_nonneg (by positivity)]; omega)
    have e : ((k : ℤ) + 1 - 1 : ℤ) = k := by ring
    rw [e]
    simpa only [Int.cast_natCast] using this
  refine ⟨hm, hs, ?_⟩
  unfold spinSpaceMultiplicity
  rw [hs, hm]

/-- Without assertions other values are truncated: `0 ≤ s` becomes the largest half-integer that is not above `s`. -/
theorem C99_spin_truncation (s : ℚ) (h0 : 0 ≤ s) (h1 : 2 * s + 1 < 2 ^ 31) :
    ∃ m : Int, spinMultiplicity _root_.id s = some m ∧ spinOf _root_.id m ≤ s ∧ s < spinOf _root_.id m + 1 / 2 := by
  have hx : (0 : ℚ) ≤ 2 * s + 1 := by linarith
  have hf := Int.floor_le (2 * s + 1)
  have hl := Int.lt_floor_add_one (2 * s + 1)
  refine ⟨⌊2 * s + 1⌋, ?_, ?_, ?_⟩
  · unfold spinMultiplicity
    simp only [_root_.id]
    rw [if_pos hx, if_pos]
    refine ⟨by have := Int.floor_nonneg.2 hx; omega, ?_⟩
    have : ((⌊2 * s + 1⌋ : ℤ) : ℚ) < ((2 ^ 31 : ℤ) : ℚ) := by push_cast; linarith
    exact_mod_cast this
  · unfold spinOf
    simp only [_root_.id]
    push_cast
    linarith
  · unfold spinOf
    simp only [_root_.id]
    push_cast
    linarith

example : ExactHalves _root_.id := fun _ _ => rfl
example : spinMultiplicity _root_.id (3 / 2) = some 4 ∧ spinMultiplicity _root_.id (7 / 10) = some 2 := by decide +kernel

end LC
