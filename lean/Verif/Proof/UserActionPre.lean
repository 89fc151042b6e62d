import Verif.Proof.UserAction
import Verif.Proof.ActAll
/-
The predefined algebras as parts of `monomial_action<AlgebraIDs...>`.
-/
set_option linter.unusedSectionVars false
set_option linter.unusedSimpArgs false
namespace LC
open Matrix HilbertSpace
variable {ι U S : Type _} [LinearOrder ι] [UserGen U] [CommRing S] [Algebra ℝ S] {hs : HilbertSpace ι}

/-- Products of generators lead from basis states to basis states. -/
theorem monAct_target (hc : Constructed hs) (hpre : PredefinedSpaces hs) (m : List (Gen ι)) (hm : ∀ g ∈ m, hs.has g.mode.space = true)
    (k : Nat) (hk : ValidState hs k) (n : Config ι) (x : ℝ) (h : monAct (bosonDims hs) m (conf hs k) = some (n, x)) :
    ∃ t, ValidState hs t ∧ Encodes hs k n t := by
  induction m generalizing n x with
  | nil =>
    simp only [monAct, Option.some.injEq, Prod.mk.injEq] at h
    exact ⟨k, hk, h.1, fun _ _ => rfl⟩
  | cons g m ih =>
    rw [monAct] at h
    cases e : monAct (bosonDims hs) m (conf hs k) with
    | none => rw [e] at h; cases h
    | some p =>
      obtain ⟨n1, x1⟩ := p
      obtain ⟨t1, ht1, hen1, hf1⟩ := ih (fun g hg => hm g (by simp [hg])) n1 x1 e
      rw [e] at h
      simp only [Option.bind_some, Option.map_eq_some_iff] at h
      obtain ⟨q, hq, hq2⟩ := h
      have hcan : CanonicalMonomial [g] := by
        cases g with
        | fermion d i =>
          cases d with
          | true => exact ⟨[.fermion true i], [], [], rfl, ⟨[i], [], rfl, by simp, by simp⟩, by simp, by simp⟩
          | false => exact ⟨[.fermion false i], [], [], rfl, ⟨[], [i], rfl, by simp, by simp⟩, by simp, by simp⟩
        | boson d i => exact ⟨[], [.boson d i], [], rfl, ⟨[], [], rfl, by simp, by simp⟩, by simp [Gen.algebraId], by simp⟩
        | spin a b i => exact ⟨[], [], [.spin a b i], rfl, ⟨[], [], rfl, by simp, by simp⟩, by simp, by simp [Gen.algebraId]⟩
      obtain ⟨a, ha⟩ := monomialAction_make_ok hc hpre hcan (fun g' hg' => hm g' (by simp at hg'; simp [hg']))
      have hact := monomial_act (S := ℝ) hc hpre hcan ha ht1 1
      have e1 : monAct (bosonDims hs) [g] (conf hs t1) = some (q.1, q.2 * 1) := by
        simp [monAct, hen1, hq]
      rw [e1] at hact
      obtain ⟨t, -, hv, hn, hf⟩ := hact
      simp only [Prod.mk.injEq] at hq2
      exact ⟨t, hv, hn.trans hq2.1, fun es hes => (hf es hes).trans (hf1 es hes)⟩

/-- The matrix of a product of predefined generators. -/
theorem preMatrix_mon (hc : Constructed hs) (hpre : PredefinedSpaces hs) (m : List (Gen ι)) (hm : ∀ g ∈ m, hs.has g.mode.space = true)
    (t k : BasisState hs) : evalMon (preMatrix S hs) m t k = algebraMap ℝ S (matEl hs m t k) := by
  classical
  induction m generalizing t with
  | nil =>
    rw [show evalMon (preMatrix S hs) [] = (1 : Op S hs) from rfl, Matrix.one_apply]
    simp only [matEl, monAct]
    by_cases h : t = k
    · rw [if_pos h, if_pos ⟨by rw [h], fun _ _ => by rw [h]⟩, map_one]
    · rw [if_neg h, if_neg, map_zero]
      intro he
      exact h (Subtype.ext (encodes_unique hc hpre t.2 k.2 he ⟨rfl, fun _ _ => rfl⟩))
  | cons g m ih =>
    have ih' := ih (fun g hg => hm g (by simp [hg]))
    rw [show evalMon (preMatrix S hs) (g :: m) = preMatrix S hs g * evalMon (preMatrix S hs) m by simp [evalMon], Matrix.mul_apply]
    simp only [ih']
    cases e : monAct (bosonDims hs) m (conf hs k) with
    | none =>
      have h0 : ∀ s, matEl hs m s k = 0 := fun s => by rw [matEl, e]
      rw [Finset.sum_eq_zero (fun s _ => by rw [h0, map_zero, mul_zero])]
      rw [matEl, monAct, e]; simp
    | some p =>
      obtain ⟨n, x⟩ := p
      obtain ⟨s, hs1, hs2⟩ := monAct_target hc hpre m (fun g hg => hm g (by simp [hg])) k k.2 n x e
      have h0 : ∀ u : BasisState hs, matEl hs m u k = if u = ⟨s, hs1⟩ then x else 0 := by
        intro u
        rw [matEl, e]
        simp only
        by_cases h : u = ⟨s, hs1⟩
        · rw [if_pos h, if_pos (by rw [h]; exact hs2)]
        · rw [if_neg h, if_neg]
          intro he
          exact h (Subtype.ext (encodes_unique hc hpre u.2 hs1 he hs2))
      rw [Finset.sum_eq_single (⟨s, hs1⟩ : BasisState hs)]
      · rw [h0, if_pos rfl, preMatrix, ← map_mul]
        congr 1
        rw [matEl, matEl, monAct, monAct, monAct, e]
        simp only [Option.bind_some, hs2.1]
        cases genAct (bosonDims hs) g n with
        | none => simp
        | some q =>
          simp only [Option.map_some, mul_one]
          have : Encodes hs s q.1 t ↔ Encodes hs k q.1 t :=
            and_congr_right fun _ => forall_congr' fun es => forall_congr' fun hes => by rw [hs2.2 es hes]
          by_cases h : Encodes hs k q.1 t
          · rw [if_pos h, if_pos (this.2 h)]
          · rw [if_neg h, if_neg (fun h' => h (this.1 h')), zero_mul]
      · intro u _ hu
        rw [h0, if_neg hu, map_zero, mul_zero]
      · simp

/-- `ActsAs` as a statement about matrices. -/
theorem actsLike_of_actsAs (hc : Constructed hs) (hpre : PredefinedSpaces hs) (m : List (Gen ι)) (hm : ∀ g ∈ m, hs.has g.mode.space = true)
    (a : Act S) (h : ∀ k, ValidState hs k → ∀ c : S, ActsAs hs k c (monAct (bosonDims hs) m (conf hs k)) (a k c)) :
    ActsLike (hs := hs) (evalMon (preMatrix S hs) m) a := by
  classical
  intro k c
  have hk := h k k.2 c
  cases e : monAct (bosonDims hs) m (conf hs k) with
  | none =>
    rw [e] at hk
    exact Or.inl ⟨hk, fun t => by rw [preMatrix_mon hc hpre m hm, matEl, e]; simp⟩
  | some p =>
    obtain ⟨n, x⟩ := p
    rw [e] at hk
    obtain ⟨t, h1, h2, h3, h4⟩ := hk
    refine Or.inr ⟨⟨t, h2⟩, algebraMap ℝ S x, h1, fun s => ?_⟩
    rw [preMatrix_mon hc hpre m hm, matEl, e]
    simp only
    by_cases h : s = ⟨t, h2⟩
    · rw [if_pos h, if_pos (by rw [h]; exact ⟨h3, h4⟩)]
    · rw [if_neg h, if_neg, map_zero]
      intro he
      exact h (Subtype.ext (encodes_unique hc hpre s.2 h2 he ⟨h3, h4⟩))

/-- Matrices of generators of different predefined algebras commute. -/
theorem preMatrix_comm (hc : Constructed hs) (hpre : PredefinedSpaces hs) (g h : Gen ι) (hg : hs.has g.mode.space = true)
    (hh : hs.has h.mode.space = true) (hgh : g.algebraId ≠ h.algebraId) :
    preMatrix S hs g * preMatrix S hs h = preMatrix S hs h * preMatrix S hs g := by
  have key : ∀ g h : Gen ι, preMatrix S hs g * preMatrix S hs h = evalMon (preMatrix S hs) [g, h] := fun g h => by simp [evalMon]
  rw [key, key]
  ext t k
  rw [preMatrix_mon hc hpre _ (by simp [hg, hh]), preMatrix_mon hc hpre _ (by simp [hg, hh])]
  rw [matEl, matEl]
  have := monAct_comm (bd := bosonDims hs) (m₁ := [g]) (m₂ := [h]) (by simpa using hgh) (conf hs k)
  simp only [List.singleton_append] at this
  rw [this]

/-! ### contracts -/

theorem allPre {a : Int} (ha : a < 0) (ho : UserOrder U) {m : List (AllGen ι U)} (h : ∀ g ∈ m, g.algebraId = a) :
    ∃ l : List (Gen ι), m = l.map .pre ∧ ∀ g ∈ l, g.algebraId = a := by
  induction m with
  | nil => exact ⟨[], rfl, by simp⟩
  | cons g m ih =>
    obtain ⟨l, rfl, hl⟩ := ih fun k hk => h k (by simp [hk])
    cases g with
    | pre g => exact ⟨g :: l, rfl, fun k hk => (List.mem_cons.1 hk).elim (fun e => by rw [e]; exact h (.pre g) (by simp)) (hl k)⟩
    | user u =>
      have h1 := h (.user u) (by simp)
      have := ho.id_nonneg u
      simp only [AllGen.algebraId] at h1
      omega

theorem splitPre_map (l : List (Gen ι)) : splitPre (l.map (AllGen.pre (U := U))) = (l, none) := by
  induction l with
  | nil => rfl
  | cons g l ih => simp [splitPre, ih]

theorem splitPre_eq (m : List (AllGen ι U)) : ((splitPre m).2 = none ∧ m = (splitPre m).1.map .pre) ∨ ∃ g, (splitPre m).2 = some g := by
  induction m with
  | nil => exact .inl ⟨rfl, rfl⟩
  | cons g m ih =>
    cases g with
    | user u => exact .inr ⟨_, rfl⟩
    | pre g =>
      rcases ih with ⟨h1, h2⟩ | ⟨g', h⟩
      · exact .inl ⟨h1, by simp only [splitPre, List.map_cons]; rw [← h2]⟩
      · exact .inr ⟨g', h⟩

theorem evalMon_pre {ρ : AllGen ι U → Op S hs} (hρ : ∀ g, ρ (.pre g) = preMatrix S hs g) (l : List (Gen ι)) :
    evalMon ρ (l.map .pre) = evalMon (preMatrix S hs) l := by
  simp [evalMon, Function.comp_def, hρ]

theorem stored_chain {l : List (Gen ι)} (h : StoredProduct (l.map (AllGen.pre (U := U)))) : l.IsChain OKPair := by
  have gt_pre : ∀ g k : Gen ι, GenOps.gt (AllGen.pre g : AllGen ι U) (.pre k) = GenOps.gt g k := fun g k => rfl
  induction l with
  | nil => exact .nil
  | cons g l ih =>
    cases l with
    | nil => exact .singleton _
    | cons k l =>
      refine .cons_cons ⟨?_, ?_⟩ (ih (StoredProduct.right (p := [AllGen.pre g]) h))
      · have := h.sorted [] (.pre g) (.pre k) (l.map .pre) rfl
        rwa [gt_pre] at this
      · have := h.no_simp [] (.pre g) (.pre k) (l.map .pre) rfl
        rwa [AllGen.simp_pre, Option.map_eq_none_iff] at this

section contracts
variable {ρ : AllGen ι U → Op S hs} {On : AllGen ι U → Prop}

theorem predefined_contract (ho : UserOrder U) {id : Int} (hneg : id < 0)
    {make : List (Gen ι) → HilbertSpace ι → Except (ActError ι) (Act S × Bool)}
    (hc : Constructed hs) (hpre : PredefinedSpaces hs)
    (hρ : ∀ g, ρ (.pre g) = preMatrix S hs g) (hOn : ∀ g, On (.pre g) → hs.has g.mode.space = true)
    (h1 : ∀ l : List (Gen ι), l.IsChain OKPair → (∀ g ∈ l, g.algebraId = id ∧ hs.has g.mode.space = true) → ∃ r, make l hs = .ok r)
    (h2 : ∀ (l : List (Gen ι)) r, l.IsChain OKPair → (∀ g ∈ l, g.algebraId = id) → make l hs = .ok r →
      ∀ k, ValidState hs k → ∀ c : S, ActsAs hs k c (monAct (bosonDims hs) l (conf hs k)) (r.1 k c)) :
    ActionContract (predefinedClass (U := U) id make) hs On ρ where
  accepts m hm h := by
    obtain ⟨l, rfl, hl⟩ := allPre hneg ho fun g hg => (h g hg).1
    obtain ⟨r, hr⟩ := h1 l (stored_chain hm) fun g hg => ⟨hl g hg, hOn g (h (.pre g) (List.mem_map.2 ⟨g, hg, rfl⟩)).2⟩
    exact ⟨r.1, by simp only [predefinedClass, splitPre_map, hr]⟩
  acts m a hm h ha := by
    obtain ⟨l, rfl, hl⟩ := allPre hneg ho fun g hg => (h g hg).1
    have hon : ∀ g ∈ l, hs.has g.mode.space = true := fun g hg => hOn g (h (.pre g) (List.mem_map.2 ⟨g, hg, rfl⟩)).2
    obtain ⟨r, hr⟩ := h1 l (stored_chain hm) fun g hg => ⟨hl g hg, hon g hg⟩
    simp only [predefinedClass, splitPre_map, hr, Except.ok.injEq] at ha
    subst ha
    rw [evalMon_pre hρ]
    exact actsLike_of_actsAs hc hpre l hon _ (h2 l r (stored_chain hm) hl hr)

theorem fermionClass_contract (ho : UserOrder U) (hc : Constructed hs) (hpre : PredefinedSpaces hs)
    (hρ : ∀ g, ρ (.pre g) = preMatrix S hs g) (hOn : ∀ g, On (.pre g) → hs.has g.mode.space = true) :
    ActionContract (fermionClass (ι := ι) (U := U)) hs On ρ := by
  have hcf : ∀ l : List (Gen ι), l.IsChain OKPair → (∀ g ∈ l, g.algebraId = -3) → CanonicalFermions l := by
    intro l hl ha
    obtain ⟨f, b, s, rfl, hf, hb, hs'⟩ := canonicalMonomial_of_chain hl
    have eb : b = [] := by
      cases b with
      | nil => rfl
      | cons g b => have h1 := hb g (by simp); have h2 := ha g (by simp); omega
    have es : s = [] := by
      cases s with
      | nil => rfl
      | cons g b => have h1 := hs' g (by simp); have h2 := ha g (by simp); omega
    subst eb es
    simpa using hf
  refine predefined_contract ho (by decide) hc hpre hρ hOn ?_ ?_
  · intro l hl h
    obtain ⟨a, ha⟩ := fermionAction_make_ok hc hpre (hcf l hl fun g hg => (h g hg).1) fun g hg => (h g hg).2
    exact ⟨_, by simp only [ha]; rfl⟩
  · intro l r hl h hr k hk c
    cases ha : FermionAction.make l hs with
    | error e => rw [ha] at hr; cases hr
    | ok a =>
      rw [ha] at hr
      simp only [Except.ok.injEq] at hr
      subst hr
      exact fermion_act hc hpre (hcf l hl h) ha hk c

theorem bosonClass_contract (ho : UserOrder U) (hc : Constructed hs) (hpre : PredefinedSpaces hs)
    (hρ : ∀ g, ρ (.pre g) = preMatrix S hs g) (hOn : ∀ g, On (.pre g) → hs.has g.mode.space = true) :
    ActionContract (bosonClass (ι := ι) (U := U)) hs On ρ := by
  refine predefined_contract ho (by decide) hc hpre hρ hOn ?_ ?_
  · intro l hl h
    obtain ⟨a, ha⟩ := bosonLoop_ok hc l 1 0 [] (fun g hg => (h g hg).1) fun g hg => (h g hg).2
    exact ⟨_, by simp only [BosonAction.make, ha]; rfl⟩
  · intro l r hl h hr k hk c
    cases ha : BosonAction.make l hs with
    | error e => rw [ha] at hr; cases hr
    | ok a =>
      rw [ha] at hr
      simp only [Except.ok.injEq] at hr
      subst hr
      exact boson_act hc ha hk c

theorem spinClass_contract (ho : UserOrder U) (hc : Constructed hs) (hpre : PredefinedSpaces hs)
    (hρ : ∀ g, ρ (.pre g) = preMatrix S hs g) (hOn : ∀ g, On (.pre g) → hs.has g.mode.space = true) :
    ActionContract (spinClass (ι := ι) (U := U)) hs On ρ := by
  refine predefined_contract ho (by decide) hc hpre hρ hOn ?_ ?_
  · intro l hl h
    obtain ⟨a, ha⟩ := spinLoop_ok hc l 1 0 [] (fun g hg => (h g hg).1) fun g hg => (h g hg).2
    exact ⟨_, by simp only [SpinAction.make, ha]; rfl⟩
  · intro l r hl h hr k hk c
    cases ha : SpinAction.make l hs with
    | error e => rw [ha] at hr; cases hr
    | ok a =>
      rw [ha] at hr
      simp only [Except.ok.injEq] at hr
      subst hr
      exact spin_act hc hpre ha hk c

/-! ### unknown generators -/

theorem fermionLoop_all (m : List (Gen ι)) (b r : FermionBits) (h : fermionLoop hs m b = .ok r) : ∀ g ∈ m, g.algebraId = -3 := by
  induction m generalizing b with
  | nil => simp
  | cons g m ih =>
    cases g with
    | boson d i => simp [fermionLoop] at h
    | spin n c i => simp [fermionLoop] at h
    | fermion d i =>
      rw [fermionLoop] at h
      split at h
      · simp at h
      · split at h
        · simp at h
        · intro g hg
          rcases List.mem_cons.1 hg with rfl | hg
          · rfl
          · exact ih _ h g hg

theorem spinLoop_all (m : List (Gen ι)) (power size : Nat) (us : List SpinUpdate) (r : SpinAction) (h : spinLoop hs m power size us = .ok r) :
    ∀ g ∈ m, g.algebraId = -1 ∧ hs.has g.mode.space = true := by
  induction m generalizing power size us with
  | nil => simp
  | cons g m ih =>
    cases g with
    | boson d i => simp [spinLoop] at h
    | fermion d i => simp [spinLoop] at h
    | spin n c i =>
      rw [spinLoop] at h
      split at h
      · split at h
        · simp at h
        · next hh =>
          split at h
          · simp at h
          · intro g hg
            rcases List.mem_cons.1 hg with rfl | hg
            · exact ⟨rfl, by simpa [Gen.mode, Mode.space] using hh⟩
            · exact ih _ _ _ h g hg
      · next hr =>
        intro g hg
        rcases List.mem_cons.1 hg with rfl | hg
        · obtain ⟨l', rfl⟩ := runEnds_false (by simpa using hr)
          exact ih _ _ _ h _ (by simp)
        · exact ih _ _ _ h g hg

theorem bosonLoop_all (m : List (Gen ι)) (power size : Nat) (us : List BosonUpdate) (r : BosonAction) (h : bosonLoop hs m power size us = .ok r)
    (hv : r.vanishing = false) : ∀ g ∈ m, g.algebraId = -2 ∧ hs.has g.mode.space = true := by
  induction m generalizing power size us with
  | nil => simp
  | cons g m ih =>
    cases g with
    | spin d c i => simp [bosonLoop] at h
    | fermion d i => simp [bosonLoop] at h
    | boson d i =>
      rw [bosonLoop] at h
      split at h
      · split at h
        · simp at h
        · next hh =>
          split at h
          · simp at h
          · simp at h
          · simp only at h
            split at h
            · simp only [Except.ok.injEq] at h; subst h; simp at hv
            · intro g hg
              rcases List.mem_cons.1 hg with rfl | hg
              · exact ⟨rfl, by simpa [Gen.mode, Mode.space] using hh⟩
              · exact ih _ _ _ h g hg
      · next hr =>
        intro g hg
        rcases List.mem_cons.1 hg with rfl | hg
        · obtain ⟨l', rfl⟩ := runEnds_false (by simpa using hr)
          exact ih _ _ _ h _ (by simp)
        · exact ih _ _ _ h g hg

theorem predefined_rejects {id : Int} {make : List (Gen ι) → HilbertSpace ι → Except (ActError ι) (Act S × Bool)}
    (hOn : ∀ g, hs.has g.mode.space = true → On (.pre g))
    (h : ∀ (l : List (Gen ι)) a, make l hs = .ok (a, false) → ∀ g ∈ l, g.algebraId = id ∧ hs.has g.mode.space = true)
    (m : List (AllGen ι U)) (hbad : ∃ g ∈ m, ¬ (g.algebraId = id ∧ On g)) :
    (∃ e, (predefinedClass (U := U) id make).make m hs = .error e) ∨
    ∃ a, make (splitPre m).1 hs = .ok (a, true) ∧ (predefinedClass (U := U) id make).make m hs = .ok a := by
  simp only [predefinedClass]
  cases hm : make (splitPre m).1 hs with
  | error e => cases e <;> exact .inl ⟨_, rfl⟩
  | ok r =>
    obtain ⟨a, b⟩ := r
    rcases splitPre_eq m with ⟨h1, h2⟩ | ⟨g, hg⟩
    · cases b with
      | true => exact .inr ⟨a, rfl, by simp only [h1]⟩
      | false =>
        exfalso
        obtain ⟨g, hg, hn⟩ := hbad
        rw [h2] at hg
        obtain ⟨g, hg', rfl⟩ := List.mem_map.1 hg
        have := h _ a hm g hg'
        exact hn ⟨this.1, hOn g this.2⟩
    · cases b with
      | true => exact .inr ⟨a, rfl, by simp only [hg, if_true]⟩
      | false => exact .inl ⟨.unknownGenerator g, by simp only [hg, Bool.false_eq_true, if_false]⟩

theorem fermionClass_rejects (hOn : ∀ g, hs.has g.mode.space = true → On (.pre g)) :
    Rejects (fermionClass (ι := ι) (U := U) (S := S)) hs On := by
  intro m hbad
  have key : ∀ (l : List (Gen ι)) (a : Act S), (match FermionAction.make l hs with
      | .error e => .error e
      | .ok a => .ok (a.act (S := S), false) : Except (ActError ι) (Act S × Bool)) = .ok (a, false) →
      ∀ g ∈ l, g.algebraId = -3 ∧ hs.has g.mode.space = true := by
    intro l a hl
    cases ha : FermionAction.make l hs with
    | error e => simp only [ha] at hl; cases hl
    | ok r =>
      unfold FermionAction.make at ha
      split at ha
      · next he => have : l = [] := by simpa using he
                   subst this; simp
      · split at ha
        · simp at ha
        · next b hb => exact fun g hg => ⟨fermionLoop_all _ _ _ hb g hg, fermionLoop_has _ _ _ hb g hg⟩
  rcases predefined_rejects (make := fun m hs => match FermionAction.make m hs with
    | .error e => .error e
    | .ok a => .ok (a.act (S := S), false)) hOn key m hbad with h | ⟨a, h1, h2⟩
  · exact h
  · exfalso
    cases ha : FermionAction.make (splitPre m).1 hs with
    | error e => simp only [ha] at h1; cases h1
    | ok r => simp [ha] at h1

theorem spinClass_rejects (hOn : ∀ g, hs.has g.mode.space = true → On (.pre g)) :
    Rejects (spinClass (ι := ι) (U := U) (S := S)) hs On := by
  intro m hbad
  have key : ∀ (l : List (Gen ι)) (a : Act S), (match SpinAction.make l hs with
      | .error e => .error e
      | .ok a => .ok (a.act (S := S), false) : Except (ActError ι) (Act S × Bool)) = .ok (a, false) →
      ∀ g ∈ l, g.algebraId = -1 ∧ hs.has g.mode.space = true := by
    intro l a hl
    cases ha : SpinAction.make l hs with
    | error e => simp only [ha] at hl; cases hl
    | ok r => exact spinLoop_all _ _ _ _ _ ha
  rcases predefined_rejects (make := fun m hs => match SpinAction.make m hs with
    | .error e => .error e
    | .ok a => .ok (a.act (S := S), false)) hOn key m hbad with h | ⟨a, h1, h2⟩
  · exact h
  · exfalso
    cases ha : SpinAction.make (splitPre m).1 hs with
    | error e => simp only [ha] at h1; cases h1
    | ok r => simp [ha] at h1

theorem bosonClass_rejects (hOn : ∀ g, hs.has g.mode.space = true → On (.pre g)) :
    RejectsOrVanishes (bosonClass (ι := ι) (U := U) (S := S)) hs On := by
  intro m hbad
  have key : ∀ (l : List (Gen ι)) (a : Act S), (match BosonAction.make l hs with
      | .error e => .error e
      | .ok a => .ok (a.act (S := S), a.vanishing) : Except (ActError ι) (Act S × Bool)) = .ok (a, false) →
      ∀ g ∈ l, g.algebraId = -2 ∧ hs.has g.mode.space = true := by
    intro l a hl
    cases ha : BosonAction.make l hs with
    | error e => simp only [ha] at hl; cases hl
    | ok r =>
      simp only [ha, Except.ok.injEq, Prod.mk.injEq] at hl
      exact bosonLoop_all _ _ _ _ _ ha hl.2
  rcases predefined_rejects (make := fun m hs => match BosonAction.make m hs with
    | .error e => .error e
    | .ok a => .ok (a.act (S := S), a.vanishing)) hOn key m hbad with h | ⟨a, h1, h2⟩
  · exact .inl h
  · refine .inr ⟨a, h2, ?_⟩
    cases ha : BosonAction.make (splitPre m).1 hs with
    | error e => simp only [ha] at h1; cases h1
    | ok r =>
      simp only [ha, Except.ok.injEq, Prod.mk.injEq] at h1
      obtain ⟨rfl, h1⟩ := h1
      intro k c
      simp [BosonAction.act, h1]

theorem Rejects.weaken {C : ActionClass ι U S} (h : Rejects C hs On) : RejectsOrVanishes C hs On := fun m hm => .inl (h m hm)

end contracts

end LC
