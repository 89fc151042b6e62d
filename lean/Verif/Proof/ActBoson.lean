import Verif.Proof.ActBasic
/-
Bosonic monomials.
-/
set_option linter.unusedSectionVars false
set_option linter.unusedSimpArgs false
namespace LC
open HilbertSpace
variable {ι S : Type _} [LinearOrder ι] [CommRing S] [Algebra ℝ S] {hs : HilbertSpace ι} {bd : ι → ℕ∞}

theorem raise_run (p : Nat) (n : Config ι) (i : ι) (h : (n (.boson i) : ℕ∞) < bd i) :
    monAct bd (List.replicate p (.boson true i)) n =
      if ((n (.boson i) + p : Nat) : ℕ∞) < bd i then
        some (Function.update n (.boson i) (n (.boson i) + p),
          ((List.range p).map fun d : Nat => Real.sqrt ((n (.boson i) + (d + 1) : Nat) : ℝ)).prod)
      else none := by
  induction p with
  | zero => simp [monAct, h]
  | succ p ih =>
    rw [List.replicate_succ, monAct, ih]
    by_cases h1 : ((n (.boson i) + p : Nat) : ℕ∞) < bd i
    · rw [if_pos h1]
      simp only [Option.bind_some, genAct, Function.update_self]
      rw [List.range_succ, List.map_append, List.prod_append]
      by_cases h2 : ((n (.boson i) + (p + 1) : Nat) : ℕ∞) < bd i
      · rw [if_pos h2, if_pos (by rw [Nat.add_assoc]; exact h2)]
        simp only [Option.map_some, Function.update_idem, List.map_cons, List.map_nil, List.prod_cons, List.prod_nil, mul_one]
        congr 2
        rw [mul_comm]
        congr 2
        push_cast
        ring
      · rw [if_neg h2, if_neg (by rw [Nat.add_assoc]; exact h2)]
        rfl
    · rw [if_neg h1, if_neg]
      · rfl
      · intro h2
        apply h1
        refine lt_of_le_of_lt ?_ h2
        exact_mod_cast (by omega : n (.boson i) + p ≤ n (.boson i) + (p + 1))

theorem lower_run (p : Nat) (n : Config ι) (i : ι) :
    monAct bd (List.replicate p (.boson false i)) n =
      if n (.boson i) < p then none else
        some (Function.update n (.boson i) (n (.boson i) - p),
          ((List.range p).map fun d : Nat => Real.sqrt ((n (.boson i) - d : Nat) : ℝ)).prod) := by
  induction p with
  | zero => simp [monAct]
  | succ p ih =>
    rw [List.replicate_succ, monAct, ih]
    by_cases h1 : n (.boson i) < p
    · rw [if_pos h1, if_pos (by omega)]; rfl
    · rw [if_neg h1]
      simp only [Option.bind_some, genAct, Function.update_self]
      rw [List.range_succ, List.map_append, List.prod_append]
      by_cases h2 : n (.boson i) < p + 1
      · rw [if_pos h2, if_pos (by omega)]; rfl
      · rw [if_neg h2, if_neg (by omega)]
        simp only [Option.map_some, Function.update_idem, List.map_cons, List.map_nil, List.prod_cons, List.prod_nil, mul_one]
        rw [mul_comm, Nat.sub_sub]

/-- The cutoffs are respected. -/
theorem genAct_bound {g : Gen ι} {n n' : Config ι} {x : ℝ} (h : genAct bd g n = some (n', x)) (i : ι)
    (hb : (n (.boson i) : ℕ∞) < bd i) : (n' (.boson i) : ℕ∞) < bd i := by
  by_cases hk : Mode.boson i = g.mode
  · cases g with
    | fermion d j => simp [Gen.mode] at hk
    | spin m c j => simp [Gen.mode] at hk
    | boson d j =>
      simp [Gen.mode] at hk; subst hk
      cases d
      · simp only [genAct] at h
        split at h
        · simp at h
        · simp at h
          rw [← h.1, Function.update_self]
          refine lt_of_le_of_lt ?_ hb
          exact_mod_cast Nat.sub_le _ _
      · simp only [genAct] at h
        split at h
        · next h1 =>
          simp at h
          rw [← h.1, Function.update_self]
          exact h1
        · simp at h
  · rw [genAct_other h hk]; exact hb

theorem monAct_bound {m : List (Gen ι)} {n n' : Config ι} {x : ℝ} (h : monAct bd m n = some (n', x)) (i : ι)
    (hb : (n (.boson i) : ℕ∞) < bd i) : (n' (.boson i) : ℕ∞) < bd i := by
  induction m generalizing n' x with
  | nil => simp [monAct] at h; rw [← h.1]; exact hb
  | cons g m ih =>
    rw [monAct] at h
    cases e : monAct bd m n with
    | none => rw [e] at h; simp at h
    | some p =>
      rw [e, Option.bind_some] at h
      cases e' : genAct bd g p.1 with
      | none => rw [e'] at h; simp at h
      | some q =>
        rw [e'] at h
        simp at h
        obtain ⟨h1, _⟩ := h
        rw [← h1]
        exact genAct_bound e' i (ih e)

/-- Updates that implement a bosonic monomial. -/
inductive RepB (hs : HilbertSpace ι) (size : Nat) : List BosonUpdate → List (Gen ι) → Prop
  | nil : RepB hs size [] []
  | snoc {us m dagger i p f nb d} : RepB hs size us m → Loc hs (Mode.boson i).space f nb d → 1 ≤ p → p ≤ d - 1 → d ≤ size →
      RepB hs size (us ++ [⟨f, sub64 (pow2 nb) 1, if dagger = true then (p : Int) else -(p : Int), d - 1⟩])
        (m ++ List.replicate p (.boson dagger i))

theorem RepB.mono {size size' : Nat} (h : size ≤ size') {us : List BosonUpdate} {m : List (Gen ι)} (hr : RepB hs size us m) :
    RepB hs size' us m := by
  induction hr with
  | nil => exact .nil
  | snoc _ h1 h2 h3 h4 ih => exact .snoc ih h1 h2 h3 (h4.trans h)

/-- One update. -/
theorem boson_update (hc : Constructed hs) {i : ι} {f nb d p size : Nat} {dagger : Bool} (h : Loc hs (Mode.boson i).space f nb d)
    (hp : 1 ≤ p) (_hpd : p ≤ d - 1) (hsz : d ≤ size) {s : Nat} (hv : ValidState hs s) (c : S) (us : List BosonUpdate) :
    ∃ r, bosonActLoop (makeSqrRoots size)
        (⟨f, sub64 (pow2 nb) 1, if dagger = true then (p : Int) else -(p : Int), d - 1⟩ :: us) s c
        = ActRes.andThen r (bosonActLoop (makeSqrRoots size) us) ∧
      ActsAs hs s c (monAct (bosonDims hs) (List.replicate p (.boson dagger i)) (conf hs s)) r := by
  have hfit := h.fits
  have hsm := h.small
  have hfld := valid_occ h hv
  have hbd := loc_bosonDims h
  have hcf := conf_loc h s
  have hlt : ((conf hs s (.boson i) : Nat) : ℕ∞) < bosonDims hs i := by rw [hbd, hcf]; exact_mod_cast hfld
  rw [bosonActLoop]
  simp only [field_mask f nb s (by omega), BosonUpdate.stateChange, BosonUpdate.rootArgs]
  have hsT : s < 2 ^ 63 := hv.1.trans_le (Nat.pow_le_pow_right (by norm_num) hsm)
  have h2f := Nat.two_pow_pos f
  cases dagger with
  | true =>
    rw [raise_run p _ i hlt, hbd, hcf]
    simp only [if_true]
    by_cases h1 : field f nb s + p < d
    · rw [if_neg (show ¬ ((field f nb s : Int) + p < 0 ∨ (field f nb s : Int) + p > ((d - 1 : Nat) : Int)) by omega),
        if_pos (show ((field f nb s + p : Nat) : ℕ∞) < (d : ℕ∞) by exact_mod_cast h1), if_pos (show (p : Int) > 0 by omega),
        Int.toNat_natCast]
      have hl : ((List.range p).map fun dd : Nat => ((field f nb s : Int) + ((dd : Int) + 1)).toNat)
          = (List.range p).map fun dd : Nat => field f nb s + (dd + 1) := by
        apply List.map_congr_left; intro x _; omega
      rw [hl, mulRoots_eq size _ c (by
        intro n hn
        obtain ⟨x, hx, rfl⟩ := List.mem_map.1 hn
        rw [List.mem_range] at hx; omega)]
      refine ⟨.nonzero _ _, rfl, ?_⟩
      have hidx : (((s : Int) + (p : Int) * 2 ^ f) % (W64 : Int)).toNat = setField f nb (field f nb s + p) s := by
        rw [setField_add]
        have hlt' : setField f nb (field f nb s + p) s < 2 ^ 63 :=
          (setField_lt (h1.trans_le h.le) hv.1 h.fits).trans_le (Nat.pow_le_pow_right (by norm_num) hsm)
        rw [setField_add] at hlt'
        have e : ((s : Int) + (p : Int) * 2 ^ f) = ((s + p * 2 ^ f : Nat) : Int) := by push_cast; rfl
        rw [e, ← Int.natCast_mod, Int.toNat_natCast, Nat.mod_eq_of_lt]
        unfold W64; omega
      rw [hidx, List.map_map]
      exact ActsAs.set hc h hv h1 c _
    · rw [if_pos (by omega), if_neg (by
        intro hh; apply h1; exact_mod_cast hh)]
      exact ⟨.zero, rfl, rfl⟩
  | false =>
    rw [lower_run, hcf]
    simp only [Bool.false_eq_true, if_false]
    by_cases h1 : field f nb s < p
    · rw [if_pos (by omega), if_pos h1]
      exact ⟨.zero, rfl, rfl⟩
    · rw [if_neg (show ¬ ((field f nb s : Int) + -(p : Int) < 0 ∨ (field f nb s : Int) + -(p : Int) > ((d - 1 : Nat) : Int)) by omega),
        if_neg h1, if_neg (show ¬ (-(p : Int) > 0) by omega), Int.neg_neg, Int.toNat_natCast]
      have hl : ((List.range p).map fun dd : Nat => ((field f nb s : Int) - (dd : Int)).toNat)
          = (List.range p).map fun dd : Nat => field f nb s - dd := by
        apply List.map_congr_left; intro x _; omega
      rw [hl, mulRoots_eq size _ c (by
        intro n hn
        obtain ⟨x, hx, rfl⟩ := List.mem_map.1 hn
        omega)]
      refine ⟨.nonzero _ _, rfl, ?_⟩
      have hidx : (((s : Int) + -(p : Int) * 2 ^ f) % (W64 : Int)).toNat = setField f nb (field f nb s - p) s := by
        have e1 := setField_sub (f := f) (nb := nb) (s := s) (k := p) (by omega)
        have e2 : ((s : Int) + -(p : Int) * 2 ^ f) = ((setField f nb (field f nb s - p) s : Nat) : Int) := by
          have := congrArg (Nat.cast : Nat → Int) e1
          push_cast at this
          linarith
        rw [e2, ← Int.natCast_mod, Int.toNat_natCast, Nat.mod_eq_of_lt]
        unfold W64; omega
      rw [hidx, List.map_map]
      exact ActsAs.set hc h hv (by omega) c _

theorem repB_act (hc : Constructed hs) {size : Nat} {us : List BosonUpdate} {m : List (Gen ι)} (hr : RepB hs size us m)
    {s : Nat} (hv : ValidState hs s) (c : S) :
    ActsAs hs s c (monAct (bosonDims hs) m (conf hs s)) (bosonActLoop (makeSqrRoots size) us.reverse s c) := by
  induction hr generalizing s c with
  | nil => exact ActsAs.nil hv
  | snoc hr h1 h2 h3 h4 ih =>
    rw [List.reverse_append, List.reverse_singleton, List.singleton_append]
    obtain ⟨r, e, hA⟩ := boson_update hc h1 h2 h3 h4 hv c _
    rw [e]
    exact ActsAs.comp hA fun t c' ht => ih ht c'

theorem runEnds_false {g : Gen ι} {l : List (Gen ι)} (h : runEnds g l = false) : ∃ l', l = g :: l' := by
  cases l with
  | nil => simp [runEnds] at h
  | cons x l =>
    simp only [runEnds, Bool.not_eq_false'] at h
    rw [Gen.eqOp_iff] at h
    exact ⟨l, by rw [h]⟩

/-- What the constructor loop produces. -/
theorem bosonLoop_spec (hc : Constructed hs) (l : List (Gen ι)) (power size : Nat) (us : List BosonUpdate) (m : List (Gen ι))
    (a : BosonAction) (hr : RepB hs size us m) (hp : 1 ≤ power) (h : bosonLoop hs l power size us = .ok a) :
    (a.vanishing = false ∧ ∃ size', a.sqrRoots = (if a.updates.isEmpty then [] else makeSqrRoots size') ∧
      ∀ g l', l = g :: l' → RepB hs size' a.updates (m ++ List.replicate (power - 1) g ++ l)) ∧
      (l = [] → a.updates = us ∧ a.sqrRoots = if us.isEmpty then [] else makeSqrRoots size) ∨
    (a.vanishing = true ∧ ∀ g l', l = g :: l' → ∃ m₁ m₂ d i q, m ++ List.replicate (power - 1) g ++ l
        = m₁ ++ List.replicate q (.boson d i) ++ m₂ ∧ bosonDims hs i ≤ q ∧ 0 < bosonDims hs i) := by
  induction l generalizing power size us m with
  | nil =>
    left
    rw [bosonLoop] at h
    cases h
    exact ⟨⟨rfl, size, rfl, by simp⟩, fun _ => ⟨rfl, rfl⟩⟩
  | cons g l ih =>
    cases g with
    | fermion d i => simp [bosonLoop] at h
    | spin n c i => simp [bosonLoop] at h
    | boson dagger i =>
      rw [bosonLoop] at h
      split at h
      · next hend =>
        split at h
        · simp at h
        · next hhas =>
          have hhas : hs.has (ESpace.boson 1 i) = true := by simpa using hhas
          obtain ⟨f, nb, d, hl⟩ := loc_of_has hc (es := (Mode.boson i).space) hhas
          have e1 := hl.range
          have e2 := hl.dimOf
          simp only [Mode.space] at e1 e2
          rw [e1, e2] at h
          simp only at h
          have hd64 : d < W64 := hl.le.trans_lt (Nat.pow_lt_pow_right (by norm_num) (by have := hl.fits; have := hl.small; omega))
          have hsub : sub64 d 1 = d - 1 := sub64_one hl.pos hd64
          have hadd : add64 (d - 1) 1 = d := by
            unfold add64
            rw [Nat.sub_add_cancel hl.pos, Nat.mod_eq_of_lt hd64]
          rw [hsub, hadd] at h
          have hrun : m ++ List.replicate (power - 1) (Gen.boson dagger i) ++ Gen.boson dagger i :: l
              = m ++ List.replicate power (Gen.boson dagger i) ++ l := by
            have : List.replicate power (Gen.boson dagger i) = List.replicate (power - 1) (Gen.boson dagger i) ++ [Gen.boson dagger i] := by
              rw [← List.replicate_succ', Nat.sub_add_cancel hp]
            rw [this]; simp
          split at h
          · next hpow =>
            right
            cases h
            refine ⟨rfl, fun g l' e => ?_⟩
            cases e
            refine ⟨m, l, dagger, i, power, hrun, ?_, ?_⟩
            · rw [loc_bosonDims hl]; exact_mod_cast (by omega : d ≤ power)
            · rw [loc_bosonDims hl]; exact_mod_cast hl.pos
          · next hpow =>
            have hnb : ((f : Int) + nb - 1 - f + 1).toNat = nb := by omega
            rw [hnb, Int.toNat_natCast] at h
            have hr' := RepB.snoc (dagger := dagger) (hr.mono (le_max_left size d)) hl hp (by omega) (le_max_right size d)
            rcases ih 1 (max size d) _ _ hr' le_rfl h with ⟨⟨hv, size', hs', hR⟩, hnil⟩ | ⟨hv, hR⟩
            · left
              cases l with
              | nil =>
                obtain ⟨hu, ht⟩ := hnil rfl
                refine ⟨⟨hv, max size d, by rw [hu]; exact ht, fun g l' e => ?_⟩, by simp⟩
                cases e
                rw [hrun, List.append_nil, hu]
                exact hr'
              | cons x l =>
                refine ⟨⟨hv, size', hs', fun g l' e => ?_⟩, by simp⟩
                cases e
                rw [hrun]
                simpa using hR x l rfl
            · right
              refine ⟨hv, fun g l' e => ?_⟩
              cases e
              cases l with
              | nil =>
                rw [bosonLoop] at h
                cases h
                simp at hv
              | cons x l =>
                rw [hrun]
                simpa using hR x l rfl
      · next hend =>
        obtain ⟨l', rfl⟩ := runEnds_false (by simpa using hend)
        have hrun : m ++ List.replicate (power + 1 - 1) (Gen.boson dagger i) ++ Gen.boson dagger i :: l'
            = m ++ List.replicate (power - 1) (Gen.boson dagger i) ++ Gen.boson dagger i :: Gen.boson dagger i :: l' := by
          have : List.replicate power (Gen.boson dagger i) = List.replicate (power - 1) (Gen.boson dagger i) ++ [Gen.boson dagger i] := by
            rw [← List.replicate_succ', Nat.sub_add_cancel hp]
          rw [Nat.add_sub_cancel, this]; simp
        rcases ih (power + 1) size us m hr (by omega) h with ⟨⟨hv, size', hs', hR⟩, _⟩ | ⟨hv, hR⟩
        · left
          refine ⟨⟨hv, size', hs', fun g l'' e => ?_⟩, by simp⟩
          cases e
          rw [← hrun]; exact hR _ _ rfl
        · right
          refine ⟨hv, fun g l'' e => ?_⟩
          cases e
          rw [← hrun]; exact hR _ _ rfl

/-- A run longer than the number of states annihilates everything. -/
theorem monAct_vanish (m₁ m₂ : List (Gen ι)) {d : Bool} {i : ι} {q : Nat} (h : bd i ≤ q) (n : Config ι)
    (hb : (n (.boson i) : ℕ∞) < bd i) : monAct bd (m₁ ++ List.replicate q (.boson d i) ++ m₂) n = none := by
  rw [monAct_append]
  cases e : monAct bd m₂ n with
  | none => rfl
  | some p =>
    rw [Option.bind_some, monAct_append]
    have hb' := monAct_bound e i hb
    have : monAct bd (List.replicate q (.boson d i)) p.1 = none := by
      cases d
      · rw [lower_run, if_pos]
        exact_mod_cast hb'.trans_le h
      · rw [raise_run _ _ _ hb', if_neg]
        rw [not_lt]
        refine h.trans ?_
        exact_mod_cast Nat.le_add_left _ _
    rw [this]
    rfl

/-- Bosonic monomials act as products of truncated ladder operators. -/
theorem boson_act (hc : Constructed hs) {m : List (Gen ι)} {a : BosonAction} (h : BosonAction.make m hs = .ok a) {s : Nat}
    (hv : ValidState hs s) (c : S) : ActsAs hs s c (monAct (bosonDims hs) m (conf hs s)) (a.act s c) := by
  unfold BosonAction.make at h
  cases m with
  | nil =>
    rw [bosonLoop] at h
    cases h
    exact ActsAs.nil hv
  | cons g l =>
    rcases bosonLoop_spec hc (g :: l) 1 0 [] [] a .nil le_rfl h with ⟨⟨h1, size, h2, h3⟩, _⟩ | ⟨h1, h2⟩
    · have hR := h3 g l rfl
      simp only [List.nil_append, Nat.sub_self, List.replicate_zero] at hR
      unfold BosonAction.act
      rw [h1]
      simp only [Bool.false_eq_true, if_false]
      have hne : a.updates.isEmpty = false := by
        cases hu : a.updates with
        | nil =>
          rw [hu] at hR
          generalize hu0 : ([] : List BosonUpdate) = us0 at hR
          generalize hm0 : g :: l = m0 at hR
          cases hR with
          | nil => simp at hm0
          | snoc => simp at hu0
        | cons => rfl
      rw [h2, hne]
      exact repB_act hc hR hv c
    · obtain ⟨m₁, m₂, d, i, q, e, hq, hpos⟩ := h2 g l rfl
      simp only [List.nil_append, Nat.sub_self, List.replicate_zero] at e
      unfold BosonAction.act
      rw [h1, e, monAct_vanish m₁ m₂ hq]
      · rfl
      · by_cases hh : hs.has (Mode.boson i).space = true
        · obtain ⟨f, nb, dd, hl⟩ := loc_of_has hc hh
          rw [loc_bosonDims hl, conf_loc hl]
          exact_mod_cast valid_occ hl hv
        · have : conf hs s (.boson i) = 0 := occ_not_has (by simpa using hh) s
          rw [this]; exact hpos

end LC
