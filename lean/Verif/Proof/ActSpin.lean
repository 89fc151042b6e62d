import Verif.Proof.ActBoson
/-
Spin monomials.
-/
set_option linter.unusedSectionVars false
set_option linter.unusedSimpArgs false
namespace LC
open HilbertSpace
variable {ι S : Type _} [LinearOrder ι] [CommRing S] [Algebra ℝ S] {hs : HilbertSpace ι} {bd : ι → ℕ∞}

theorem spin_coeff (mult n : Nat) (h : n < mult) :
    spinS mult * (spinS mult + 1) - ((n : ℝ) - spinS mult) * ((n : ℝ) - spinS mult + 1)
      = (((mult - 1 - n) * (n + 1) : Nat) : ℝ) := by
  have h1 : ((mult - 1 - n : Nat) : ℝ) = (mult : ℝ) - 1 - n := by
    rw [Nat.sub_sub, Nat.cast_sub (by omega)]; push_cast; ring
  push_cast
  rw [h1]
  unfold spinS
  ring

theorem spin_coeff' (mult n : Nat) (h : n < mult) (_h0 : n ≠ 0) :
    spinS mult * (spinS mult + 1) - ((n : ℝ) - spinS mult) * ((n : ℝ) - spinS mult - 1)
      = (((mult - 1 - n + 1) * n : Nat) : ℝ) := by
  have h1 : ((mult - 1 - n : Nat) : ℝ) = (mult : ℝ) - 1 - n := by
    rw [Nat.sub_sub, Nat.cast_sub (by omega)]; push_cast; ring
  push_cast
  rw [h1]
  unfold spinS
  ring

theorem plus_run (p mult : Nat) (n : Config ι) (i : ι) (h : n (.spin mult i) < mult) :
    monAct bd (List.replicate p (.spin mult .plus i)) n =
      if n (.spin mult i) + p < mult then
        some (Function.update n (.spin mult i) (n (.spin mult i) + p),
          ((List.range p).map fun d : Nat =>
            Real.sqrt (((mult - 1 - (n (.spin mult i) + d)) * (n (.spin mult i) + d + 1) : Nat) : ℝ)).prod)
      else none := by
  induction p with
  | zero => simp [monAct, h]
  | succ p ih =>
    rw [List.replicate_succ, monAct, ih]
    by_cases h1 : n (.spin mult i) + p < mult
    · rw [if_pos h1]
      simp only [Option.bind_some, genAct, Function.update_self]
      rw [List.range_succ, List.map_append, List.prod_append, spin_coeff _ _ h1]
      by_cases h2 : n (.spin mult i) + (p + 1) < mult
      · rw [if_pos h2, if_pos (by omega)]
        simp only [Option.map_some, Function.update_idem, List.map_cons, List.map_nil, List.prod_cons, List.prod_nil, mul_one]
        rw [mul_comm, Nat.add_assoc]
      · rw [if_neg h2, if_neg (by omega)]
        rfl
    · rw [if_neg h1, if_neg (by omega)]
      rfl

theorem minus_run (p mult : Nat) (n : Config ι) (i : ι) (h : n (.spin mult i) < mult) :
    monAct bd (List.replicate p (.spin mult .minus i)) n =
      if n (.spin mult i) < p then none else
        some (Function.update n (.spin mult i) (n (.spin mult i) - p),
          ((List.range p).map fun d : Nat =>
            Real.sqrt (((mult - 1 - (n (.spin mult i) - d) + 1) * (n (.spin mult i) - d) : Nat) : ℝ)).prod) := by
  induction p with
  | zero => simp [monAct]
  | succ p ih =>
    rw [List.replicate_succ, monAct, ih]
    by_cases h1 : n (.spin mult i) < p
    · rw [if_pos h1, if_pos (by omega)]
      rfl
    · rw [if_neg h1]
      simp only [Option.bind_some, genAct, Function.update_self]
      rw [List.range_succ, List.map_append, List.prod_append]
      by_cases h2 : n (.spin mult i) < p + 1
      · rw [if_pos h2, if_pos (by omega)]
        rfl
      · rw [if_neg h2, if_neg (by omega), spin_coeff' _ _ (by omega) (by omega)]
        simp only [Option.map_some, Function.update_idem, List.map_cons, List.map_nil, List.prod_cons, List.prod_nil, mul_one]
        rw [mul_comm, Nat.sub_sub]

theorem z_run (p mult : Nat) (n : Config ι) (i : ι) :
    monAct bd (List.replicate (p + 1) (.spin mult .z i)) n =
      if (n (.spin mult i) : ℝ) - spinS mult = 0 then none
      else some (n, ((n (.spin mult i) : ℝ) - spinS mult) ^ (p + 1)) := by
  induction p with
  | zero => simp [monAct, genAct]
  | succ p ih =>
    rw [List.replicate_succ, monAct, ih]
    split
    · rfl
    · next h =>
      simp only [Option.bind_some, genAct]
      rw [if_neg h]
      simp only [Option.map_some]
      rw [pow_succ' _ (p + 1)]

theorem spinSS_bound (mult x : Nat) (h : x < mult) : (mult - 1 - x) * (x + 1) ≤ spinSS mult := by
  unfold spinSS
  split
  · next h2 =>
    obtain ⟨k, rfl⟩ : ∃ k, mult = 2 * k := ⟨mult / 2, by omega⟩
    have e : 2 * k / 2 = k := by omega
    rw [e]
    obtain ⟨z, hz⟩ : ∃ z, z + x + 1 = 2 * k := ⟨2 * k - x - 1, by omega⟩
    have e2 : 2 * k - 1 - x = z := by omega
    rw [e2]
    rcases le_total z k with hk | hk
    · obtain ⟨t, rfl⟩ := Nat.exists_eq_add_of_le hk
      have : x + 1 = z + t + t := by omega
      rw [this]; nlinarith
    · obtain ⟨t, rfl⟩ := Nat.exists_eq_add_of_le hk
      have : k = x + 1 + t := by omega
      subst this; nlinarith
  · next h2 =>
    obtain ⟨k, rfl⟩ : ∃ k, mult = 2 * k + 1 := ⟨mult / 2, by omega⟩
    have e : (2 * k + 1 - 1) / 2 = k := by omega
    rw [e]
    obtain ⟨z, hz⟩ : ∃ z, z + x = 2 * k := ⟨2 * k - x, by omega⟩
    have e2 : 2 * k + 1 - 1 - x = z := by omega
    rw [e2]
    rcases le_total z k with hk | hk
    · obtain ⟨t, rfl⟩ := Nat.exists_eq_add_of_le hk
      have : x = z + t + t := by omega
      subst this; nlinarith
    · obtain ⟨t, rfl⟩ := Nat.exists_eq_add_of_le hk
      have : k = x + t := by omega
      subst this
      rcases Nat.eq_zero_or_pos t with h0 | h0
      · subst h0; nlinarith
      · nlinarith

/-- Updates that implement a spin monomial. -/
inductive RepS (hs : HilbertSpace ι) (size : Nat) : List SpinUpdate → List (Gen ι) → Prop
  | nil : RepS hs size [] []
  | snoc {us m mult c i p f nb} : RepS hs size us m → Loc hs (Mode.spin mult i).space f nb mult → mult < 2 ^ 31 → 1 ≤ p →
      spinSS mult < size →
      RepS hs size (us ++ [⟨mult - 1, f, sub64 (pow2 nb) 1, c, p⟩]) (m ++ List.replicate p (.spin mult c i))

theorem RepS.mono {size size' : Nat} (h : size ≤ size') {us : List SpinUpdate} {m : List (Gen ι)} (hr : RepS hs size us m) :
    RepS hs size' us m := by
  induction hr with
  | nil => exact .nil
  | snoc _ h1 h2 h3 h4 ih => exact .snoc ih h1 h2 h3 (by omega)

/-- One update. -/
theorem spin_update (hc : Constructed hs) {i : ι} {mult f nb p size : Nat} {comp : SpinComp}
    (h : Loc hs (Mode.spin mult i).space f nb mult) (hm : mult < 2 ^ 31) (hp : 1 ≤ p) (hsz : spinSS mult < size) {s : Nat}
    (hv : ValidState hs s) (c : S) (us : List SpinUpdate) :
    ∃ r, spinActLoop (makeSqrRoots size) (⟨mult - 1, f, sub64 (pow2 nb) 1, comp, p⟩ :: us) s c
        = ActRes.andThen r (spinActLoop (makeSqrRoots size) us) ∧
      ActsAs hs s c (monAct bd (List.replicate p (.spin mult comp i)) (conf hs s)) r := by
  have hfit := h.fits
  have hsm := h.small
  have hfld := valid_occ h hv
  have hcf := conf_loc h s
  rw [spinActLoop]
  simp only [field_mask f nb s (by omega)]
  have hsT : s < 2 ^ 63 := hv.1.trans_le (Nat.pow_le_pow_right (by norm_num) hsm)
  have hWb : (2 : Nat) ^ 63 + 2 ^ 63 = W64 := by unfold W64; norm_num
  have hmW : mult < W64 := by unfold W64; omega
  have h2f := Nat.two_pow_pos f
  have hpsh : p < mult → (p <<< f) % W64 = p * 2 ^ f := by
    intro hpm
    rw [Nat.shiftLeft_eq, Nat.mod_eq_of_lt]
    have h1 : p * 2 ^ f < 2 ^ nb * 2 ^ f := Nat.mul_lt_mul_of_pos_right (hpm.trans_le h.le) h2f
    rw [← pow_add] at h1
    have h2 : (2 : Nat) ^ (nb + f) ≤ 2 ^ 63 := Nat.pow_le_pow_right (by norm_num) (by omega)
    omega
  have hmul : ∀ a b : Nat, a < 2 ^ 31 → b ≤ 2 ^ 31 → mul64 a b = a * b := by
    intro a b ha hb
    unfold mul64
    rw [Nat.mod_eq_of_lt]
    have : a * b ≤ 2 ^ 31 * 2 ^ 31 := Nat.mul_le_mul ha.le hb
    have : (2 : Nat) ^ 31 * 2 ^ 31 < W64 := by unfold W64; norm_num
    omega
  have hsub : ∀ x : Nat, x < mult → sub64 (mult - 1) x = mult - 1 - x := by
    intro x hx
    unfold sub64
    rw [show mult - 1 + W64 - x = (mult - 1 - x) + W64 by omega, Nat.add_mod_right, Nat.mod_eq_of_lt (by omega)]
  cases comp with
  | plus =>
    rw [plus_run p mult _ i (by rw [hcf]; exact hfld), hcf]
    simp only
    by_cases h1 : field f nb s + p < mult
    · rw [if_neg (by omega), if_pos h1]
      have hl : ((List.range p).map fun d : Nat => mul64 (sub64 (mult - 1) (field f nb s + d)) (field f nb s + d + 1))
          = (List.range p).map fun d : Nat => (mult - 1 - (field f nb s + d)) * (field f nb s + d + 1) := by
        apply List.map_congr_left; intro x hx
        rw [List.mem_range] at hx
        rw [hsub _ (by omega), hmul _ _ (by omega) (by omega)]
      rw [hl, mulRoots_eq size _ c (by
        intro n hn
        obtain ⟨x, hx, rfl⟩ := List.mem_map.1 hn
        rw [List.mem_range] at hx
        exact (spinSS_bound mult _ (by omega)).trans_lt hsz)]
      refine ⟨.nonzero _ _, rfl, ?_⟩
      have hidx : add64 s ((p <<< f) % W64) = setField f nb (field f nb s + p) s := by
        rw [setField_add, hpsh (by omega)]
        have hlt' : setField f nb (field f nb s + p) s < 2 ^ 63 :=
          (setField_lt (h1.trans_le h.le) hv.1 h.fits).trans_le (Nat.pow_le_pow_right (by norm_num) hsm)
        rw [setField_add] at hlt'
        unfold add64
        rw [Nat.mod_eq_of_lt (by omega)]
      rw [hidx, List.map_map]
      exact ActsAs.set hc h hv h1 c _
    · rw [if_pos (by omega), if_neg h1]
      exact ⟨.zero, rfl, rfl⟩
  | minus =>
    rw [minus_run p mult _ i (by rw [hcf]; exact hfld), hcf]
    simp only
    by_cases h1 : field f nb s < p
    · rw [if_pos h1, if_pos h1]
      exact ⟨.zero, rfl, rfl⟩
    · rw [if_neg h1, if_neg h1]
      have hl : ((List.range p).map fun d : Nat => mul64 (add64 (sub64 (mult - 1) (field f nb s - d)) 1) (field f nb s - d))
          = (List.range p).map fun d : Nat => (mult - 1 - (field f nb s - d) + 1) * (field f nb s - d) := by
        apply List.map_congr_left; intro x hx
        rw [List.mem_range] at hx
        rw [hsub _ (by omega)]
        have : add64 (mult - 1 - (field f nb s - x)) 1 = mult - 1 - (field f nb s - x) + 1 := by
          unfold add64
          rw [Nat.mod_eq_of_lt (by omega)]
        rw [this, hmul _ _ (by omega) (by omega)]
      rw [hl, mulRoots_eq size _ c (by
        intro n hn
        obtain ⟨x, hx, rfl⟩ := List.mem_map.1 hn
        rw [List.mem_range] at hx
        have := spinSS_bound mult (field f nb s - x - 1) (by omega)
        rw [show mult - 1 - (field f nb s - x - 1) = mult - 1 - (field f nb s - x) + 1 by omega,
          show field f nb s - x - 1 + 1 = field f nb s - x by omega] at this
        exact this.trans_lt hsz)]
      refine ⟨.nonzero _ _, rfl, ?_⟩
      have hidx : sub64 s ((p <<< f) % W64) = setField f nb (field f nb s - p) s := by
        have e1 := setField_sub (f := f) (nb := nb) (s := s) (k := p) (by omega)
        rw [hpsh (by omega)]
        unfold sub64
        rw [show s + W64 - p * 2 ^ f = setField f nb (field f nb s - p) s + W64 by omega, Nat.add_mod_right,
          Nat.mod_eq_of_lt (by omega)]
      rw [hidx, List.map_map]
      exact ActsAs.set hc h hv (by omega) c _
  | z =>
    obtain ⟨q, rfl⟩ : ∃ q, p = q + 1 := ⟨p - 1, by omega⟩
    rw [z_run, hcf]
    simp only
    have hS : spinS mult = ((mult - 1 : Nat) : ℝ) / 2 := by
      unfold spinS; rw [Nat.cast_sub (by omega)]; push_cast; ring
    have hz : ((field f nb s : ℝ) - spinS mult = 0) ↔ ((mult - 1) % 2 = 0 ∧ field f nb s = (mult - 1) / 2) := by
      rw [hS]
      constructor
      · intro he
        have : ((2 * field f nb s : Nat) : ℝ) = ((mult - 1 : Nat) : ℝ) := by push_cast; linarith
        have := Nat.cast_injective this
        omega
      · rintro ⟨h1, h2⟩
        have : 2 * field f nb s = mult - 1 := by omega
        have : ((2 * field f nb s : Nat) : ℝ) = ((mult - 1 : Nat) : ℝ) := by rw [this]
        push_cast at this
        linarith
    by_cases h1 : (mult - 1) % 2 = 0 ∧ field f nb s = (mult - 1) / 2
    · rw [if_pos h1, if_pos (hz.2 h1)]
      exact ⟨.zero, rfl, rfl⟩
    · rw [if_neg h1, if_neg (fun he => h1 (hz.1 he))]
      refine ⟨.nonzero s (c * algebraMap ℝ S (((field f nb s : ℝ) - ((mult - 1 : Nat) : ℝ) / 2) ^ (q + 1))), rfl, ?_⟩
      exact ⟨s, by rw [hS], hv, rfl, fun _ _ => rfl⟩

theorem repS_act (hc : Constructed hs) {size : Nat} {us : List SpinUpdate} {m : List (Gen ι)} (hr : RepS hs size us m)
    {s : Nat} (hv : ValidState hs s) (c : S) :
    ActsAs hs s c (monAct bd m (conf hs s)) (spinActLoop (makeSqrRoots size) us.reverse s c) := by
  induction hr generalizing s c with
  | nil => exact ActsAs.nil hv
  | snoc hr h1 h2 h3 h4 ih =>
    rw [List.reverse_append, List.reverse_singleton, List.singleton_append]
    obtain ⟨r, e, hA⟩ := spin_update (bd := bd) hc h1 h2 h3 h4 hv c _
    rw [e]
    exact ActsAs.comp hA fun t c' ht => ih ht c'

theorem loc_spin (hpre : PredefinedSpaces hs) {mult : Nat} {i : ι} {f nb d : Nat} (h : Loc hs (Mode.spin mult i).space f nb d) :
    d = mult ∧ mult < 2 ^ 31 := by
  obtain ⟨e, he, hk, hd, _⟩ := h.mem
  have hm : e ∈ hs.elementarySpaces := List.mem_map.2 ⟨_, he, rfl⟩
  rw [ESpace.key_eq_iff] at hk
  obtain ⟨h1, h2, h3⟩ := hk
  obtain ⟨m, j, hlt, rfl⟩ := (hpre e hm).2.2 h1
  simp only [Mode.space, ESpace.spin] at h2 h3 hd
  subst h2 hd
  exact ⟨rfl, hlt⟩

/-- What the constructor loop produces. -/
theorem spinLoop_spec (hc : Constructed hs) (hpre : PredefinedSpaces hs) (l : List (Gen ι)) (power size : Nat)
    (us : List SpinUpdate) (m : List (Gen ι)) (a : SpinAction) (hr : RepS hs size us m) (hp : 1 ≤ power)
    (h : spinLoop hs l power size us = .ok a) :
    (∃ size', a.sqrRoots = (if a.updates.isEmpty then [] else makeSqrRoots size') ∧
      ∀ g l', l = g :: l' → RepS hs size' a.updates (m ++ List.replicate (power - 1) g ++ l)) ∧
      (l = [] → a.updates = us ∧ a.sqrRoots = if us.isEmpty then [] else makeSqrRoots size) := by
  induction l generalizing power size us m with
  | nil =>
    rw [spinLoop] at h
    cases h
    exact ⟨⟨size, rfl, by simp⟩, fun _ => ⟨rfl, rfl⟩⟩
  | cons g l ih =>
    cases g with
    | fermion d i => simp [spinLoop] at h
    | boson d i => simp [spinLoop] at h
    | spin mult comp i =>
      rw [spinLoop] at h
      split at h
      · next hend =>
        split at h
        · simp at h
        · next hhas =>
          have hhas : hs.has (ESpace.spin mult i) = true := by simpa using hhas
          obtain ⟨f, nb, d, hl⟩ := loc_of_has hc (es := (Mode.spin mult i).space) hhas
          obtain ⟨rfl, hm⟩ := loc_spin hpre hl
          have e1 := hl.range
          simp only [Mode.space] at e1
          rw [e1] at h
          simp only at h
          have hrun : m ++ List.replicate (power - 1) (Gen.spin d comp i) ++ Gen.spin d comp i :: l
              = m ++ List.replicate power (Gen.spin d comp i) ++ l := by
            have : List.replicate power (Gen.spin d comp i) = List.replicate (power - 1) (Gen.spin d comp i) ++ [Gen.spin d comp i] := by
              rw [← List.replicate_succ', Nat.sub_add_cancel hp]
            rw [this]; simp
          have hnb : ((f : Int) + nb - 1 - f + 1).toNat = nb := by omega
          rw [hnb, Int.toNat_natCast] at h
          have hr' := RepS.snoc (c := comp) (hr.mono (le_max_left size (spinSS d + 1))) hl hm hp
            (show spinSS d < max size (spinSS d + 1) by omega)
          obtain ⟨⟨size', hs', hR⟩, hnil⟩ := ih 1 _ _ _ hr' le_rfl h
          cases l with
          | nil =>
            obtain ⟨hu, ht⟩ := hnil rfl
            refine ⟨⟨max size (spinSS d + 1), by rw [hu]; exact ht, fun g l' e => ?_⟩, by simp⟩
            cases e
            rw [hrun, List.append_nil, hu]
            exact hr'
          | cons x l =>
            refine ⟨⟨size', hs', fun g l' e => ?_⟩, by simp⟩
            cases e
            rw [hrun]
            simpa using hR x l rfl
      · next hend =>
        obtain ⟨l', rfl⟩ := runEnds_false (by simpa using hend)
        have hrun : m ++ List.replicate (power + 1 - 1) (Gen.spin mult comp i) ++ Gen.spin mult comp i :: l'
            = m ++ List.replicate (power - 1) (Gen.spin mult comp i) ++ Gen.spin mult comp i :: Gen.spin mult comp i :: l' := by
          have : List.replicate power (Gen.spin mult comp i) = List.replicate (power - 1) (Gen.spin mult comp i) ++ [Gen.spin mult comp i] := by
            rw [← List.replicate_succ', Nat.sub_add_cancel hp]
          rw [Nat.add_sub_cancel, this]; simp
        obtain ⟨⟨size', hs', hR⟩, _⟩ := ih (power + 1) size us m hr (by omega) h
        refine ⟨⟨size', hs', fun g l'' e => ?_⟩, by simp⟩
        cases e
        rw [← hrun]; exact hR _ _ rfl

/-- Spin monomials act as products of spin operators. -/
theorem spin_act (hc : Constructed hs) (hpre : PredefinedSpaces hs) {m : List (Gen ι)} {a : SpinAction}
    (h : SpinAction.make m hs = .ok a) {s : Nat} (hv : ValidState hs s) (c : S) :
    ActsAs hs s c (monAct bd m (conf hs s)) (a.act s c) := by
  unfold SpinAction.make at h
  cases m with
  | nil =>
    rw [spinLoop] at h
    cases h
    exact ActsAs.nil hv
  | cons g l =>
    obtain ⟨⟨size, h2, h3⟩, _⟩ := spinLoop_spec hc hpre (g :: l) 1 0 [] [] a .nil le_rfl h
    have hR := h3 g l rfl
    simp only [List.nil_append, Nat.sub_self, List.replicate_zero] at hR
    unfold SpinAction.act
    have hne : a.updates.isEmpty = false := by
      cases hu : a.updates with
      | nil =>
        rw [hu] at hR
        generalize hu0 : ([] : List SpinUpdate) = us0 at hR
        generalize hm0 : g :: l = m0 at hR
        cases hR with
        | nil => simp at hm0
        | snoc => simp at hu0
      | cons => rfl
    rw [h2, hne]
    exact repS_act hc hR hv c

end LC
