import Verif.Proof.ActBasic
import Verif.Proof.FermionBits
/-
Fermionic monomials.
-/
set_option linter.unusedSectionVars false
set_option linter.unusedSimpArgs false
namespace LC
open HilbertSpace
variable {ι S : Type _} [LinearOrder ι] [CommRing S] [Algebra ℝ S] {hs : HilbertSpace ι} {bd : ι → ℕ∞}

/-- The bit of a fermionic mode. -/
def fpos (hs : HilbertSpace ι) (i : ι) : Nat :=
  match hs.bitRange (ESpace.fermion i) with
  | .ok r => r.first.toNat
  | .error _ => 0

theorem floc (hc : Constructed hs) (hpre : PredefinedSpaces hs) {i : ι} (h : hs.has (ESpace.fermion i) = true) :
    Loc hs (Mode.fermion i).space (fpos hs i) 1 2 := by
  obtain ⟨f, nb, d, hl⟩ := loc_of_has hc (es := (Mode.fermion i).space) h
  obtain ⟨e, he, hk, hd, hb⟩ := hl.mem
  have hm : e ∈ hs.elementarySpaces := List.mem_map.2 ⟨_, he, rfl⟩
  rw [ESpace.key_eq_iff] at hk
  obtain ⟨j, rfl⟩ := (hpre e hm).1 hk.1
  have e1 := hl.range
  simp only [ESpace.fermion] at hd hb
  subst hd hb
  have : fpos hs i = f := by
    unfold fpos
    simp only [Mode.space] at e1
    rw [e1]
    simp
  rw [this]
  exact hl

theorem loc_lt (hc : Constructed hs) {es es' : ESpace ι} {f nb d f' nb' d' : Nat}
    (h : Loc hs es f nb d) (h' : Loc hs es' f' nb' d') (hne : es.key < es'.key) : f + nb ≤ f' := by
  obtain ⟨l, hf, rfl⟩ := hc.canon
  obtain ⟨e, he, hk, _, hb⟩ := h.mem
  obtain ⟨e', he', hk', _, hb'⟩ := h'.mem
  rw [canon_spaces, mem_layout] at he he'
  obtain ⟨pre, post, hl, hr⟩ := he
  obtain ⟨pre', post', hl', hr'⟩ := he'
  simp only [BitRange.mk.injEq] at hr hr' hl hl'
  rw [Nat.zero_add] at hr hr'
  have h1 := hr.1
  have h2 := hr'.1
  have hpp : pre ++ e :: post = pre' ++ e' :: post' := hl ▸ hl'
  rcases List.append_eq_append_iff.1 hpp with ⟨a, rfl, ha⟩ | ⟨a, rfl, ha⟩
  · cases a with
    | nil =>
      simp at ha
      rw [ha.1] at hk
      exact (hne.ne (hk.symm.trans hk')).elim
    | cons x a =>
      simp at ha
      obtain ⟨rfl, _⟩ := ha
      simp only [bitSum_append, bitSum_cons] at h2
      omega
  · cases a with
    | nil =>
      simp at ha
      rw [← ha.1] at hk
      exact (hne.ne (hk.symm.trans hk')).elim
    | cons x a =>
      simp at ha
      obtain ⟨rfl, rfl⟩ := ha
      have hsrt := hf.sorted
      rw [hl'] at hsrt
      have := (List.pairwise_cons.1 (List.pairwise_append.1 hsrt).2.1).1 e (by simp)
      rw [hk, hk'] at this
      exact (lt_asymm hne this).elim

theorem fermion_key_lt {i j : ι} (h : i < j) : (ESpace.fermion i).key < (ESpace.fermion j).key := by
  unfold ESpace.key ESpace.fermion
  rw [Prod.Lex.lt_iff]
  right
  refine ⟨rfl, ?_⟩
  rw [Prod.Lex.lt_iff]
  right
  exact ⟨rfl, h⟩

theorem fpos_lt (hc : Constructed hs) (hpre : PredefinedSpaces hs) {i j : ι} (hi : hs.has (ESpace.fermion i) = true)
    (hj : hs.has (ESpace.fermion j) = true) (h : i < j) : fpos hs i < fpos hs j :=
  loc_lt hc (floc hc hpre hi) (floc hc hpre hj) (fermion_key_lt h)

theorem fpos_inj (hc : Constructed hs) (hpre : PredefinedSpaces hs) {i j : ι} (hi : hs.has (ESpace.fermion i) = true)
    (hj : hs.has (ESpace.fermion j) = true) (h : fpos hs i = fpos hs j) : i = j := by
  rcases lt_trichotomy i j with h1 | h1 | h1
  · have := fpos_lt hc hpre hi hj h1; omega
  · exact h1
  · have := fpos_lt hc hpre hj hi h1; omega

/-- The fermionic modes occupy the bits `r0, …, r1-1`. -/
structure FGeom (hs : HilbertSpace ι) (r0 r1 : Nat) : Prop where
  range : hs.algebraBitRange (-3) = .ok ⟨(r0 : Int), (r1 : Int) - 1⟩
  mem : ∀ i, hs.has (ESpace.fermion i) = true → r0 ≤ fpos hs i ∧ fpos hs i < r1
  covered : ∀ b, r0 ≤ b → b < r1 → ∃ i, hs.has (ESpace.fermion i) = true ∧ fpos hs i = b
  le : r1 ≤ 63

theorem exists_fgeom (hc : Constructed hs) (hpre : PredefinedSpaces hs) {i : ι} (h : hs.has (ESpace.fermion i) = true) :
    ∃ r0 r1, FGeom hs r0 r1 := by
  have hfl := fun j hj => floc hc hpre (i := j) hj
  have hc' := hc
  obtain ⟨l, hf, rfl⟩ := hc.canon
  have hel : (canon l).elementarySpaces = l := by
    unfold elementarySpaces; rw [canon_spaces, layout_fst]
  obtain ⟨_, hlook⟩ := algOf_spec l hf.sorted
  have hl : (canon l).algRanges = algOf (layout 0 l) [] := rfl
  have hex : ∃ es ∈ l, es.algebraId = -3 := by
    obtain ⟨e, he, hk, _⟩ := (hfl i h).mem
    refine ⟨e, ?_, ?_⟩
    · rw [← hel]; exact List.mem_map.2 ⟨_, he, rfl⟩
    · rw [ESpace.key_eq_iff] at hk; exact hk.1
  refine ⟨bitsBelow (-3) l, bitsUpTo (-3) l, ?_, ?_, ?_, ?_⟩
  · unfold algebraBitRange
    rw [hl, hlook, if_pos hex]
  · intro j hj
    obtain ⟨e, he, hk, _, hb⟩ := (hfl j hj).mem
    rw [canon_spaces, mem_layout] at he
    obtain ⟨pre, post, e1, e2⟩ := he
    rw [ESpace.key_eq_iff] at hk
    have h3 := bits_position hf.sorted e1
    simp only at h3
    have ha : e.algebraId = -3 := hk.1
    rw [ha] at h3
    simp only [BitRange.mk.injEq, Nat.zero_add] at e2
    have := e2.1
    omega
  · intro b h1 h2
    obtain ⟨pre, es, post, e1, e2, e3, e4⟩ := bits_covered hf.sorted (-3) b h1 h2
    have hes : es ∈ (canon l).elementarySpaces := by rw [hel, e1]; simp
    obtain ⟨j, rfl⟩ := (hpre es hes).1 e2
    simp only [ESpace.fermion] at e4
    have hmem : (ESpace.fermion j, (⟨(bitSum pre : Nat), (bitSum pre : Nat) + (1 : Int) - 1⟩ : BitRange)) ∈ (canon l).spaces := by
      rw [canon_spaces, mem_layout]
      exact ⟨pre, post, e1, by simp [ESpace.fermion]⟩
    obtain ⟨f, q1, q2⟩ := loc_of_mem hc' hmem (es := (Mode.fermion j).space) rfl
    refine ⟨j, q2.has, ?_⟩
    have q3 := q2.range
    unfold fpos
    simp only [Mode.space] at q3
    rw [q3]
    simp only [Int.toNat_natCast, BitRange.mk.injEq] at q1 ⊢
    omega
  · have := hf.bits
    refine le_trans ?_ this
    unfold bitsUpTo
    exact (List.filter_sublist.map _).sum_le_sum (by simp)

/-- Occupation of a fermionic mode. -/
theorem conf_fermion (hc : Constructed hs) (hpre : PredefinedSpaces hs) {i : ι} (h : hs.has (ESpace.fermion i) = true) (s : Nat) :
    conf hs s (.fermion i) = (s.testBit (fpos hs i)).toNat := by
  rw [conf_loc (floc hc hpre h), field, Nat.toNat_testBit, pow_one]

theorem conf_fermion_none {i : ι} (h : hs.has (ESpace.fermion i) = false) (s : Nat) : conf hs s (.fermion i) = 0 :=
  occ_not_has h s

theorem jw_eq (hc : Constructed hs) (hpre : PredefinedSpaces hs) {r0 r1 : Nat} (hg : FGeom hs r0 r1) {i : ι}
    (h : hs.has (ESpace.fermion i) = true) (s : Nat) : jw (conf hs s) i = cnt r0 s (fpos hs i) := by
  have hhas : ∀ j, conf hs s (.fermion j) ≠ 0 → hs.has (ESpace.fermion j) = true := by
    intro j hj
    by_contra hh
    exact hj (conf_fermion_none (by simpa using hh) s)
  unfold jw cnt
  rw [← Set.ncard_coe_finset, ← Set.InjOn.ncard_image (f := fpos hs)]
  · congr 1
    ext b
    simp only [Set.mem_image, Set.mem_ofPred_eq, Finset.coe_filter, Finset.mem_range]
    constructor
    · rintro ⟨j, ⟨h1, h2⟩, rfl⟩
      have hj := hhas j h2
      refine ⟨fpos_lt hc hpre hj h h1, (hg.mem j hj).1, ?_⟩
      rw [conf_fermion hc hpre hj] at h2
      simpa using h2
    · rintro ⟨h1, h2, h3⟩
      obtain ⟨j, hj, rfl⟩ := hg.covered b h2 (by have := hg.mem i h; omega)
      refine ⟨j, ⟨?_, by rw [conf_fermion hc hpre hj, h3]; simp⟩, rfl⟩
      rcases lt_trichotomy j i with q | q | q
      · exact q
      · subst q; omega
      · have := fpos_lt hc hpre h hj q; omega
  · rintro a ⟨_, ha⟩ b ⟨_, hb⟩ hab
    exact fpos_inj hc hpre (hhas a ha) (hhas b hb) hab

theorem testBit_setField_one (f y s b : Nat) (hy : y < 2) :
    (setField f 1 y s).testBit b = if b = f then y.testBit 0 else s.testBit b := by
  unfold setField
  rw [Nat.add_comm, Nat.testBit_two_pow_mul_add _ (Nat.mod_lt _ (Nat.two_pow_pos f))]
  by_cases h : b < f
  · rw [if_pos h, if_neg (by omega), Nat.testBit_mod_two_pow]
    simp [h]
  · rw [if_neg h]
    by_cases h2 : b = f
    · subst h2
      rw [if_pos rfl, Nat.sub_self, Nat.testBit_zero, Nat.testBit_zero]
      congr 1
      rw [pow_one, Nat.add_mul_mod_self_left]
    · rw [if_neg h2, Nat.add_comm, Nat.testBit_two_pow_mul_add _ (by simpa using hy), if_neg (by omega),
        Nat.testBit_div_two_pow]
      congr 1
      omega

/-- The new index is valid and leaves user-defined elementary spaces alone. -/
def Good (hs : HilbertSpace ι) (s t : Nat) : Prop := ValidState hs t ∧ ∀ es : ESpace ι, es.Foreign → occ hs t es = occ hs s es

theorem set_fermion (hc : Constructed hs) (hpre : PredefinedSpaces hs) {i : ι} (h : hs.has (ESpace.fermion i) = true) {s : Nat}
    (hv : ValidState hs s) (y : Nat) (hy : y < 2) :
    ∃ t, Good hs s t ∧ (∀ b, t.testBit b = if b = fpos hs i then y.testBit 0 else s.testBit b) ∧
      conf hs t = Function.update (conf hs s) (.fermion i) y := by
  have hA := ActsAs.set (S := ℝ) hc (floc hc hpre h) hv hy 1 1
  obtain ⟨t, h1, h2, h3, h4⟩ := hA
  have : setField (fpos hs i) 1 y s = t := by
    injection h1
  subst this
  exact ⟨_, ⟨h2, h4⟩, fun b => testBit_setField_one _ _ _ _ hy, h3⟩

theorem cnt_congr {r0 s t k : Nat} (h : ∀ b < k, s.testBit b = t.testBit b) : cnt r0 s k = cnt r0 t k := by
  unfold cnt
  congr 1
  apply Finset.filter_congr
  intro b hb
  rw [h b (Finset.mem_range.1 hb)]

theorem create_run_some (hc : Constructed hs) (hpre : PredefinedSpaces hs) {r0 r1 : Nat} (hg : FGeom hs r0 r1) (p : List ι)
    (hp : p.Pairwise (· < ·)) (hh : ∀ i ∈ p, hs.has (ESpace.fermion i) = true) {s : Nat} (hv : ValidState hs s)
    (h0 : ∀ i ∈ p, s.testBit (fpos hs i) = false) :
    ∃ t, Good hs s t ∧ (∀ b, t.testBit b = (s.testBit b || decide (b ∈ p.map (fpos hs)))) ∧
      monAct bd (p.map (Gen.fermion true)) (conf hs s) = some (conf hs t, (-1) ^ ((p.map fun i => cnt r0 s (fpos hs i)).sum)) := by
  induction p with
  | nil => exact ⟨s, ⟨hv, fun _ _ => rfl⟩, by simp, by simp [monAct]⟩
  | cons x p ih =>
    rw [List.pairwise_cons] at hp
    obtain ⟨t, hgd, hb, hm⟩ := ih hp.2 (fun i hi => hh i (by simp [hi])) (fun i hi => h0 i (by simp [hi]))
    have hx := hh x (by simp)
    have hxn : fpos hs x ∉ p.map (fpos hs) := by
      intro hmm
      obtain ⟨y, hy, e⟩ := List.mem_map.1 hmm
      have := fpos_lt hc hpre hx (hh y (by simp [hy])) (hp.1 y hy)
      omega
    have ht0 : t.testBit (fpos hs x) = false := by rw [hb, h0 x (by simp)]; simp [hxn]
    obtain ⟨t', hgd', hb', hc''⟩ := set_fermion hc hpre hx hgd.1 1 (by norm_num)
    refine ⟨t', ⟨hgd'.1, fun es hes => (hgd'.2 es hes).trans (hgd.2 es hes)⟩, fun b => ?_, ?_⟩
    · rw [hb', hb]
      by_cases e : b = fpos hs x
      · simp [e]
      · rw [if_neg e, List.map_cons]
        simp [e]
    · rw [List.map_cons, monAct, hm]
      simp only [Option.bind_some, genAct]
      rw [if_pos (by rw [conf_fermion hc hpre hx, ht0]; rfl), jw_eq hc hpre hg hx, hc'']
      simp only [Option.map_some, List.map_cons, List.sum_cons]
      have : cnt r0 t (fpos hs x) = cnt r0 s (fpos hs x) := by
        apply cnt_congr
        intro b hbx
        rw [hb]
        have : b ∉ p.map (fpos hs) := by
          intro hmm
          obtain ⟨y, hy, e⟩ := List.mem_map.1 hmm
          have := fpos_lt hc hpre hx (hh y (by simp [hy])) (hp.1 y hy)
          omega
        simp [this]
      rw [this, pow_add]

theorem create_run_none (hc : Constructed hs) (hpre : PredefinedSpaces hs) {r0 r1 : Nat} (hg : FGeom hs r0 r1) (p : List ι)
    (hp : p.Pairwise (· < ·)) (hh : ∀ i ∈ p, hs.has (ESpace.fermion i) = true) {s : Nat} (hv : ValidState hs s)
    (h0 : ¬ ∀ i ∈ p, s.testBit (fpos hs i) = false) : monAct bd (p.map (Gen.fermion true)) (conf hs s) = none := by
  induction p with
  | nil => exact (h0 (by simp)).elim
  | cons x p ih =>
    rw [List.pairwise_cons] at hp
    have hx := hh x (by simp)
    by_cases h1 : ∀ i ∈ p, s.testBit (fpos hs i) = false
    · obtain ⟨t, _, hb, hm⟩ := create_run_some (bd := bd) hc hpre hg p hp.2 (fun i hi => hh i (by simp [hi])) hv h1
      have hsx : s.testBit (fpos hs x) = true := by
        by_contra hc
        exact h0 (by
          intro i hi
          rcases List.mem_cons.1 hi with rfl | hi
          · simpa using hc
          · exact h1 i hi)
      rw [List.map_cons, monAct, hm]
      simp only [Option.bind_some, genAct]
      rw [if_neg (by rw [conf_fermion hc hpre hx, hb, hsx]; simp)]
      rfl
    · rw [List.map_cons, monAct, ih hp.2 (fun i hi => hh i (by simp [hi])) h1]
      rfl

theorem annih_run_some (hc : Constructed hs) (hpre : PredefinedSpaces hs) {r0 r1 : Nat} (hg : FGeom hs r0 r1) (p : List ι)
    (hp : p.Pairwise (· > ·)) (hh : ∀ i ∈ p, hs.has (ESpace.fermion i) = true) {s : Nat} (hv : ValidState hs s)
    (h0 : ∀ i ∈ p, s.testBit (fpos hs i) = true) :
    ∃ t, Good hs s t ∧ (∀ b, t.testBit b = (s.testBit b && decide (b ∉ p.map (fpos hs)))) ∧
      monAct bd (p.map (Gen.fermion false)) (conf hs s) = some (conf hs t, (-1) ^ ((p.map fun i => cnt r0 t (fpos hs i)).sum)) := by
  induction p with
  | nil => exact ⟨s, ⟨hv, fun _ _ => rfl⟩, by simp, by simp [monAct]⟩
  | cons x p ih =>
    rw [List.pairwise_cons] at hp
    obtain ⟨t, hgd, hb, hm⟩ := ih hp.2 (fun i hi => hh i (by simp [hi])) (fun i hi => h0 i (by simp [hi]))
    have hx := hh x (by simp)
    have hlt : ∀ y ∈ p, fpos hs y < fpos hs x := fun y hy => fpos_lt hc hpre (hh y (by simp [hy])) hx (hp.1 y hy)
    have hxn : fpos hs x ∉ p.map (fpos hs) := by
      intro hmm
      obtain ⟨y, hy, e⟩ := List.mem_map.1 hmm
      have := hlt y hy
      omega
    have ht0 : t.testBit (fpos hs x) = true := by rw [hb, h0 x (by simp)]; simp [hxn]
    obtain ⟨t', hgd', hb', hc''⟩ := set_fermion hc hpre hx hgd.1 0 (by norm_num)
    refine ⟨t', ⟨hgd'.1, fun es hes => (hgd'.2 es hes).trans (hgd.2 es hes)⟩, fun b => ?_, ?_⟩
    · rw [hb', hb]
      by_cases e : b = fpos hs x
      · simp [e]
      · rw [if_neg e, List.map_cons]
        simp [e]
    · rw [List.map_cons, monAct, hm]
      simp only [Option.bind_some, genAct]
      rw [if_pos (by rw [conf_fermion hc hpre hx, ht0]; rfl), jw_eq hc hpre hg hx, hc'']
      simp only [Option.map_some, List.map_cons, List.sum_cons]
      have hcg : ∀ k ≤ fpos hs x, cnt r0 t k = cnt r0 t' k := by
        intro k hk
        apply cnt_congr
        intro b hbk
        rw [hb', if_neg (by omega)]
      have e2 : (p.map fun i => cnt r0 t (fpos hs i)) = p.map fun i => cnt r0 t' (fpos hs i) := by
        apply List.map_congr_left
        intro y hy
        exact hcg _ (hlt y hy).le
      rw [hcg _ le_rfl, e2, pow_add]

theorem annih_run_none (hc : Constructed hs) (hpre : PredefinedSpaces hs) {r0 r1 : Nat} (hg : FGeom hs r0 r1) (p : List ι)
    (hp : p.Pairwise (· > ·)) (hh : ∀ i ∈ p, hs.has (ESpace.fermion i) = true) {s : Nat} (hv : ValidState hs s)
    (h0 : ¬ ∀ i ∈ p, s.testBit (fpos hs i) = true) : monAct bd (p.map (Gen.fermion false)) (conf hs s) = none := by
  induction p with
  | nil => exact (h0 (by simp)).elim
  | cons x p ih =>
    rw [List.pairwise_cons] at hp
    have hx := hh x (by simp)
    by_cases h1 : ∀ i ∈ p, s.testBit (fpos hs i) = true
    · obtain ⟨t, _, hb, hm⟩ := annih_run_some (bd := bd) hc hpre hg p hp.2 (fun i hi => hh i (by simp [hi])) hv h1
      have hsx : s.testBit (fpos hs x) = false := by
        by_contra hc
        exact h0 (by
          intro i hi
          rcases List.mem_cons.1 hi with rfl | hi
          · simpa using hc
          · exact h1 i hi)
      rw [List.map_cons, monAct, hm]
      simp only [Option.bind_some, genAct]
      rw [if_neg (by rw [conf_fermion hc hpre hx, hb, hsx]; simp)]
      rfl
    · rw [List.map_cons, monAct, ih hp.2 (fun i hi => hh i (by simp [hi])) h1]
      rfl

/-- What the constructor loop computes. -/
theorem fermionLoop_create (hc : Constructed hs) (hpre : PredefinedSpaces hs) (p : List ι) (l : List (Gen ι)) (b : FermionBits)
    (h : ∀ i ∈ p, hs.has (ESpace.fermion i) = true) :
    fermionLoop hs (p.map (Gen.fermion true) ++ l) b =
      fermionLoop hs l { b with creationSetBits := b.creationSetBits ++ (p.map (fpos hs)).map fun x : Nat => (x : Int),
                                creationMask := b.creationMask ||| maskOf (p.map (fpos hs)) } := by
  induction p generalizing b with
  | nil => simp [maskOf]
  | cons x p ih =>
    have hx := h x (by simp)
    have hl := floc hc hpre hx
    have hr := hl.range
    have hf := hl.fits
    have hs' := hl.small
    simp only [Mode.space] at hr
    rw [List.map_cons, List.cons_append, fermionLoop, hx, hr]
    simp only [Bool.not_true, Bool.false_eq_true, if_false, if_true, Int.toNat_natCast]
    rw [ih _ (fun i hi => h i (by simp [hi])), pow2_eq (by omega)]
    simp [maskOf, Nat.or_assoc]

theorem fermionLoop_annih (hc : Constructed hs) (hpre : PredefinedSpaces hs) (p : List ι) (b : FermionBits)
    (h : ∀ i ∈ p, hs.has (ESpace.fermion i) = true) :
    fermionLoop hs (p.map (Gen.fermion false)) b =
      .ok { b with annihilationSetBits := b.annihilationSetBits ++ (p.map (fpos hs)).map fun x : Nat => (x : Int),
                   annihilationMask := b.annihilationMask ||| maskOf (p.map (fpos hs)) } := by
  induction p generalizing b with
  | nil => simp [maskOf, fermionLoop]
  | cons x p ih =>
    have hx := h x (by simp)
    have hl := floc hc hpre hx
    have hr := hl.range
    have hf := hl.fits
    have hs' := hl.small
    simp only [Mode.space] at hr
    rw [List.map_cons, fermionLoop, hx, hr]
    simp only [Bool.not_true, Bool.false_eq_true, if_false, if_true, Int.toNat_natCast]
    rw [ih _ (fun i hi => h i (by simp [hi])), pow2_eq (by omega)]
    simp [maskOf, Nat.or_assoc]

theorem fermionLoop_has (m : List (Gen ι)) (b r : FermionBits) (h : fermionLoop hs m b = .ok r) :
    ∀ g ∈ m, hs.has g.mode.space = true := by
  induction m generalizing b with
  | nil => simp
  | cons g m ih =>
    cases g with
    | boson d i => simp [fermionLoop] at h
    | spin n c i => simp [fermionLoop] at h
    | fermion d i =>
      rw [fermionLoop] at h
      split at h
      · simp at h
      · next hh =>
        intro g hg
        rcases List.mem_cons.1 hg with rfl | hg
        · have : hs.has (ESpace.fermion i) = true := by simpa using hh
          exact this
        · split at h
          · simp at h
          · exact ih _ h g hg

theorem land_mask_eq (x : Nat) (D : List Nat) : x &&& maskOf D = maskOf D ↔ ∀ d ∈ D, x.testBit d = true := by
  constructor
  · intro h d hd
    have := congrArg (Nat.testBit · d) h
    simp only [Nat.testBit_and, maskOf_testBit, hd, decide_true, Bool.and_true] at this
    exact this
  · intro h
    apply Nat.eq_of_testBit_eq
    intro b
    rw [Nat.testBit_and, maskOf_testBit]
    by_cases hb : b ∈ D
    · simp [hb, h b hb]
    · simp [hb]

theorem lxor_mask_eq (x : Nat) (D : List Nat) : (x ^^^ maskOf D) &&& maskOf D = maskOf D ↔ ∀ d ∈ D, x.testBit d = false := by
  rw [land_mask_eq]
  constructor <;> intro h d hd <;> have := h d hd <;> simp only [Nat.testBit_xor, maskOf_testBit, hd, decide_true] at this ⊢ <;>
    simpa using this

/-- Fermionic monomials act as products of creation and annihilation operators. -/
theorem fermion_act (hc : Constructed hs) (hpre : PredefinedSpaces hs) {m : List (Gen ι)} (hm : CanonicalFermions m)
    {a : FermionAction} (h : FermionAction.make m hs = .ok a) {s : Nat} (hv : ValidState hs s) (c : S) :
    ActsAs hs s c (monAct bd m (conf hs s)) (a.act s c) := by
  unfold FermionAction.make at h
  obtain ⟨p, q, rfl, hp, hq⟩ := hm
  split at h
  · next he =>
    have he : p = [] ∧ q = [] := by simpa using he
    rw [he.1, he.2]
    cases h
    exact ActsAs.nil hv
  · next he =>
    split at h
    · simp at h
    · next b hb =>
      have hhas := fermionLoop_has _ _ _ hb
      have hP : ∀ i ∈ p, hs.has (ESpace.fermion i) = true := fun i hi =>
        hhas (.fermion true i) (List.mem_append_left _ (List.mem_map.2 ⟨i, hi, rfl⟩))
      have hQ : ∀ i ∈ q, hs.has (ESpace.fermion i) = true := fun i hi =>
        hhas (.fermion false i) (List.mem_append_right _ (List.mem_map.2 ⟨i, hi, rfl⟩))
      rw [fermionLoop_create hc hpre p _ _ hP, fermionLoop_annih hc hpre q _ hQ] at hb
      cases hb
      obtain ⟨r0, r1, hg⟩ : ∃ r0 r1, FGeom hs r0 r1 := by
        cases p with
        | cons x p => exact exists_fgeom hc hpre (hP x (by simp))
        | nil =>
          cases q with
          | cons x q => exact exists_fgeom hc hpre (hQ x (by simp))
          | nil => simp at he
      rw [hg.range] at h
      cases h
      simp only [FermionAction.act, Bool.false_eq_true, if_false, Nat.zero_or, List.nil_append]
      have hle := hg.le
      have hsT : s < W64 := by
        have h63 : s < 2 ^ 63 := hv.1.trans_le (Nat.pow_le_pow_right (by norm_num) (by
          cases p with
          | cons x p => exact (floc hc hpre (hP x (by simp))).small
          | nil =>
            cases q with
            | cons x q => exact (floc hc hpre (hQ x (by simp))).small
            | nil => simp at he))
        unfold W64; omega
      rw [monAct_append]
      have hPr : ∀ d ∈ p.map (fpos hs), r0 ≤ d ∧ d < r1 := by
        intro d hd; obtain ⟨i, hi, rfl⟩ := List.mem_map.1 hd; exact hg.mem i (hP i hi)
      have hQr : ∀ d ∈ q.map (fpos hs), r0 ≤ d ∧ d < r1 := by
        intro d hd; obtain ⟨i, hi, rfl⟩ := List.mem_map.1 hd; exact hg.mem i (hQ i hi)
      have hPn : (p.map (fpos hs)).Nodup := by
        rw [List.Nodup, List.pairwise_map]
        exact hp.imp_of_mem fun ha hb hab => (fpos_lt hc hpre (hP _ ha) (hP _ hb) hab).ne
      have hQn : (q.map (fpos hs)).Nodup := by
        rw [List.Nodup, List.pairwise_map]
        exact hq.imp_of_mem fun ha hb hab => (fpos_lt hc hpre (hQ _ hb) (hQ _ ha) hab).ne'
      have hcmW : maskOf (p.map (fpos hs)) < W64 := by
        apply lt_of_testBit
        intro j hj
        rw [maskOf_testBit, decide_eq_false]
        intro hm; have := hPr j hm; omega
      have hamW : maskOf (q.map (fpos hs)) < W64 := by
        apply lt_of_testBit
        intro j hj
        rw [maskOf_testBit, decide_eq_false]
        intro hm; have := hQr j hm; omega
      by_cases h1 : ∀ i ∈ q, s.testBit (fpos hs i) = true
      · obtain ⟨t, hgd, hbit, hmon⟩ := annih_run_some (bd := bd) hc hpre hg q hq hQ hv h1
        rw [if_neg (by
          rw [not_not, land_mask_eq]
          intro d hd
          obtain ⟨i, hi, rfl⟩ := List.mem_map.1 hd
          exact h1 i hi)]
        have ht : s &&& not64 (maskOf (q.map (fpos hs))) = t := by
          apply Nat.eq_of_testBit_eq
          intro j
          rw [Nat.testBit_and, hbit]
          by_cases hj : j < 64
          · rw [testBit_not64 hj, maskOf_testBit, decide_not]
          · rw [testBit_not64_high hamW hj, testBit_of_lt hsT (by omega)]; simp
        rw [ht, hmon, Option.bind_some]
        by_cases h2 : ∀ i ∈ p, t.testBit (fpos hs i) = false
        · obtain ⟨u, hgd2, hbit2, hmon2⟩ := create_run_some (bd := bd) hc hpre hg p hp hP hgd.1 h2
          have htT : t < W64 := by
            apply lt_of_testBit
            intro j hj
            rw [hbit, testBit_of_lt hsT hj]; simp
          rw [if_neg (by
            rw [not_not, lxor_mask_eq]
            intro d hd
            obtain ⟨i, hi, rfl⟩ := List.mem_map.1 hd
            exact h2 i hi)]
          have hu : not64 (not64 t &&& not64 (maskOf (p.map (fpos hs)))) = u := by
            apply Nat.eq_of_testBit_eq
            intro j
            by_cases hj : j < 64
            · rw [testBit_not64 hj, Nat.testBit_and, testBit_not64 hj, testBit_not64 hj, maskOf_testBit, hbit2]
              simp
            · rw [testBit_not64_high _ hj, hbit2, testBit_of_lt htT (by omega)]
              · rw [decide_eq_false]; · rfl
                intro hm; have := hPr j hm; omega
              · apply lt_of_testBit
                intro k hk
                rw [Nat.testBit_and, testBit_not64_high htT (by omega)]; rfl
          rw [hu, hmon2]
          simp only [Option.map_some]
          have hQt : ∀ d ∈ q.map (fpos hs), t.testBit d = false := by
            intro d hd; rw [hbit]; simp only [hd, not_true, decide_false, Bool.and_false]
          have hPt : ∀ d ∈ p.map (fpos hs), t.testBit d = false := by
            intro d hd; obtain ⟨i, hi, rfl⟩ := List.mem_map.1 hd; exact h2 i hi
          have k1 := parity_cnt (q.map (fpos hs)) hQn r0 r1 t (by omega) (by
            cases p with
            | cons x p => have := hPr (fpos hs x) (by simp); omega
            | nil =>
              cases q with
              | cons x q => have := hQr (fpos hs x) (by simp); omega
              | nil => simp at he) hQr hQt
          have h01 : r0 ≤ r1 := by
            cases p with
            | cons x p => have := hPr (fpos hs x) (by simp); omega
            | nil =>
              cases q with
              | cons x q => have := hQr (fpos hs x) (by simp); omega
              | nil => simp at he
          have k2 := parity_cnt (p.map (fpos hs)) hPn r0 r1 t (by omega) h01 hPr hPt
          have hut : u &&& computeCountMask ((p.map (fpos hs)).map fun x : Nat => (x : Int)) ⟨(r0 : Int), (r1 : Int) - 1⟩
              = t &&& computeCountMask ((p.map (fpos hs)).map fun x : Nat => (x : Int)) ⟨(r0 : Int), (r1 : Int) - 1⟩ := by
            apply Nat.eq_of_testBit_eq
            intro j
            rw [Nat.testBit_and, Nat.testBit_and, countMask_bits _ hPn r0 r1 (by omega) (fun d hd => (hPr d hd).1) h01, hbit2]
            by_cases hj : j ∈ p.map (fpos hs)
            · simp only [hj, not_true, and_false, decide_false, Bool.false_and, Bool.and_false]
            · simp only [hj, decide_false, Bool.or_false]
          rw [List.map_map] at k1 k2
          change Odd (q.map fun i => cnt r0 t (fpos hs i)).sum ↔ _ at k1
          change Odd (p.map fun i => cnt r0 t (fpos hs i)).sum ↔ _ at k2
          rw [← parityPopcount_odd] at k1 k2
          rw [hut, parityPopcount_xor]
          refine ⟨u, ?_, hgd2.1, rfl, fun es hes => (hgd2.2 es hes).trans (hgd.2 es hes)⟩
          congr 1
          have hpow : ∀ n : Nat, ((-1 : ℝ) ^ n) = if Odd n then -1 else 1 := by
            intro n
            split
            · next h => exact h.neg_one_pow
            · next h => exact (Nat.not_odd_iff_even.1 h).neg_one_pow
          rw [hpow, hpow]
          by_cases o1 : Odd (q.map fun i => cnt r0 t (fpos hs i)).sum <;>
            by_cases o2 : Odd (p.map fun i => cnt r0 t (fpos hs i)).sum
          · rw [k1.1 o1, k2.1 o2]; simp [o1, o2]
          · have : parityPopcount (t &&& computeCountMask ((p.map (fpos hs)).map fun x : Nat => (x : Int)) ⟨(r0 : Int), (r1 : Int) - 1⟩) = false := by
              simpa using (fun hh => o2 (k2.2 hh))
            rw [k1.1 o1, this]; simp [o1, o2]
          · have : parityPopcount (t &&& computeCountMask ((q.map (fpos hs)).map fun x : Nat => (x : Int)) ⟨(r0 : Int), (r1 : Int) - 1⟩) = false := by
              simpa using (fun hh => o1 (k1.2 hh))
            rw [k2.1 o2, this]; simp [o1, o2]
          · have q1 : parityPopcount (t &&& computeCountMask ((q.map (fpos hs)).map fun x : Nat => (x : Int)) ⟨(r0 : Int), (r1 : Int) - 1⟩) = false := by
              simpa using (fun hh => o1 (k1.2 hh))
            have q2 : parityPopcount (t &&& computeCountMask ((p.map (fpos hs)).map fun x : Nat => (x : Int)) ⟨(r0 : Int), (r1 : Int) - 1⟩) = false := by
              simpa using (fun hh => o2 (k2.2 hh))
            rw [q1, q2]; simp [o1, o2]
        · rw [if_pos (by
            rw [Ne, lxor_mask_eq]
            intro hh
            exact h2 fun i hi => hh _ (List.mem_map.2 ⟨i, hi, rfl⟩))]
          rw [create_run_none hc hpre hg p hp hP hgd.1 h2]
          rfl
      · rw [if_pos (by
          rw [Ne, land_mask_eq]
          intro hh
          exact h1 fun i hi => hh _ (List.mem_map.2 ⟨i, hi, rfl⟩))]
        rw [annih_run_none hc hpre hg q hq hQ hv h1]
        rfl

end LC
