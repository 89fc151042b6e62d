import Verif.Spec.Fock
import Verif.Proof.HSForeach
import Verif.Proof.HSAlgebra
/-
Bit fields of basis state indices.
-/
set_option linter.unusedSectionVars false
set_option linter.unusedSimpArgs false
namespace LC
open HilbertSpace
variable {ι : Type _} [LinearOrder ι]

/-- Bits `f, …, f+nb-1` of `s`. -/
def field (f nb s : Nat) : Nat := s / 2 ^ f % 2 ^ nb

/-- Replace the contents of a bit field. -/
def setField (f nb y s : Nat) : Nat := s % 2 ^ f + 2 ^ f * (y + 2 ^ nb * (s / 2 ^ (f + nb)))

theorem field_lt (f nb s : Nat) : field f nb s < 2 ^ nb := Nat.mod_lt _ (Nat.two_pow_pos _)

theorem setField_self (f nb s : Nat) : setField f nb (field f nb s) s = s := by
  unfold setField field
  rw [pow_add, ← Nat.div_div_eq_div_mul, Nat.mod_add_div, Nat.mod_add_div]

theorem setField_add {f nb s k : Nat} : setField f nb (field f nb s + k) s = s + k * 2 ^ f := by
  conv_rhs => rw [← setField_self f nb s]
  unfold setField
  ring

theorem setField_sub {f nb s k : Nat} (h : k ≤ field f nb s) : setField f nb (field f nb s - k) s + k * 2 ^ f = s := by
  conv_rhs => rw [← setField_self f nb s]
  unfold setField
  obtain ⟨x, hx⟩ := Nat.exists_eq_add_of_le h
  rw [hx, Nat.add_sub_cancel_left]
  ring

theorem setField_div (f nb y s : Nat) : setField f nb y s / 2 ^ f = y + 2 ^ nb * (s / 2 ^ (f + nb)) := by
  unfold setField
  rw [Nat.add_mul_div_left _ _ (Nat.two_pow_pos f), Nat.div_eq_of_lt (Nat.mod_lt _ (Nat.two_pow_pos f)), Nat.zero_add]

theorem setField_mod (f nb y s : Nat) : setField f nb y s % 2 ^ f = s % 2 ^ f := by
  unfold setField
  rw [Nat.add_mul_mod_self_left, Nat.mod_mod]

theorem setField_div_high {f nb y s : Nat} (hy : y < 2 ^ nb) : setField f nb y s / 2 ^ (f + nb) = s / 2 ^ (f + nb) := by
  rw [pow_add, ← Nat.div_div_eq_div_mul, setField_div, Nat.add_mul_div_left _ _ (Nat.two_pow_pos nb),
    Nat.div_eq_of_lt hy, Nat.zero_add, pow_add]

theorem field_setField_same {f nb y s : Nat} (hy : y < 2 ^ nb) : field f nb (setField f nb y s) = y := by
  unfold field
  rw [setField_div, Nat.add_mul_mod_self_left, Nat.mod_eq_of_lt hy]

theorem field_of_mod {f nb f' s t : Nat} (h : f + nb ≤ f') (he : s % 2 ^ f' = t % 2 ^ f') : field f nb s = field f nb t := by
  have key : ∀ s, field f nb s = s % 2 ^ f' / 2 ^ f % 2 ^ nb := by
    intro s
    obtain ⟨x, rfl⟩ := Nat.exists_eq_add_of_le h
    unfold field
    rw [Nat.add_assoc, pow_add 2 f, Nat.mod_mul_right_div_self, pow_add, Nat.mod_mul_right_mod]
  rw [key s, key t, he]

theorem field_of_div {f nb f' s t : Nat} (h : f ≤ f') (he : s / 2 ^ f = t / 2 ^ f) : field f' nb s = field f' nb t := by
  unfold field
  obtain ⟨x, rfl⟩ := Nat.exists_eq_add_of_le h
  rw [pow_add, ← Nat.div_div_eq_div_mul, he, Nat.div_div_eq_div_mul]

theorem field_setField_other {f nb y s f' nb' : Nat} (hy : y < 2 ^ nb) (h : f' + nb' ≤ f ∨ f + nb ≤ f') :
    field f' nb' (setField f nb y s) = field f' nb' s := by
  rcases h with h | h
  · exact field_of_mod h (setField_mod f nb y s)
  · exact field_of_div h (setField_div_high hy)

theorem setField_lt {f nb y s T : Nat} (hy : y < 2 ^ nb) (hs : s < 2 ^ T) (hT : f + nb ≤ T) : setField f nb y s < 2 ^ T := by
  have h1 : setField f nb y s / 2 ^ (f + nb) < 2 ^ (T - (f + nb)) := by
    rw [setField_div_high hy, Nat.div_lt_iff_lt_mul (Nat.two_pow_pos _), ← pow_add, Nat.sub_add_cancel hT]
    exact hs
  rw [Nat.div_lt_iff_lt_mul (Nat.two_pow_pos _), ← pow_add, Nat.sub_add_cancel hT] at h1
  exact h1

theorem field_mask (f nb s : Nat) (h : nb < 64) : (s >>> f) &&& (sub64 (pow2 nb) 1) = field f nb s := by
  have h1 : sub64 (pow2 nb) 1 = 2 ^ nb - 1 := by
    rw [pow2_eq h, sub64_one (Nat.two_pow_pos _) (Nat.pow_lt_pow_right (by norm_num) h)]
  rw [h1, Nat.shiftRight_eq_div_pow, Nat.and_two_pow_sub_one_eq_mod]
  rfl

/-! ### Positions of the modes -/

theorem Mode.space_inj {k k' : Mode ι} (h : k.space.key = k'.space.key) : k = k' := by
  rw [ESpace.key_eq_iff] at h
  obtain ⟨h1, h2, h3⟩ := h
  cases k <;> cases k' <;> simp_all [Mode.space, ESpace.fermion, ESpace.boson, ESpace.spin]

/-- The elementary space `es` occupies `nb` bits from bit `f` on and has dimension `d`. -/
structure Loc (hs : HilbertSpace ι) (es : ESpace ι) (f nb d : Nat) : Prop where
  has : hs.has es = true
  range : hs.bitRange es = .ok ⟨(f : Int), (f : Int) + nb - 1⟩
  dimOf : hs.dimOf es = .ok d
  le : d ≤ 2 ^ nb
  pos : 0 < d
  fits : f + nb ≤ hs.totalNBits.toNat
  small : hs.totalNBits.toNat ≤ 63
  mem : ∃ e, (e, (⟨(f : Int), (f : Int) + nb - 1⟩ : BitRange)) ∈ hs.spaces ∧ e.key = es.key ∧ e.dim = d ∧ e.nBits = nb

theorem canon_sorted {l : List (ESpace ι)} (hf : Fits l) : SortedES ((canon l).spaces.map (·.1)) := by
  rw [canon_spaces, layout_fst]; exact hf.sorted

theorem loc_of_mem {hs : HilbertSpace ι} (h : Constructed hs) {p : ESpace ι × BitRange} (hp : p ∈ hs.spaces) {es : ESpace ι}
    (he : p.1.key = es.key) : ∃ f : Nat, p.2 = ⟨(f : Int), (f : Int) + p.1.nBits - 1⟩ ∧ Loc hs es f p.1.nBits p.1.dim := by
  obtain ⟨l, hf, rfl⟩ := h.canon
  have hfind := findSpace_of_mem (canon_sorted hf) hp he
  have hp' := hp
  rw [canon_spaces, mem_layout] at hp
  obtain ⟨pre, post, hl, hr⟩ := hp
  have hw : p.1.Wf := hf.wf p.1 (by rw [hl]; simp)
  rw [Nat.zero_add] at hr
  refine ⟨bitSum pre, hr, ?_, ?_, ?_, hw.dim_le, hw.dim_pos, ?_, ?_, ⟨p.1, by rw [← hr]; exact hp', he, rfl, rfl⟩⟩
  · simp [HilbertSpace.has, hfind]
  · simp [HilbertSpace.bitRange, hfind, hr]
  · simp [HilbertSpace.dimOf, hfind]
  · rw [canon_total, Int.toNat_natCast, hl]; simp
  · rw [canon_total, Int.toNat_natCast]; exact hf.bits

theorem loc_of_has {hs : HilbertSpace ι} (h : Constructed hs) {es : ESpace ι} (hh : hs.has es = true) :
    ∃ f nb d, Loc hs es f nb d := by
  unfold HilbertSpace.has at hh
  obtain ⟨p, hp⟩ := Option.isSome_iff_exists.1 hh
  obtain ⟨h1, h2⟩ := findSpace_some hp
  obtain ⟨f, _, hl⟩ := loc_of_mem h h1 h2
  exact ⟨f, _, _, hl⟩

theorem occ_loc {hs : HilbertSpace ι} {es : ESpace ι} {f nb d : Nat} (h : Loc hs es f nb d) (s : Nat) :
    occ hs s es = field f nb s := by
  unfold occ
  rw [h.range]
  simp only [Int.toNat_natCast, field]
  congr 2
  omega

theorem occ_not_has {hs : HilbertSpace ι} {es : ESpace ι} (h : hs.has es = false) (s : Nat) : occ hs s es = 0 := by
  unfold occ HilbertSpace.bitRange
  unfold HilbertSpace.has at h
  rw [Option.isSome_eq_false_iff, Option.isNone_iff_eq_none] at h
  rw [h]

theorem loc_disjoint {hs : HilbertSpace ι} (hc : Constructed hs) {es es' : ESpace ι} {f nb d f' nb' d' : Nat}
    (h : Loc hs es f nb d) (h' : Loc hs es' f' nb' d') (hne : es.key ≠ es'.key) : f' + nb' ≤ f ∨ f + nb ≤ f' := by
  obtain ⟨l, hf, rfl⟩ := hc.canon
  obtain ⟨e, he, hk, _, hb⟩ := h.mem
  obtain ⟨e', he', hk', _, hb'⟩ := h'.mem
  rw [canon_spaces, mem_layout] at he he'
  obtain ⟨pre, post, hl, hr⟩ := he
  obtain ⟨pre', post', hl', hr'⟩ := he'
  simp only [BitRange.mk.injEq] at hr hr' hl hl'
  rw [Nat.zero_add] at hr hr'
  have h1 := hr.1
  have h2 := hr'.1
  have hpp : pre ++ e :: post = pre' ++ e' :: post' := hl ▸ hl'
  rcases List.append_eq_append_iff.1 hpp with ⟨a, rfl, ha⟩ | ⟨a, rfl, ha⟩
  · cases a with
    | nil =>
      simp at ha
      rw [ha.1] at hk
      exact (hne (hk.symm.trans hk')).elim
    | cons x a =>
      simp at ha
      obtain ⟨rfl, _⟩ := ha
      simp only [bitSum_append, bitSum_cons] at h2
      right; omega
  · cases a with
    | nil =>
      simp at ha
      rw [← ha.1] at hk
      exact (hne (hk.symm.trans hk')).elim
    | cons x a =>
      simp at ha
      obtain ⟨rfl, _⟩ := ha
      simp only [bitSum_append, bitSum_cons] at h1
      left; omega

theorem valid_occ {hs : HilbertSpace ι} {es : ESpace ι} {f nb d s : Nat} (h : Loc hs es f nb d) (hv : ValidState hs s) :
    field f nb s < d := by
  obtain ⟨e, he, hk, hd, hb⟩ := h.mem
  have := hv.2 _ he
  simp only [Int.toNat_natCast] at this
  rw [hb, hd] at this
  exact this

/-- Replacing the contents of the field of one elementary space. -/
theorem setField_valid {hs : HilbertSpace ι} (hc : Constructed hs) {es : ESpace ι} {f nb d s y : Nat}
    (h : Loc hs es f nb d) (hv : ValidState hs s) (hy : y < d) :
    ValidState hs (setField f nb y s) ∧
      ∀ es', occ hs (setField f nb y s) es' = if es'.key = es.key then y else occ hs s es' := by
  have hy' : y < 2 ^ nb := hy.trans_le h.le
  have hocc : ∀ es', occ hs (setField f nb y s) es' = if es'.key = es.key then y else occ hs s es' := by
    intro es'
    by_cases hk : es'.key = es.key
    · rw [if_pos hk]
      obtain ⟨e, he, hke, hd, hb⟩ := h.mem
      obtain ⟨f', h1, h2⟩ := loc_of_mem hc he (es := es') (hke.trans hk.symm)
      simp only [BitRange.mk.injEq, hb] at h1 h2
      have : f' = f := by omega
      subst this
      rw [occ_loc h2, field_setField_same hy']
    · rw [if_neg hk]
      by_cases hh : hs.has es' = true
      · obtain ⟨f', nb', d', h'⟩ := loc_of_has hc hh
        rw [occ_loc h', occ_loc h', field_setField_other hy' (loc_disjoint hc h h' (fun e => hk e.symm))]
      · rw [occ_not_has (by simpa using hh), occ_not_has (by simpa using hh)]
  refine ⟨⟨setField_lt hy' hv.1 h.fits, fun p hp => ?_⟩, hocc⟩
  obtain ⟨f', h1, h2⟩ := loc_of_mem hc hp (es := p.1) rfl
  have h3 := hocc p.1
  rw [occ_loc h2, occ_loc h2] at h3
  rw [h1]
  show field f' p.1.nBits (setField f nb y s) < p.1.dim
  rw [h3]
  split
  · next hk =>
    obtain ⟨e, he, hke, hd, hb⟩ := h.mem
    obtain ⟨l, hf, rfl⟩ := hc.canon
    have q1 := findSpace_of_mem (canon_sorted hf) hp hk
    have q2 := findSpace_of_mem (canon_sorted hf) he hke
    rw [q1] at q2
    cases q2
    rw [← hd] at hy
    exact hy
  · exact valid_occ h2 hv

end LC
