import Verif.Proof.Views
import Verif.Proof.HSForeach
import Verif.Proof.BitOps
/-
Index translation of compressed views.
-/
set_option linter.unusedSectionVars false
set_option linter.unusedSimpArgs false
namespace LC

/-- A contiguous mask. -/
theorem bitPositions_block {g w : Nat} (h : g + w ≤ 64) : bitPositions ((2 ^ w - 1) * 2 ^ g) = List.range' g w := by
  apply eq_of_sorted (bitPositions_sorted _) List.pairwise_lt_range'
  intro j
  rw [mem_bitPositions, List.mem_range'_1, Nat.mul_comm, Nat.testBit_two_pow_mul, Nat.testBit_two_pow_sub_one]
  simp only [Bool.and_eq_true, decide_eq_true_eq]
  omega

theorem block_lt {g w : Nat} (h : g + w ≤ 64) : (2 ^ w - 1) * 2 ^ g < W64 := by
  have h1 : (2 ^ w - 1) * 2 ^ g < 2 ^ w * 2 ^ g :=
    Nat.mul_lt_mul_of_pos_right (Nat.sub_lt (Nat.two_pow_pos _) Nat.one_pos) (Nat.two_pow_pos _)
  rw [← pow_add] at h1
  exact h1.trans_le (Nat.pow_le_pow_right (by decide) (by omega))

/-- Extraction of a contiguous range of bits. -/
theorem extractBits_block {g w : Nat} (h : g + w ≤ 64) (x : Nat) : extractBits x ((2 ^ w - 1) * 2 ^ g) = x / 2 ^ g % 2 ^ w := by
  apply Nat.eq_of_testBit_eq
  intro k
  rw [extractBits_testBit _ _ (block_lt h), bitPositions_block h, Nat.testBit_mod_two_pow, Nat.testBit_div_two_pow]
  by_cases hk : k < w
  · rw [List.getElem?_range' hk]
    simp [hk, Nat.add_comm]
  · rw [List.getElem?_eq_none (by simpa using hk)]
    simp [hk]

namespace SparseForeach

/-- Inverse of the encoding. -/
def dec : List Nat → Nat → Nat
  | [], _ => 0
  | s :: ss, x => x % nextPow2Portable s + s * dec ss (x / nextPow2Portable s)

theorem dec_enc {ss : List Nat} (h : Good ss) {k : Nat} (hk : k < ss.prod) : dec ss (enc ss k) = k := by
  induction ss generalizing k with
  | nil => simp at hk; simp [dec, hk]
  | cons s ss ih =>
    have hs := h.head
    have h1 := Nat.mod_lt k hs.1
    have hp : 0 < nextPow2Portable s := by omega
    rw [List.prod_cons] at hk
    rw [dec, enc, Nat.add_mul_mod_self_left, Nat.mod_eq_of_lt (by omega : k % s < nextPow2Portable s),
      Nat.add_mul_div_left _ _ hp, Nat.div_eq_of_lt (by omega : k % s < nextPow2Portable s), Nat.zero_add,
      ih h.tail (Nat.div_lt_of_lt_mul hk), Nat.mod_add_div]

theorem dec_lt {ss : List Nat} (h : Good ss) {x : Nat} (hx : SValid ss x) : dec ss x < ss.prod := by
  obtain ⟨k, hk, rfl⟩ := enc_surj h hx
  rw [dec_enc h hk]; exact hk

end SparseForeach

namespace CompView
variable {ι : Type _} [LinearOrder ι]
open HilbertSpace SparseForeach

/-- The masks without accumulators: `g` is the first bit of the current group, `j` the number of its bits so far. -/
def mks : List (ESpace ι) → Nat → Nat → List Nat
  | [], g, j => if 2 ^ j ≠ 1 then [(2 ^ j - 1) * 2 ^ g] else []
  | es :: l, g, j => if es.dim ≠ 2 ^ es.nBits then ((2 ^ (j + es.nBits) - 1) * 2 ^ g) :: mks l (g + j + es.nBits) 0 else mks l g (j + es.nBits)

theorem initLoop_eq (l : List (ESpace ι)) (hf : Fits l) (pre suf : List (ESpace ι)) (hl : l = pre ++ suf) (g j : Nat)
    (hg : g + j = bitSum pre) (sizes masks : List Nat) :
    initLoop (canon l) suf (2 ^ j) ((2 ^ j - 1) * 2 ^ g) sizes masks = .ok (sizes ++ msz suf (2 ^ j), masks ++ mks suf g j) := by
  induction suf generalizing pre g j sizes masks with
  | nil =>
    simp only [initLoop, msz, mks]
    split <;> simp
  | cons es suf ih =>
    have hb := hf.bits
    have hes := hf.wf es (by rw [hl]; simp)
    have hbs : bitSum l = bitSum pre + (es.nBits + bitSum suf) := by rw [hl]; simp
    have hm : (es, (⟨((0 + bitSum pre : Nat) : Int), ((0 + bitSum pre : Nat) : Int) + es.nBits - 1⟩ : BitRange)) ∈ layout 0 l := by
      rw [mem_layout]
      exact ⟨pre, suf, hl, rfl⟩
    have hsort : SortedES ((canon l).spaces.map (·.1)) := by rw [canon_spaces, layout_fst]; exact hf.sorted
    have hr : (canon l).bitRange es = .ok ⟨((0 + bitSum pre : Nat) : Int), ((0 + bitSum pre : Nat) : Int) + es.nBits - 1⟩ := by
      unfold HilbertSpace.bitRange
      rw [findSpace_of_mem (es := es) hsort (by rw [canon_spaces]; exact hm) rfl]
    have hp : pow2 es.nBits = 2 ^ es.nBits := pow2_eq (by omega)
    have hd : mul64 (2 ^ j) es.dim = 2 ^ j * es.dim := by
      apply Nat.mod_eq_of_lt
      calc 2 ^ j * es.dim ≤ 2 ^ j * 2 ^ es.nBits := Nat.mul_le_mul_left _ hes.dim_le
        _ = 2 ^ (j + es.nBits) := (pow_add _ _ _).symm
        _ < W64 := Nat.pow_lt_pow_right (by decide) (by omega)
    have hpos := Nat.two_pow_pos es.nBits
    have hsub : sub64 (2 ^ es.nBits) 1 = 2 ^ es.nBits - 1 :=
      sub64_one hpos (Nat.pow_lt_pow_right (by decide) (by omega))
    have hmask : add64 ((2 ^ j - 1) * 2 ^ g) ((sub64 (pow2 es.nBits) 1 <<< ((0 + bitSum pre : Nat) : Int).toNat) % W64) =
        (2 ^ (j + es.nBits) - 1) * 2 ^ g := by
      rw [hp, hsub, Int.toNat_natCast, Nat.zero_add, Nat.shiftLeft_eq, Nat.mod_eq_of_lt (block_lt (by omega)), ← hg]
      have e : (2 ^ j - 1) * 2 ^ g + (2 ^ es.nBits - 1) * 2 ^ (g + j) = (2 ^ (j + es.nBits) - 1) * 2 ^ g := by
        have h1 : 1 ≤ 2 ^ j := Nat.two_pow_pos j
        obtain ⟨a, ha⟩ : ∃ a, 2 ^ j = a + 1 := ⟨2 ^ j - 1, by omega⟩
        obtain ⟨b, hb'⟩ : ∃ b, 2 ^ es.nBits = b + 1 := ⟨2 ^ es.nBits - 1, by omega⟩
        rw [pow_add, pow_add, ha, hb']
        simp only [Nat.add_sub_cancel]
        have : (a + 1) * (b + 1) - 1 = a + b * (a + 1) := by
          rw [Nat.sub_eq_of_eq_add]; ring
        rw [this]; ring
      rw [add64, e]
      exact Nat.mod_eq_of_lt (block_lt (by omega))
    rw [initLoop, hr]
    simp only [hd, hmask, msz, mks]
    rw [hp]
    split
    · have := ih (pre ++ [es]) (by rw [hl]; simp) (g + j + es.nBits) 0 (by simp; omega) (sizes ++ [2 ^ j * es.dim])
        (masks ++ [(2 ^ (j + es.nBits) - 1) * 2 ^ g])
      simp only [pow_zero, Nat.sub_self, Nat.zero_mul] at this
      rw [this]
      simp
    · next hne =>
      have hne : es.dim = 2 ^ es.nBits := by simpa using hne
      rw [hne, ← pow_add]
      exact ih (pre ++ [es]) (by rw [hl]; simp) g (j + es.nBits) (by simp; omega) sizes masks

theorem mul64_modEq (a b : Nat) : mul64 a b ≡ a * b [MOD W64] := Nat.mod_modEq _ _
theorem add64_modEq (a b : Nat) : add64 a b ≡ a + b [MOD W64] := Nat.mod_modEq _ _

/-- The loop of `map_index` inverts the encoding. -/
theorem mapLoop_eq (l : List (ESpace ι)) (hw : ∀ es ∈ l, es.Wf) (g j : Nat) (hb : g + j + bitSum l ≤ 63) (x s res : Nat)
    (hres : res < W64) :
    ∃ r, mapLoop x (stridesFrom s (msz l (2 ^ j))) (mks l g j) res = .ok r ∧ r < W64 ∧
      r ≡ res + s * dec (msz l (2 ^ j)) (x / 2 ^ g) [MOD W64] := by
  induction l generalizing g j s res with
  | nil =>
    rw [msz, mks]
    have hn : nextPow2Portable (2 ^ j) = 2 ^ j := by
      have := nextPow2Portable_eq_pow (j := j) (d := 1) (b := 0) (by simp) (by simp) (by simp) (by simp at hb; omega)
      simpa using this
    split
    · simp only [stridesFrom, mapLoop, dec, Nat.mul_zero, Nat.add_zero, hn]
      rw [extractBits_block (by simp at hb; omega)]
      refine ⟨_, rfl, Nat.mod_lt _ (by decide), (add64_modEq _ _).trans (Nat.ModEq.add_left _ ?_)⟩
      rw [Nat.mul_comm s]
      exact mul64_modEq _ _
    · exact ⟨res, rfl, hres, by simp [dec, Nat.ModEq.refl]⟩
  | cons es l ih =>
    have hes := hw es (by simp)
    have hw' : ∀ e ∈ l, e.Wf := fun e he => hw e (by simp [he])
    rw [bitSum_cons] at hb
    rw [msz, mks]
    split
    · have hn := nextPow2Portable_eq_pow (j := j) hes.dim_le (fun hb => hes.lt_dim (by omega)) hes.dim_pos (by omega)
      simp only [stridesFrom, mapLoop, dec, hn]
      rw [extractBits_block (by omega)]
      obtain ⟨r, h1, h2, h3⟩ := ih hw' (g + j + es.nBits) 0 (by omega) (mul64 s (2 ^ j * es.dim))
        (add64 res (mul64 (x / 2 ^ g % 2 ^ (j + es.nBits)) s)) (Nat.mod_lt _ (by decide))
      rw [pow_zero] at h1 h3
      refine ⟨r, h1, h2, h3.trans ?_⟩
      rw [Nat.div_div_eq_div_mul, ← pow_add, ← Nat.add_assoc]
      have e : res + s * (x / 2 ^ g % 2 ^ (j + es.nBits) + 2 ^ j * es.dim * dec (msz l 1) (x / 2 ^ (g + j + es.nBits))) =
          (res + x / 2 ^ g % 2 ^ (j + es.nBits) * s) + s * (2 ^ j * es.dim) * dec (msz l 1) (x / 2 ^ (g + j + es.nBits)) := by ring
      rw [e]
      exact ((add64_modEq _ _).trans ((mul64_modEq _ _).add_left _)).add ((mul64_modEq _ _).mul_right _)
    · next hne =>
      have hne : es.dim = 2 ^ es.nBits := by simpa using hne
      rw [hne, ← pow_add]
      exact ih hw' g (j + es.nBits) (by omega) s res hres

/-- A view of a constructed space. -/
theorem make_canon {V : Type _} (sv : V) (l : List (ESpace ι)) (hf : Fits l) :
    make sv (canon l) = .ok ⟨sv, mks l 0 0, stridesFrom 1 (msz l 1), SparseForeach.make (msz l 1)⟩ := by
  have hel : (canon l).elementarySpaces = l := by unfold elementarySpaces; rw [canon_spaces, layout_fst]
  have := initLoop_eq l hf [] l rfl 0 0 rfl [] []
  simp only [pow_zero, Nat.sub_self, Nat.zero_mul, List.nil_append] at this
  rw [make, hel, this]

theorem mapIndex_canon {V : Type _} (sv : V) (l : List (ESpace ι)) (hf : Fits l) (x : Nat) (hx : SValid (msz l 1) x) :
    CompView.mapIndex (⟨sv, mks l 0 0, stridesFrom 1 (msz l 1), SparseForeach.make (msz l 1)⟩ : CompView V) x =
      .ok (dec (msz l 1) x) := by
  have hb := hf.bits
  obtain ⟨g1, g2, _, _⟩ := msz_spec l hf.wf 0 (by omega)
  obtain ⟨r, h1, h2, h3⟩ := mapLoop_eq l hf.wf 0 0 (by omega) x 1 0 (by decide)
  simp only [pow_zero, Nat.one_mul, Nat.div_one, Nat.zero_add] at h1 h3 g1 g2
  rw [mapIndex, h1]
  have := dec_lt g1 hx
  rw [g2] at this
  have h4 := dimProd_lt l hf.wf hb
  rw [Nat.ModEq, Nat.mod_eq_of_lt h2, Nat.mod_eq_of_lt (this.trans h4)] at h3
  rw [h3]

end CompView
end LC
