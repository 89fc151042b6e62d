import Verif.Proof.HSBuild
/-
Iteration over the basis states of a Hilbert space.
-/
set_option linter.unusedSectionVars false
set_option linter.unusedSimpArgs false
namespace LC

/-! ### Mixed radix enumeration -/

/-- The number stored by `next_pow2` for sizes up to `2^63`. -/
theorem nextPow2Portable_eq_pow {j d b : Nat} (hd : d ≤ 2 ^ b) (hlt : 1 ≤ b → 2 ^ (b - 1) < d) (hd0 : 0 < d)
    (hb : j + b ≤ 63) : nextPow2Portable (2 ^ j * d) = 2 ^ (j + b) := by
  have hpj := Nat.two_pow_pos j
  have hle : 2 ^ j * d ≤ 2 ^ (j + b) := by rw [pow_add]; exact Nat.mul_le_mul_left _ hd
  have h63 : 2 ^ (j + b) ≤ 2 ^ 63 := Nat.pow_le_pow_right (by decide) hb
  by_cases h2 : 2 ^ j * d < 2
  · rw [nextPow2Portable, if_pos h2]
    have hd1 : d = 1 := by
      have : d ≤ 2 ^ j * d := Nat.le_mul_of_pos_left d hpj
      omega
    subst hd1
    have hb0 : b = 0 := by
      by_contra hc
      have := hlt (by omega)
      have := Nat.two_pow_pos (b - 1)
      omega
    have hj0 : j = 0 := by
      by_contra hc
      have : 2 ^ 1 ≤ 2 ^ j := Nat.pow_le_pow_right (by decide) (by omega)
      omega
    subst hb0 hj0; rfl
  · obtain ⟨h3, h4⟩ := nextPow2_eq (by omega) (hle.trans h63)
    rw [h4]
    congr 1
    have h0 : 2 ^ j * d - 1 ≠ 0 := by omega
    apply le_antisymm
    · exact (Nat.log2_lt h0).2 (by omega)
    · by_cases hb0 : b = 0
      · subst hb0
        have hd1 : d = 1 := by simp at hd; omega
        subst hd1
        obtain ⟨i, rfl⟩ : ∃ i, j = i + 1 := ⟨j - 1, by
          have : j ≠ 0 := by rintro rfl; simp at h2
          omega⟩
        have : 2 ^ i ≤ 2 ^ (i + 1) * 1 - 1 := by
          have := Nat.two_pow_pos i
          rw [pow_succ]; omega
        have := (Nat.le_log2 h0).2 this
        omega
      · have h5 := hlt (by omega)
        have : 2 ^ (j + b - 1) ≤ 2 ^ j * d - 1 := by
          have e : j + b - 1 = j + (b - 1) := by omega
          rw [e, pow_add]
          have h6 : 2 ^ j * (2 ^ (b - 1) + 1) ≤ 2 ^ j * d := Nat.mul_le_mul_left _ h5
          rw [Nat.mul_add] at h6
          omega
        have := (Nat.le_log2 h0).2 this
        omega

namespace SparseForeach

/-- Digits of the counter. -/
def digits : List Nat → Nat → List Nat
  | [], _ => []
  | s :: ss, k => k % s :: digits ss (k / s)

/-- The `k`-th state. -/
def enc : List Nat → Nat → Nat
  | [], _ => 0
  | s :: ss, k => k % s + nextPow2Portable s * enc ss (k / s)

/-- Product of the rounded sizes. -/
def width : List Nat → Nat
  | [] => 1
  | s :: ss => nextPow2Portable s * width ss

/-- Validity of an index with respect to a list of sizes. -/
def SValid : List Nat → Nat → Prop
  | [], x => x = 0
  | s :: ss, x => x % nextPow2Portable s < s ∧ SValid ss (x / nextPow2Portable s)

/-- Jumps without wrap-around. -/
def jumpsNat : Nat → List Nat → List Nat
  | _, [] => []
  | _, [_] => []
  | stride, size :: rest => stride * (nextPow2Portable size - size) :: jumpsNat (stride * nextPow2Portable size) rest

/-- What is needed of the sizes. -/
def Good (ss : List Nat) : Prop := ∀ s ∈ ss, 0 < s ∧ s ≤ nextPow2Portable s

theorem Good.tail {s : Nat} {ss : List Nat} (h : Good (s :: ss)) : Good ss := fun t ht => h t (List.mem_cons_of_mem _ ht)
theorem Good.head {s : Nat} {ss : List Nat} (h : Good (s :: ss)) : 0 < s ∧ s ≤ nextPow2Portable s := h s List.mem_cons_self

theorem digits_length (ss : List Nat) (k : Nat) : (digits ss k).length = ss.length := by
  induction ss generalizing k with
  | nil => rfl
  | cons s ss ih => simp [digits, ih]

theorem digits_zero (ss : List Nat) : digits ss 0 = List.replicate ss.length 0 := by
  induction ss with
  | nil => rfl
  | cons s ss ih => simp [digits, ih, List.replicate_succ]

theorem enc_zero (ss : List Nat) : enc ss 0 = 0 := by
  induction ss with
  | nil => rfl
  | cons s ss ih => simp [enc, ih]

theorem width_pos {ss : List Nat} (h : Good ss) : 0 < width ss := by
  induction ss with
  | nil => exact Nat.one_pos
  | cons s ss ih => exact Nat.mul_pos (by have := h.head; omega) (ih h.tail)

theorem enc_lt_width {ss : List Nat} (h : Good ss) (k : Nat) : enc ss k < width ss := by
  induction ss generalizing k with
  | nil => exact Nat.one_pos
  | cons s ss ih =>
    have h1 := ih h.tail (k / s)
    have h2 := Nat.mod_lt k h.head.1
    have h3 := h.head.2
    rw [enc, width]
    calc k % s + nextPow2Portable s * enc ss (k / s) < nextPow2Portable s * 1 + nextPow2Portable s * enc ss (k / s) := by omega
      _ = nextPow2Portable s * (1 + enc ss (k / s)) := by ring
      _ ≤ nextPow2Portable s * width ss := Nat.mul_le_mul_left _ (by omega)

theorem enc_mono {ss : List Nat} (h : Good ss) {k k' : Nat} (hk : k < k') (hk' : k' < ss.prod) : enc ss k < enc ss k' := by
  induction ss generalizing k k' with
  | nil => simp at hk'; omega
  | cons s ss ih =>
    have hs := h.head
    rw [enc, enc]
    rw [List.prod_cons] at hk'
    have h1 : k' / s < ss.prod := Nat.div_lt_of_lt_mul hk'
    have h2 : k / s ≤ k' / s := Nat.div_le_div_right hk.le
    have h3 := Nat.mod_lt k hs.1
    rcases Nat.lt_or_ge (k / s) (k' / s) with h4 | h4
    · have h5 := ih h.tail h4 h1
      have h6 : nextPow2Portable s * (enc ss (k / s) + 1) ≤ nextPow2Portable s * enc ss (k' / s) := Nat.mul_le_mul_left _ h5
      rw [Nat.mul_add] at h6
      omega
    · have h5 : k / s = k' / s := le_antisymm h2 h4
      rw [h5]
      have := Nat.div_add_mod k s
      have := Nat.div_add_mod k' s
      rw [h5] at *
      omega

theorem enc_valid {ss : List Nat} (h : Good ss) (k : Nat) : SValid ss (enc ss k) := by
  induction ss generalizing k with
  | nil => rfl
  | cons s ss ih =>
    have hs := h.head
    have h1 := Nat.mod_lt k hs.1
    have hp : 0 < nextPow2Portable s := by omega
    rw [SValid, enc, Nat.add_mul_mod_self_left, Nat.mod_eq_of_lt (by omega : k % s < nextPow2Portable s),
      Nat.add_mul_div_left _ _ hp, Nat.div_eq_of_lt (by omega : k % s < nextPow2Portable s), Nat.zero_add]
    exact ⟨h1, ih h.tail _⟩

theorem enc_surj {ss : List Nat} (h : Good ss) {x : Nat} (hx : SValid ss x) : ∃ k < ss.prod, enc ss k = x := by
  induction ss generalizing x with
  | nil => exact ⟨0, by simp, hx.symm⟩
  | cons s ss ih =>
    obtain ⟨h1, h2⟩ := hx
    obtain ⟨k, hk, he⟩ := ih h.tail h2
    have hs := h.head
    refine ⟨x % nextPow2Portable s + s * k, ?_, ?_⟩
    · rw [List.prod_cons]
      calc x % nextPow2Portable s + s * k < s * 1 + s * k := by omega
        _ = s * (1 + k) := by ring
        _ ≤ s * ss.prod := Nat.mul_le_mul_left _ (by omega)
    · rw [enc, Nat.add_mul_mod_self_left, Nat.mod_eq_of_lt h1, Nat.add_mul_div_left _ _ hs.1, Nat.div_eq_of_lt h1,
        Nat.zero_add, he, Nat.mod_add_div]

theorem initJumps_eq {ss : List Nat} (h : Good ss) (stride : Nat) (hw : stride * width ss < W64) :
    initJumps stride ss = jumpsNat stride ss := by
  induction ss generalizing stride with
  | nil => rfl
  | cons s ss ih =>
    cases ss with
    | nil => rfl
    | cons t ts =>
      have hs := h.head
      have hwp := width_pos h.tail
      rw [width, ← Nat.mul_assoc] at hw
      have h1 : stride * nextPow2Portable s < W64 :=
        lt_of_le_of_lt (Nat.le_mul_of_pos_right _ hwp) hw
      rcases Nat.eq_zero_or_pos stride with rfl | hstr
      · simp only [initJumps, jumpsNat, mul64, Nat.zero_mul, Nat.zero_mod]
        congr 1
        have := ih h.tail 0 (by simp)
        exact this
      · have h2 : nextPow2Portable s < W64 := lt_of_le_of_lt (Nat.le_mul_of_pos_left _ hstr) h1
        have h3 : sub64 (nextPow2Portable s) s = nextPow2Portable s - s := by
          unfold sub64
          rw [show nextPow2Portable s + W64 - s = (nextPow2Portable s - s) + W64 by omega, Nat.add_mod_right]
          exact Nat.mod_eq_of_lt (by omega)
        have h4 : mul64 stride (nextPow2Portable s - s) = stride * (nextPow2Portable s - s) := by
          apply Nat.mod_eq_of_lt
          exact lt_of_le_of_lt (Nat.mul_le_mul_left _ (Nat.sub_le _ _)) h1
        have h5 : mul64 stride (nextPow2Portable s) = stride * nextPow2Portable s := Nat.mod_eq_of_lt h1
        simp only [initJumps, jumpsNat, h3, h4, h5]
        rw [ih h.tail _ hw]

/-- One carry. -/
theorem carry_step {ss : List Nat} (h : Good ss) (T base k : Nat) (hk : k + 1 < ss.prod)
    (hW : base + T * enc ss (k + 1) < W64) :
    carry (incHead (digits ss k)) ss (jumpsNat T ss) (base + T * enc ss k + T) =
      (digits ss (k + 1), base + T * enc ss (k + 1)) ∧ base + T * enc ss k + T ≤ base + T * enc ss (k + 1) := by
  induction ss generalizing T base k with
  | nil => simp at hk
  | cons s ss ih =>
    have hs := h.head
    cases ss with
    | nil =>
      rw [List.prod_singleton] at hk
      have e1 : k % s = k := Nat.mod_eq_of_lt (by omega)
      have e2 : (k + 1) % s = k + 1 := Nat.mod_eq_of_lt hk
      simp only [digits, incHead, enc, e1, e2, jumpsNat, carry, Nat.mul_zero, Nat.add_zero]
      exact ⟨Prod.ext rfl (by simp only; ring), by rw [Nat.mul_add]; omega⟩
    | cons t ts =>
      rw [List.prod_cons] at hk
      have hkm := Nat.div_add_mod k s
      by_cases hc : k % s + 1 = s
      · have e0 : k + 1 = s * (k / s + 1) := by rw [Nat.mul_add]; omega
        have e1 : (k + 1) % s = 0 := by rw [e0, Nat.mul_mod_right]
        have e2 : (k + 1) / s = k / s + 1 := by rw [e0, Nat.mul_div_cancel_left _ hs.1]
        have hq : k / s + 1 < (t :: ts).prod := by
          rw [e0] at hk
          exact Nat.lt_of_mul_lt_mul_left hk
        have hW' : base + (T * nextPow2Portable s) * enc (t :: ts) (k / s + 1) < W64 := by
          rw [enc, e1, e2, Nat.zero_add, ← Nat.mul_assoc] at hW; exact hW
        obtain ⟨h1, h2⟩ := ih h.tail (T * nextPow2Portable s) base (k / s) hq hW'
        have e3 : base + T * enc (s :: t :: ts) k + T + T * (nextPow2Portable s - s) =
            base + T * nextPow2Portable s * enc (t :: ts) (k / s) + T * nextPow2Portable s := by
          rw [enc]
          obtain ⟨r, hr⟩ : ∃ r, nextPow2Portable s = s + r := ⟨nextPow2Portable s - s, by omega⟩
          rw [hr, Nat.add_sub_cancel_left]
          have : T * (k % s) + T = T * s := by rw [← Nat.mul_succ]; exact congrArg (T * ·) hc
          calc base + T * (k % s + (s + r) * enc (t :: ts) (k / s)) + T + T * r
              = base + (T * (k % s) + T) + T * (s + r) * enc (t :: ts) (k / s) + T * r := by ring
            _ = _ := by rw [this]; ring
        have e4 : add64 (base + T * enc (s :: t :: ts) k + T) (T * (nextPow2Portable s - s)) =
            base + T * nextPow2Portable s * enc (t :: ts) (k / s) + T * nextPow2Portable s := by
          rw [add64, e3]
          exact Nat.mod_eq_of_lt (lt_of_le_of_lt h2 hW')
        have e5 : base + T * enc (s :: t :: ts) (k + 1) = base + (T * nextPow2Portable s) * enc (t :: ts) (k / s + 1) := by
          rw [enc, e1, e2, Nat.zero_add, ← Nat.mul_assoc]
        refine ⟨?_, ?_⟩
        · simp only [digits, incHead, jumpsNat, carry, hc, if_true] at h1 ⊢
          rw [e4]
          simp only [h1, e1, e2, e5]
        · rw [e5]
          have : base + T * enc (s :: t :: ts) k + T ≤ base + T * enc (s :: t :: ts) k + T + T * (nextPow2Portable s - s) :=
            Nat.le_add_right _ _
          rw [e3] at this
          exact this.trans h2
      · have hlt := Nat.mod_lt k hs.1
        have e0 : k + 1 = s * (k / s) + (k % s + 1) := by omega
        have e1 : (k + 1) % s = k % s + 1 := by
          rw [e0, Nat.mul_add_mod, Nat.mod_eq_of_lt (by omega)]
        have e2 : (k + 1) / s = k / s := by
          rw [e0, Nat.mul_add_div hs.1, Nat.div_eq_of_lt (by omega : k % s + 1 < s), Nat.add_zero]
        have e3 : base + T * enc (s :: t :: ts) (k + 1) = base + T * enc (s :: t :: ts) k + T := by
          rw [show enc (s :: t :: ts) (k + 1) = (k + 1) % s + nextPow2Portable s * enc (t :: ts) ((k + 1) / s) from rfl,
            show enc (s :: t :: ts) k = k % s + nextPow2Portable s * enc (t :: ts) (k / s) from rfl, e1, e2]; ring
        refine ⟨?_, by omega⟩
        simp only [digits, incHead, jumpsNat, carry, hc, if_false, e1, e2, e3]

/-- The loop visits the encoded states. -/
theorem loop_eq {a : SparseForeach} (h : Good a.sizes) (hj : a.jumps = jumpsNat 1 a.sizes) (hw : width a.sizes ≤ W64)
    (n k : Nat) (hn : k + n ≤ a.sizes.prod) :
    (loop a (fun _ ind => ind) n (digits a.sizes k) (enc a.sizes k)).1 = (List.range' k n).map (enc a.sizes) := by
  induction n generalizing k with
  | zero => simp [loop]
  | succ n ih =>
    rw [loop, List.range'_succ, List.map_cons]
    simp only
    congr 1
    cases n with
    | zero => simp [loop]
    | succ n =>
      have hW := (enc_lt_width h (k + 1)).trans_le hw
      have hc := carry_step h 1 0 k (by omega) (by omega)
      simp only [Nat.one_mul, Nat.zero_add] at hc
      have e : add64 (enc a.sizes k) 1 = enc a.sizes k + 1 := Nat.mod_eq_of_lt (by omega)
      rw [e, hj, hc.1]
      exact ih (k + 1) (by omega)

theorem viaInt_small {x : Nat} (h : x < 2 ^ 31) : viaInt x = x := by
  have : x % 2 ^ 32 = x := Nat.mod_eq_of_lt (by omega)
  rw [viaInt, this, if_pos h]

theorem nStates_fold (ss : List Nat) (acc : Nat) (h : ∀ s ∈ ss, 0 < s) (hp : acc * ss.prod < 2 ^ 31) :
    ss.foldl (fun acc s => viaInt (mul64 acc s)) acc = acc * ss.prod := by
  induction ss generalizing acc with
  | nil => simp
  | cons s ss ih =>
    rw [List.prod_cons, ← Nat.mul_assoc] at hp
    have hpos : 0 < ss.prod := Nat.pos_of_ne_zero (List.prod_ne_zero fun h0 => absurd (h 0 (List.mem_cons_of_mem _ h0)) (by simp))
    have h1 : acc * s < 2 ^ 31 := lt_of_le_of_lt (Nat.le_mul_of_pos_right _ hpos) hp
    have h2 : mul64 acc s = acc * s := Nat.mod_eq_of_lt (h1.trans (by decide))
    rw [List.foldl_cons, h2, viaInt_small h1, ih _ (fun t ht => h t (List.mem_cons_of_mem _ ht)) hp, List.prod_cons,
      Nat.mul_assoc]

/-- The states visited by the sparse iteration. -/
theorem run_eq {ss : List Nat} (hne : ss ≠ []) (h : Good ss) (hw : width ss < W64) (hp : ss.prod < 2 ^ 31) :
    ((make ss).run fun _ ind => ind).1 = (List.range ss.prod).map (enc ss) := by
  have hn : (make ss).nStates = ss.prod := by
    unfold make
    simp only [List.isEmpty_iff, hne, if_false]
    rw [nStates_fold ss 1 (fun s hs => (h s hs).1) (by omega), Nat.one_mul]
  unfold run
  rw [hn]
  have := loop_eq (a := make ss) h (initJumps_eq h 1 (by omega)) hw.le ss.prod 0 (by simp [make])
  simp only [make, digits_zero, enc_zero] at this ⊢
  rw [this, List.range_eq_range']

end SparseForeach

namespace HilbertSpace
variable {ι : Type _} [LinearOrder ι]
open SparseForeach

/-- Merged sizes without accumulators. -/
def msz : List (ESpace ι) → Nat → List Nat
  | [], m => if m ≠ 1 then [m] else []
  | es :: l, m => if es.dim ≠ 2 ^ es.nBits then (m * es.dim) :: msz l 1 else msz l (m * es.dim)

theorem mergeSizes_eq (l : List (ESpace ι)) (hw : ∀ es ∈ l, es.Wf) (j : Nat) (hj : j + bitSum l ≤ 63) (acc : List Nat) :
    mergeSizes l (2 ^ j) acc = acc ++ msz l (2 ^ j) := by
  induction l generalizing j acc with
  | nil => simp only [mergeSizes, msz]; split <;> simp
  | cons es l ih =>
    have hes := hw es (by simp)
    have hw' : ∀ e ∈ l, e.Wf := fun e he => hw e (by simp [he])
    rw [bitSum_cons] at hj
    have hp : pow2 es.nBits = 2 ^ es.nBits := pow2_eq (by omega)
    have hm : mul64 (2 ^ j) es.dim = 2 ^ j * es.dim := by
      apply Nat.mod_eq_of_lt
      calc 2 ^ j * es.dim ≤ 2 ^ j * 2 ^ es.nBits := Nat.mul_le_mul_left _ hes.dim_le
        _ = 2 ^ (j + es.nBits) := (pow_add _ _ _).symm
        _ < W64 := Nat.pow_lt_pow_right (by decide) (by omega)
    rw [mergeSizes, msz]
    simp only [hp, hm]
    split
    · have := ih hw' 0 (by omega) (acc ++ [2 ^ j * es.dim])
      rw [pow_zero] at this
      rw [this]; simp
    · next hd =>
      have hd : es.dim = 2 ^ es.nBits := by simpa using hd
      rw [hd, ← pow_add]
      exact ih hw' (j + es.nBits) (by omega) acc

/-- Validity of bit fields. -/
def FieldsValid : List (ESpace ι) → Nat → Prop
  | [], s => s = 0
  | es :: l, s => s % 2 ^ es.nBits < es.dim ∧ FieldsValid l (s / 2 ^ es.nBits)

theorem msz_spec (l : List (ESpace ι)) (hw : ∀ es ∈ l, es.Wf) (j : Nat) (hj : j + bitSum l ≤ 63) :
    Good (msz l (2 ^ j)) ∧ (msz l (2 ^ j)).prod = 2 ^ j * dimProd l ∧ width (msz l (2 ^ j)) = 2 ^ (j + bitSum l) ∧
      ∀ x, SValid (msz l (2 ^ j)) x ↔ FieldsValid l (x / 2 ^ j) := by
  induction l generalizing j with
  | nil =>
    rw [msz]
    have hn : nextPow2Portable (2 ^ j) = 2 ^ j := by
      have := nextPow2Portable_eq_pow (j := j) (d := 1) (b := 0) (by simp) (by simp) (by simp) (by simpa using hj)
      simpa using this
    have hpos := Nat.two_pow_pos j
    split
    · refine ⟨?_, by simp, by simp [width, hn], fun x => ?_⟩
      · intro s hs
        simp at hs; subst hs
        exact ⟨hpos, by rw [hn]⟩
      · simp only [SValid, FieldsValid, hn]
        exact ⟨fun h => h.2, fun h => ⟨Nat.mod_lt _ hpos, h⟩⟩
    · next h1 =>
      have h1 : 2 ^ j = 1 := by simpa using h1
      refine ⟨by intro s hs; simp at hs, by simp [h1], by simp [width, h1], fun x => ?_⟩
      rw [h1]; simp [SValid, FieldsValid]
  | cons es l ih =>
    have hes := hw es (by simp)
    have hw' : ∀ e ∈ l, e.Wf := fun e he => hw e (by simp [he])
    rw [bitSum_cons] at hj
    have hpos := Nat.two_pow_pos j
    rw [msz]
    split
    · obtain ⟨h1, h2, h3, h4⟩ := ih hw' 0 (by omega)
      rw [pow_zero] at h1 h2 h3 h4
      have hn := nextPow2Portable_eq_pow (j := j) hes.dim_le (fun hb => hes.lt_dim (by omega)) hes.dim_pos (by omega)
      refine ⟨?_, ?_, ?_, fun x => ?_⟩
      · intro s hs
        rcases List.mem_cons.1 hs with rfl | hs
        · refine ⟨Nat.mul_pos hpos hes.dim_pos, ?_⟩
          rw [hn, pow_add]; exact Nat.mul_le_mul_left _ hes.dim_le
        · exact h1 s hs
      · rw [List.prod_cons, h2, dimProd_cons]; ring
      · rw [width, hn, h3, ← pow_add, bitSum_cons]; congr 1; omega
      · rw [SValid, hn, h4, FieldsValid, Nat.div_one, Nat.div_div_eq_div_mul, ← pow_add]
        have e : (x % 2 ^ (j + es.nBits) < 2 ^ j * es.dim) ↔ x / 2 ^ j % 2 ^ es.nBits < es.dim := by
          rw [pow_add, ← Nat.mod_mul_right_div_self, Nat.div_lt_iff_lt_mul hpos, Nat.mul_comm es.dim]
        rw [e]
    · next hd =>
      have hd : es.dim = 2 ^ es.nBits := by simpa using hd
      obtain ⟨h1, h2, h3, h4⟩ := ih hw' (j + es.nBits) (by omega)
      rw [hd, ← pow_add]
      refine ⟨h1, ?_, ?_, fun x => ?_⟩
      · rw [h2, dimProd_cons, hd, pow_add]; ring
      · rw [h3, bitSum_cons]; congr 1; omega
      · rw [h4, FieldsValid, Nat.div_div_eq_div_mul, ← pow_add, hd]
        exact ⟨fun h => ⟨Nat.mod_lt _ (Nat.two_pow_pos _), h⟩, fun h => h.2⟩

theorem fieldsValid_iff (l : List (ESpace ι)) (b s : Nat) :
    FieldsValid l (s / 2 ^ b) ↔ s < 2 ^ (b + bitSum l) ∧
      ∀ p ∈ layout b l, s / 2 ^ p.2.first.toNat % 2 ^ p.1.nBits < p.1.dim := by
  induction l generalizing b with
  | nil =>
    simp only [FieldsValid, layout, bitSum_nil, Nat.add_zero, List.not_mem_nil, false_imp_iff, implies_true, and_true]
    rw [Nat.div_eq_zero_iff_lt (Nat.two_pow_pos b)]
  | cons es l ih =>
    rw [FieldsValid, Nat.div_div_eq_div_mul, ← pow_add, ih, layout, bitSum_cons, Nat.add_assoc]
    simp only [List.mem_cons, forall_eq_or_imp, Int.toNat_natCast]
    tauto

theorem validState_canon (l : List (ESpace ι)) (s : Nat) : ValidState (canon l) s ↔ FieldsValid l s := by
  have := fieldsValid_iff l 0 s
  rw [pow_zero, Nat.div_one, Nat.zero_add] at this
  rw [this, ValidState, canon_total, canon_spaces, Int.toNat_natCast]

theorem canon_foreachAlg (l : List (ESpace ι)) (h : Fits l) :
    (canon l).foreachAlg = if (msz l 1).length ≤ 1 then none else some (SparseForeach.make (msz l 1)) := by
  have := mergeSizes_eq l h.wf 0 (by have := h.bits; omega) []
  rw [pow_zero, List.nil_append] at this
  unfold canon initForeach
  simp only [layout_fst, this]

/-- `foreach` enumerates the encoded states. -/
theorem foreach_canon (l : List (ESpace ι)) (h : Fits l)
    (hsmall : (canon l).foreachAlg.isSome → (canon l).dim < 2 ^ 31) :
    (canon l).foreach = (List.range (dimProd l)).map (enc (msz l 1)) := by
  have hb := h.bits
  obtain ⟨h1, h2, h3, h4⟩ := msz_spec l h.wf 0 (by omega)
  rw [pow_zero] at h1 h2 h3
  rw [Nat.one_mul] at h2
  rw [canon_foreachAlg l h] at hsmall
  unfold foreach
  rw [canon_foreachAlg l h]
  by_cases hl : (msz l 1).length ≤ 1
  · rw [if_pos hl]
    simp only
    rw [canon_dim]
    have : ∀ k < dimProd l, enc (msz l 1) k = k := by
      intro k hk
      rw [← h2] at hk
      match hm : msz l 1, hl with
      | [], _ => rw [hm] at hk; simp at hk; simp [enc, hk]
      | [s], _ =>
        rw [hm] at hk
        simp at hk
        simp [enc, Nat.mod_eq_of_lt hk]
    conv_lhs => rw [← List.map_id (List.range (dimProd l))]
    apply List.map_congr_left
    intro k hk
    rw [this k (List.mem_range.1 hk)]; rfl
  · rw [if_neg hl] at hsmall ⊢
    simp only
    have hd := hsmall rfl
    rw [canon_dim, ← h2] at hd
    rw [run_eq (by rintro h0; rw [h0] at hl; simp at hl) h1 (by
      rw [h3]; exact Nat.pow_lt_pow_right (by decide) (by omega)) hd, h2]

/-- The list of encoded states is the increasing list of valid states. -/
theorem enc_list (l : List (ESpace ι)) (h : Fits l) :
    (List.range (dimProd l)).map (enc (msz l 1)) = (List.range (2 ^ bitSum l)).filter (fun s => decide (ValidState (canon l) s)) := by
  have hb := h.bits
  obtain ⟨h1, h2, h3, h4⟩ := msz_spec l h.wf 0 (by omega)
  rw [pow_zero] at h1 h2 h3 h4
  rw [Nat.one_mul] at h2
  apply eq_of_sorted
  · rw [List.pairwise_map]
    rw [List.pairwise_iff_getElem]
    intro i j hi hj hij
    simp only [List.getElem_range]
    rw [List.length_range] at hj
    exact enc_mono h1 hij (by rw [h2]; exact hj)
  · exact List.pairwise_lt_range.filter _
  · intro x
    rw [List.mem_map, List.mem_filter, List.mem_range, decide_eq_true_iff, validState_canon]
    have e := h4 x
    rw [Nat.div_one] at e
    constructor
    · rintro ⟨k, hk, rfl⟩
      refine ⟨?_, (by have := h4 (enc (msz l 1) k); rw [Nat.div_one] at this; exact this.1 (enc_valid h1 k))⟩
      have := enc_lt_width h1 k
      rw [h3, Nat.zero_add] at this
      exact this
    · rintro ⟨_, hx⟩
      obtain ⟨k, hk, he⟩ := enc_surj h1 (e.2 hx)
      exact ⟨k, List.mem_range.2 (by rw [← h2]; exact hk), he⟩

end HilbertSpace
end LC
