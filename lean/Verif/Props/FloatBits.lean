import Verif.Proof.FloatBits
/-!
C85: the number of bits reserved for a bosonic mode or a spin, which the code computes with floating-point logarithms. `Log2Within`,
`roundDouble` and `correctLog2` are in Spec/FloatBits.lean.
-/
set_option linter.unusedSectionVars false
namespace LC
open HilbertSpace
variable {ι : Type _} [LinearOrder ι]

/-- **C85** (partial, see F34: the bound on the dimension cannot be dropped) With a `std::log2` that is exact for powers of two and has
an error of at most `2^-m`, the number of bits of a bosonic elementary space of dimension `dim ≤ 2^m` is the smallest one with which
all states `0 … dim-1` are different bit patterns, and the constructed object is the one the theorems about Hilbert spaces are about. -/
theorem C85_boson_partial (log2 : Nat → ℝ) (m : Nat) (hl : Log2Within log2 m) (hm : m ≤ 53) (dim : Nat) (h0 : 0 < dim)
    (hdim : dim ≤ 2 ^ m) (i : ι) :
    (∀ n < dim, n < 2 ^ (ESpace.bosonF log2 dim i).nBits) ∧
    (∀ b, (∀ n < dim, n < 2 ^ b) → (ESpace.bosonF log2 dim i).nBits ≤ b) ∧
    ESpace.bosonF log2 dim i = ESpace.boson dim i := by
  have h := floatBits_exact hl hm h0 hdim
  refine ⟨fun n hn => ?_, fun b hb => ?_, ?_⟩
  · exact hn.trans_le (by simpa [ESpace.bosonF, h] using Nat.le_pow_clog (by norm_num) dim)
  · have : dim ≤ 2 ^ b := by have := hb (dim - 1) (by omega); omega
    simpa [ESpace.bosonF, h] using (Nat.clog_le_iff_le_pow (by norm_num)).2 this
  · simp [ESpace.bosonF, ESpace.boson, h]

/-- **C85** The same for spins, without restriction: the multiplicity is an `int`. -/
theorem C85_spin (log2 : Nat → ℝ) (m : Nat) (hl : Log2Within log2 m) (hm : m ≤ 53) (hm' : 31 ≤ m) (mult : Nat) (h0 : 0 < mult)
    (hmult : mult < 2 ^ 31) (i : ι) :
    (∀ n < mult, n < 2 ^ (ESpace.spinF log2 mult i).nBits) ∧
    (∀ b, (∀ n < mult, n < 2 ^ b) → (ESpace.spinF log2 mult i).nBits ≤ b) ∧
    ESpace.spinF log2 mult i = ESpace.spin mult i := by
  have hle : mult ≤ 2 ^ m := hmult.le.trans (Nat.pow_le_pow_right (by norm_num) hm')
  have h := floatBits_exact hl hm h0 hle
  refine ⟨fun n hn => ?_, fun b hb => ?_, ?_⟩
  · exact hn.trans_le (by simpa [ESpace.spinF, h] using Nat.le_pow_clog (by norm_num) mult)
  · have : mult ≤ 2 ^ b := by have := hb (mult - 1) (by omega); omega
    simpa [ESpace.spinF, h] using (Nat.clog_le_iff_le_pow (by norm_num)).2 this
  · simp [ESpace.spinF, ESpace.spin, h]

/-- **C85** With the correctly rounded logarithm, bosonic spaces of dimension up to `2^49` have the right number of bits. -/
theorem C85_correctly_rounded_partial (dim : Nat) (h0 : 0 < dim) (hdim : dim ≤ 2 ^ 49) (i : ι) :
    ESpace.bosonF correctLog2 dim i = ESpace.boson dim i := by
  simp [ESpace.bosonF, ESpace.boson, floatBits_correct h0 hdim]

/-- The assumption is met by the correctly rounded logarithm. -/
example : Log2Within correctLog2 48 := correctLog2_within
example : ESpace.bosonF correctLog2 (2 ^ 30 + 1) (0 : ℤ) = ESpace.boson (2 ^ 30 + 1) 0 ∧ (ESpace.boson (2 ^ 30 + 1) (0 : ℤ)).nBits = 31 :=
  ⟨C85_correctly_rounded_partial _ (by norm_num) (by norm_num) _, by
    show Nat.clog 2 (2 ^ 30 + 1) = 31
    exact clog_eq (by norm_num) (by norm_num)⟩

/-- **C85, F34** The dimension `2^49 + 1` gets 49 bits although `2^49` does not fit (even with a correctly rounded logarithm). In the Hilbert
space of this mode and a second one, a state with `2^49` bosons in the first mode has the same index as the state with one boson in the
second mode; and in the Hilbert space of this mode alone, `foreach()` produces an index not less than `vec_size()`. -/
theorem C85_F34_too_few_bits :
    (ESpace.bosonF correctLog2 (2 ^ 49 + 1) (0 : ℤ)).nBits = 49 ∧
    (∃ hs, ofArgs [ESpace.bosonF correctLog2 (2 ^ 49 + 1) (0 : ℤ), ESpace.bosonF correctLog2 2 1] = .ok hs ∧
      hs.basisStateIndex (ESpace.bosonF correctLog2 (2 ^ 49 + 1) 0) (2 ^ 49) = .ok (2 ^ 49) ∧
      hs.basisStateIndex (ESpace.bosonF correctLog2 2 1) 1 = .ok (2 ^ 49)) ∧
    ∃ hs, ofArgs [ESpace.bosonF correctLog2 (2 ^ 49 + 1) (0 : ℤ)] = .ok hs ∧ hs.vecSize = 2 ^ 49 ∧ 2 ^ 49 ∈ hs.foreach := by
  have e1 : ESpace.bosonF correctLog2 (2 ^ 49 + 1) (0 : ℤ) = ⟨-2, 0, 0, 2 ^ 49 + 1, 49⟩ := by
    rw [ESpace.bosonF, ESpace.floatBits, correctLog2_bad]
    simp
  have e2 : ESpace.bosonF correctLog2 2 (1 : ℤ) = ⟨-2, 0, 1, 2, 1⟩ := by
    have := correctLog2_pow 1 (by norm_num)
    norm_num at this
    simp [ESpace.bosonF, ESpace.floatBits, this]
  rw [e1, e2]
  refine ⟨rfl, ⟨_, rfl, by decide +kernel, by decide +kernel⟩, _, rfl, by decide +kernel, ?_⟩
  exact List.mem_range.2 (by decide +kernel)

end LC
