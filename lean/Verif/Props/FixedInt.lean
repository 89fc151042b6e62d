import Verif.Proof.FixedInt
import Verif.Props.IntScalar
/-
C101: integral coefficients of a fixed width.
-/
set_option linter.unusedSectionVars false
namespace LC
open Any.FixedInt Factory

theorem ringInt : RingScalar ℤ :=
  { isZero := fun x => by simp [ScalarOps.isZero], add := fun _ _ => rfl, sub := fun _ _ => rfl, mul := fun _ _ => rfl,
    neg := fun _ => rfl, zero := ⟨rfl, rfl⟩ }

theorem ringBits (w : Nat) : RingScalar (BitVec w) :=
  { isZero := fun x => by simp [ScalarOps.isZero], add := fun _ _ => rfl, sub := fun _ _ => rfl, mul := fun _ _ => rfl,
    neg := fun _ => rfl, zero := ⟨rfl, by simp [ScalarOps.makeConst]⟩ }

theorem castBits (w : Nat) (i : ℤ) : (Int.castRingHom (BitVec w)) i = BitVec.ofInt w i := rfl

section
variable {G : Type _} [GenOps G] [LawfulGen G]

/-- C101 (a). Let a program with integer literals be run once with coefficients that are `w`-bit integers with wrap-around and once with
unlimited integers. If neither run throws, all coefficients of the results are equal modulo `2^w`, whatever the algebra and whichever
intermediate results overflow. -/
theorem C101_exact_modulo (w : Nat) (p : IntProg G) {e : Expr G ℤ} {e' : Expr G (BitVec w)} (he : p.run id = some e)
    (he' : p.run (BitVec.ofInt w) = some e') (k : List G) : e'.at_ k = BitVec.ofInt w (e.at_ k) := by
  have := (run_rel ringInt (ringBits w) (Int.castRingHom (BitVec w)) (fun v => by
    cases v with
    | integer i => rfl
    | rational a b => exact map_zero _
    | real x => exact map_zero _) id p he he').at_ k
  exact this

/-- C101 (b). A coefficient that fits into the type is exact: unsigned and signed types. -/
theorem C101_exact_in_range (w : Nat) (p : IntProg G) {e : Expr G ℤ} {e' : Expr G (BitVec w)} (he : p.run id = some e)
    (he' : p.run (BitVec.ofInt w) = some e') (k : List G) :
    (0 ≤ e.at_ k → e.at_ k < 2 ^ w → ((e'.at_ k).toNat : ℤ) = e.at_ k) ∧
    (-(2 ^ w) ≤ 2 * e.at_ k → 2 * e.at_ k < 2 ^ w → (e'.at_ k).toInt = e.at_ k) := by
  rw [C101_exact_modulo w p he he' k]
  constructor
  · intro h0 h1
    rw [BitVec.toNat_ofInt]
    rw [Int.emod_eq_of_lt h0 (by exact_mod_cast h1)]
    omega
  · intro h0 h1
    rw [BitVec.toInt_ofInt]
    exact Int.bmod_eq_of_le_mul_two (by push_cast; omega) (by push_cast; omega)

end

section
variable {ι : Type _} [LinearOrder ι]

theorem LinFun.representable_bits {G : Type _} {w : Nat} {f : LinFun G} (h : f.Representable ℤ) : f.Representable (BitVec w) := by
  have key : ∀ v, ThrowOps.representable ℤ v = true → ThrowOps.representable (BitVec w) v = true := by
    intro v hv
    cases v <;> first | rfl | cases hv
  exact ⟨key _ h.1, fun p hp => key _ (h.2 p hp)⟩

theorem convertibleBits (w : Nat) : ConvertibleGen (BitVec w) (NoSpinHalf : Gen ι → Prop) where
  swap_const g h hg hh hgt := by
    have := convertibleInt.swap_const g h hg hh hgt
    cases hv : (GenOps.swapWith g h).1 <;> rw [hv] at this <;> first | rfl | cases this
  swap g h hg hh hgt := ⟨LinFun.representable_bits (convertibleInt.swap g h hg hh hgt).1, (convertibleInt.swap g h hg hh hgt).2⟩
  simp g h f hg hh hs := ⟨LinFun.representable_bits (convertibleInt.simp g h f hg hh hs).1, (convertibleInt.simp g h f hg hh hs).2⟩
  red g p f hg hf hP := by
    have : (GenOps.reducePower g p f).2 = f := by cases g <;> rfl
    rw [this]; exact ⟨hf, hP⟩
  conj g hg := ⟨LinFun.representable_bits (convertibleInt.conj g hg).1, (convertibleInt.conj g hg).2⟩

theorem nfNoSpinHalf : NFGen (NoSpinHalf : Gen ι → Prop) := by
  have : (NoSpinHalf : Gen ι → Prop) = Allowed fun n _ => n ≠ 2 := by
    funext g; cases g <;> rfl
  rw [this]
  exact nfGen _ fun i n h => absurd rfl h

/-- C101 (c). Without spin-1/2 no exception is thrown (spin-1/2 operators need the structure constant 1/2), whether or not there are
overflows. -/
theorem C101_no_exception (w : Nat) (p : IntProg (Gen ι)) (hp : p.All NoSpinHalf) :
    (∃ e : Expr (Gen ι) ℤ, p.run id = some e) ∧ ∃ e' : Expr (Gen ι) (BitVec w), p.run (BitVec.ofInt w) = some e' := by
  refine ⟨?_, ?_⟩
  · obtain ⟨e, he, -⟩ := run_safe ringInt (Any.monInv_canon nfNoSpinHalf) convertibleInt id p hp
    exact ⟨e, he⟩
  · obtain ⟨e, he, -⟩ := run_safe (ringBits w) (Any.monInv_canon nfNoSpinHalf) (convertibleBits w) (BitVec.ofInt w) p hp
    exact ⟨e, he⟩

end

/-! ### Zero coefficients in the map -/

instance {G S : Type _} [DecidableEq G] [DecidableEq S] : DecidableEq (Expr G S) := fun a b =>
  decidable_of_iff ((a.terms : List (List G × S)) = b.terms) ⟨fun h => by cases a; cases b; congr, fun h => by rw [h]⟩

/-- The zero coefficient that `(65536u * c†_1) * 65536u` keeps in its map (32 bits). -/
def wrapped : IntProg (Gen Nat) := .muls (.monomial 65536 [.fermion true 1]) 65536

/-- C101, finding F45. Scalar multiplication does not check products for zero, so an overflow to zero leaves a term with a zero
coefficient in the map: the result has one monomial and is not `==` to the zero expression although all its coefficients are zero; and so
does a product of two constants. -/
theorem C101_F45_zero_terms :
    wrapped.run (BitVec.ofInt 32) = some (⟨[([.fermion true 1], 0)]⟩ : Expr (Gen Nat) (BitVec 32)) ∧
    Any.eqOp (⟨[([.fermion true 1], 0)]⟩ : Expr (Gen Nat) (BitVec 32)) ⟨[]⟩ = false ∧
    (IntProg.mul (.const 65536) (.const 65536) : IntProg (Gen Nat)).run (BitVec.ofInt 32)
      = some (⟨[([], 0)]⟩ : Expr (Gen Nat) (BitVec 32)) := by
  decide +kernel

/-- C101, finding F45, consequence. Hermitian conjugation of `3u * c†_0 + (65536u * c†_1) * 65536u` is `6u * c_0`: for the term with the zero
coefficient the conjugate of the previous term is added again. -/
theorem C101_F45_conj :
    ((IntProg.add (.monomial 3 [.fermion true 0]) wrapped).run (BitVec.ofInt 32)).bind Thr.conj
      = some (⟨[([.fermion false 0], 6)]⟩ : Expr (Gen Nat) (BitVec 32)) := by
  decide +kernel

/-! ### Non-vacuity -/

/-- `(c†_1 + 4000000000 c_1)² * 2 - 5` overflows 32 bits in an intermediate result. -/
def wrapSample : IntProg (Gen Nat) :=
  .subScalar (.smul 2 (.mul (.add (.monomial 1 [.fermion true 1]) (.monomial 4000000000 [.fermion false 1]))
    (.add (.monomial 1 [.fermion true 1]) (.monomial 4000000000 [.fermion false 1])))) 5

example : wrapSample.All NoSpinHalf := by simp [wrapSample, IntProg.All, NoSpinHalf]
example : wrapSample.run id = some (⟨[([], 7999999995)]⟩ : Expr (Gen Nat) ℤ) := by decide +kernel
example : wrapSample.run (BitVec.ofInt 32) = some (⟨[([], 3705032699)]⟩ : Expr (Gen Nat) (BitVec 32)) := by decide +kernel
/-- The hypotheses of C101 (b) hold for a program whose intermediate results overflow: `wrapSample - 7999999000`. -/
example : ∃ (e : Expr (Gen Nat) ℤ) (e' : Expr (Gen Nat) (BitVec 32)), (IntProg.subScalar wrapSample 7999999000).run id = some e ∧
    (IntProg.subScalar wrapSample 7999999000).run (BitVec.ofInt 32) = some e' ∧ e.at_ [] = 995 ∧ e'.at_ [] = 995 := by
  refine ⟨⟨[([], 995)]⟩, ⟨[([], 995)]⟩, ?_, ?_, rfl, rfl⟩ <;> decide +kernel

end LC
