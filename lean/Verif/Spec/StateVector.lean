import Mathlib.Data.Set.Basic
import Verif.Model.StateVector
/-
What a state vector is: a finitely supported function from basis state indices to amplitudes.
-/
namespace LC

/-- A type of state vectors behaves as it should: objects satisfying the class invariant `inv` represent amplitudes `amp` on
the set `dom` of addressable indices. -/
class LawfulSV (V : Type _) (T : outParam (Type _)) [AddCommMonoid T] [StateVec V T] where
  inv : V → Prop
  dom : V → Set Nat
  amp : V → Nat → T
  /-- The indices `foreach` visits. -/
  visited : V → Set Nat
  amp_out : ∀ v n, n ∉ dom v → amp v n = 0
  /-- `get_element` returns the amplitude. -/
  get : ∀ v n, inv v → n ∈ dom v → StateVec.getElement v n = .ok (amp v n)
  /-- `foreach` visits every index with a non-zero amplitude exactly once, with that amplitude (it may also visit indices with
  zero amplitudes). -/
  each : ∀ v, inv v → ∃ l, StateVec.foreach v = .ok l ∧ (l.map Prod.fst).Nodup ∧
    (∀ n, n ∈ l.map Prod.fst ↔ n ∈ visited v) ∧ ∀ p ∈ l, p.2 = amp v p.1
  visited_of_ne : ∀ v n, inv v → amp v n ≠ 0 → n ∈ visited v
  /-- `update_add_element` adds to one amplitude. -/
  update : ∀ v n x, inv v → n ∈ dom v → ∃ v', StateVec.updateAdd v n x = .ok v' ∧ inv v' ∧ dom v' = dom v ∧
    ∀ k, amp v' k = amp v k + if k = n then x else 0
  /-- `set_zeros` sets all amplitudes to zero. -/
  zero : ∀ v, inv v → inv (StateVec.setZeros v) ∧ dom (StateVec.setZeros v) = dom v ∧ ∀ n, amp (StateVec.setZeros v) n = 0

/-- `zeros_like` returns a zero vector with the same addressable indices. -/
class LawfulZeros (V : Type _) {T : Type _} [AddCommMonoid T] [StateVec V T] [LawfulSV V T] [ZerosLike V] : Prop where
  zeros : ∀ v : V, LawfulSV.inv v → LawfulSV.inv (ZerosLike.zerosLike v) ∧
    LawfulSV.dom (ZerosLike.zerosLike v) = LawfulSV.dom v ∧ ∀ n, LawfulSV.amp (ZerosLike.zerosLike v) n = 0

end LC
