/-
Specification vocabulary for 64-bit words.
-/
namespace LC

/-- Positions of the set bits of a 64-bit word, in increasing order. -/
def bitPositions (x : Nat) : List Nat := (List.range 64).filter (x.testBit ·)

/-- The words on `M` modes with exactly `N` occupied modes. -/
def InSector (M N s : Nat) : Prop := s < 2 ^ M ∧ (bitPositions s).length = N

instance (M N s : Nat) : Decidable (InSector M N s) := inferInstanceAs (Decidable (_ ∧ _))

end LC
