import Verif.Model.Print
import Mathlib.Data.Rat.Defs
/-
What the printed form of monomials and expressions should be.
-/
namespace LC

/-- A power: `g` or `[g]^n`. -/
def PowerText {G : Type _} (gt : G → Text) (r : G × Nat) : Text :=
  if r.2 = 1 then gt r.1 else "[".toList ++ gt r.1 ++ "]^".toList ++ natText r.2

/-- `rs` is the product `m` with runs of equal generators collected to powers. -/
structure IsPowers {G : Type _} (m : List G) (rs : List (G × Nat)) : Prop where
  product : rs.flatMap (fun r => List.replicate r.2 r.1) = m
  positive : ∀ r ∈ rs, 1 ≤ r.2
  maximal : rs.IsChain (fun r s => r.1 ≠ s.1)

/-- A term: the coefficient, and the monomial after an asterisk unless it is 1. -/
def TermText {G S : Type _} (mt : List G → Text) (cs : S → Text) (p : List G × S) : Text :=
  if p.1 = [] then cs p.2 else cs p.2 ++ "*".toList ++ mt p.1

/-- What is assumed of the printed form of coefficients: it determines the coefficient and has neither asterisks nor blanks. Double precision
numbers do not satisfy this, as streams print six digits of them. -/
structure ReadableCoeff {S : Type _} (cs : S → Text) : Prop where
  inj : ∀ x y, cs x = cs y → x = y
  chars : ∀ x, '*' ∉ cs x ∧ ' ' ∉ cs x

/-- How `boost::rational` is printed (outside of the repository). -/
def ratText (q : ℚ) : Text := intText q.num ++ ['/'] ++ natText q.den

/-- How `std::complex` is printed (outside of the repository). -/
def complexText {S : Type _} (cs : S → Text) (p : S × S) : Text := ['('] ++ cs p.1 ++ [','] ++ cs p.2 ++ [')']

end LC
