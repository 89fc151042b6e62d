import Verif.Model.ThrowAction
import Verif.Spec.LOperator
/-
What it means for a scalar type to be embedded in the real or complex numbers; generators with integer matrix elements.
-/
namespace LC
variable {ι S R : Type _}

/-- `make_const(double)` converts exactly, or throws: the scalar type is embedded in an algebra over the real numbers. -/
structure Thr.EmbedReal [CommRing S] [DoubleConst S] [CommRing R] [Algebra ℝ R] (emb : S →+* R) : Prop where
  exact : ∀ x s, DoubleConst.makeDouble x = some s → emb s = algebraMap ℝ R x

/-- The scalar type has all integers. -/
def Thr.HasInt (S : Type _) [DoubleConst S] : Prop := ∀ z : ℤ, ∃ s : S, DoubleConst.makeDouble (z : ℝ) = some s

/-- Generators whose matrix elements are integers: fermions, `S_±` of spins 1/2, `S_z` of integer spins. -/
def IntegerElements : Gen ι → Prop
  | .fermion _ _ => True
  | .boson _ _ => False
  | .spin mult c _ => if c = .z then mult % 2 = 1 else mult = 2

/-- The terms are in canonical order, and their generators belong to `hs` (see `ActsOn`). -/
def Thr.ActsOn [LinearOrder ι] (hs : HilbertSpace ι) (e : Expr (Gen ι) S) : Prop :=
  ∀ p ∈ e.terms, CanonicalMonomial p.1 ∧ ∀ g ∈ p.1, hs.has g.mode.space = true

end LC
