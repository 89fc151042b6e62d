import Verif.Model.ThrowScalar
/-
Scalar types with a throwing `make_const` inside larger ones, e.g. integers inside rationals.
-/
namespace LC

/-- Apply a conversion to all coefficients. -/
def Expr.mapCoeffs {G S S' : Type _} (φ : S → S') (a : Expr G S) : Expr G S' := ⟨a.terms.map fun p => (p.1, φ p.2)⟩

/-- `φ` embeds the scalars `S`: it is compatible with the operations, the zero test, and with `make_const` where that does not
throw. -/
structure ScalarEmbedding {S S' : Type _} [ThrowOps S] [ScalarOps S'] (φ : S → S') : Prop where
  isZero : ∀ x, ScalarOps.isZero (φ x) = ScalarOps.isZero x
  add : ∀ x y, φ (ScalarOps.add x y) = ScalarOps.add (φ x) (φ y)
  sub : ∀ x y, φ (ScalarOps.sub x y) = ScalarOps.sub (φ x) (φ y)
  mul : ∀ x y, φ (ScalarOps.mul x y) = ScalarOps.mul (φ x) (φ y)
  neg : ∀ x, φ (ScalarOps.neg x) = ScalarOps.neg (φ x)
  conj : ∀ x, φ (ScalarOps.conj x) = ScalarOps.conj (φ x)
  eq : ∀ x y, ScalarOps.eq (φ x) (φ y) = ScalarOps.eq x y
  makeConst : ∀ v, ThrowOps.representable S v = true → φ (ScalarOps.makeConst v) = ScalarOps.makeConst v
  zero : ThrowOps.representable S (.integer 0) = true

/-- All numbers occurring in a linear function can be converted. -/
def LinFun.Representable {G : Type _} (S : Type _) [ThrowOps S] (f : LinFun G) : Prop :=
  ThrowOps.representable S f.const = true ∧ ∀ p ∈ f.terms, ThrowOps.representable S p.2 = true

/-- Generators for which all numbers that occur while products are normalised can be converted. -/
structure ConvertibleGen (S : Type _) [ThrowOps S] {G : Type _} [GenOps G] (P : G → Prop) : Prop where
  swap_const : ∀ g h, P g → P h → GenOps.gt g h = true → ThrowOps.representable S (GenOps.swapWith g h).1 = true
  swap : ∀ g h, P g → P h → GenOps.gt g h = true →
    (GenOps.swapWith g h).2.Representable S ∧ ∀ p ∈ (GenOps.swapWith g h).2.terms, P p.1
  simp : ∀ g h f, P g → P h → GenOps.simplifyProd g h = some f → f.Representable S ∧ ∀ p ∈ f.terms, P p.1
  red : ∀ g p f, P g → f.Representable S → (∀ q ∈ f.terms, P q.1) →
    (GenOps.reducePower g p f).2.Representable S ∧ ∀ q ∈ (GenOps.reducePower g p f).2.terms, P q.1
  conj : ∀ g, P g → (GenOps.conj g).Representable S ∧ ∀ p ∈ (GenOps.conj g).terms, P p.1

end LC
