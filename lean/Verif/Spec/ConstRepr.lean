import Verif.Spec.FixedInt
import Verif.Spec.UserAlgebra
/-
Specification for C102: two versions of the same algebra whose structure constants are written differently.
-/
namespace LC

/-- Two `var_number` objects stand for the same number, e.g. `var_number(1, 2)`, `var_number(2, 4)` and `var_number(0.5)`. -/
def VarNumber.SameNumber (v w : VarNumber) : Prop := v.Defined ∧ w.Defined ∧ v.rat = w.rat

/-- The same linear function, with its coefficients possibly written differently. -/
structure LinFun.SameNumbers {G G' : Type _} (θ : G → G') (f : LinFun G) (f' : LinFun G') : Prop where
  const : f.const.SameNumber f'.const
  terms : List.Forall₂ (fun p q => q.1 = θ p.1 ∧ p.2.SameNumber q.2) f.terms f'.terms

/-- Two versions of the same generators: `θ` gives the counterpart of a generator, comparisons agree, and the virtual functions return the
same constants and linear functions, with numbers possibly written differently. -/
structure SameAlgebra {G G' : Type _} [GenOps G] [GenOps G'] (θ : G ≃ G') : Prop where
  eq : ∀ a b, GenOps.eq (θ a) (θ b) = GenOps.eq a b
  lt : ∀ a b, GenOps.lt (θ a) (θ b) = GenOps.lt a b
  gt : ∀ a b, GenOps.gt (θ a) (θ b) = GenOps.gt a b
  swap : ∀ a b, GenOps.gt a b = true → (GenOps.swapWith a b).1.SameNumber (GenOps.swapWith (θ a) (θ b)).1 ∧
    (GenOps.swapWith a b).2.SameNumbers θ (GenOps.swapWith (θ a) (θ b)).2
  simp : ∀ a b, GenOps.gt a b = false → Option.Rel (LinFun.SameNumbers θ) (GenOps.simplifyProd a b) (GenOps.simplifyProd (θ a) (θ b))
  red : ∀ a n f f', LinFun.SameNumbers θ f f' → (GenOps.reducePower (θ a) n f').1 = (GenOps.reducePower a n f).1 ∧
    (GenOps.reducePower a n f).2.SameNumbers θ (GenOps.reducePower (θ a) n f').2

/-- Two versions of the same user-defined classes of generators: the virtual functions (`UserGen`) return the same constants and linear
functions, with numbers possibly written differently. -/
structure SameUser {U U' : Type _} [UserGen U] [UserGen U'] (η : U ≃ U') : Prop where
  algebraId : ∀ u, UserGen.algebraId (η u) = UserGen.algebraId u
  equal : ∀ u v, UserGen.equal (η u) (η v) = UserGen.equal u v
  less : ∀ u v, UserGen.less (η u) (η v) = UserGen.less u v
  greater : ∀ u v, UserGen.greater (η u) (η v) = UserGen.greater u v
  swap : ∀ u v, (UserGen.swapWith u v).1.SameNumber (UserGen.swapWith (η u) (η v)).1 ∧
    (UserGen.swapWith u v).2.SameNumbers η (UserGen.swapWith (η u) (η v)).2
  simp : ∀ u v, Option.Rel (LinFun.SameNumbers η) (UserGen.simplifyProd u v) (UserGen.simplifyProd (η u) (η v))
  red : ∀ u n, Option.Rel (LinFun.SameNumbers η) (UserGen.reducePower u n) (UserGen.reducePower (η u) n)

/-- The counterpart of a generator: predefined generators are the same in both versions. -/
def AllGen.counterpart {ι U U' : Type _} (η : U ≃ U') : AllGen ι U ≃ AllGen ι U' where
  toFun
    | .pre g => .pre g
    | .user u => .user (η u)
  invFun
    | .pre g => .pre g
    | .user u => .user (η.symm u)
  left_inv g := by cases g <;> simp
  right_inv g := by cases g <;> simp

/-- A scalar type with exact arithmetic that converts `var_number` objects standing for the same number to the same scalar. -/
structure ValueScalar (S : Type _) [CommRing S] [ThrowOps S] : Prop extends RingScalar S where
  same : ∀ v w : VarNumber, v.SameNumber w → (ScalarOps.makeConst v : S) = ScalarOps.makeConst w

/-- The same program for the other version of the generators. -/
def IntProg.map {G G' : Type _} (θ : G → G') : IntProg G → IntProg G'
  | .const x => .const x
  | .monomial x m => .monomial x (m.map θ)
  | .add p q => .add (p.map θ) (q.map θ)
  | .sub p q => .sub (p.map θ) (q.map θ)
  | .mul p q => .mul (p.map θ) (q.map θ)
  | .neg p => .neg (p.map θ)
  | .smul x p => .smul x (p.map θ)
  | .muls p x => .muls (p.map θ) x
  | .addScalar p x => .addScalar (p.map θ) x
  | .addAssignScalar p x => .addAssignScalar (p.map θ) x
  | .subScalar p x => .subScalar (p.map θ) x
  | .scalarSub x p => .scalarSub x (p.map θ)

end LC
