import Verif.Spec.Relabel
import Verif.Props.Products
/-
Specification for C97: substituting expressions for generators. `subst` is a loop a user would write with the public API.
-/
namespace LC
variable {ι κ S : Type _} [LinearOrder ι] [LinearOrder κ] [CommRing S] [DecidableEq S] [ConstScalar S]

/-- `σ(g₁) * σ(g₂) * … `, multiplied from the left to the right, starting from 1. -/
def substMon (σ : Gen ι → Expr (Gen κ) S) (m : List (Gen ι)) : Expr (Gen κ) S :=
  m.foldl (fun q g => q * σ g) (Expr.const 1)

/-- `for(auto const& [m, c] : e) res += c * (σ(m[0]) * σ(m[1]) * …);` -/
def Expr.subst (σ : Gen ι → Expr (Gen κ) S) (e : Expr (Gen ι) S) : Expr (Gen κ) S :=
  e.terms.foldl (fun r p => r + Expr.smulPrefix p.2 (substMon σ p.1)) 0

/-- The new operators `σ(g)` are expressions of fermions, bosons and spins-1/2 that satisfy the textbook relations, as decided
by `==` of the library. -/
structure CanonicalTransformation [Star S] (σ : Gen ι → Expr (Gen κ) S) : Prop where
  closed : ∀ g, FBS g → Reachable FBS (σ g)
  car : ∀ d i e j, (σ (.fermion d i) * σ (.fermion e j) + σ (.fermion e j) * σ (.fermion d i)).eqOp
    (Expr.const (if i = j ∧ d ≠ e then 1 else 0)) = true
  ccr : ∀ i j, (σ (.boson false i) * σ (.boson true j) - σ (.boson true j) * σ (.boson false i)).eqOp
    (Expr.const (if i = j then 1 else 0)) = true
  ccr_same : ∀ d i j, (σ (.boson d i) * σ (.boson d j)).eqOp (σ (.boson d j) * σ (.boson d i)) = true
  spin_pm : ∀ i, (σ (.spin 2 .plus i) * σ (.spin 2 .minus i) - σ (.spin 2 .minus i) * σ (.spin 2 .plus i)).eqOp
    (σ (.spin 2 .z i) + σ (.spin 2 .z i)) = true
  spin_pm1 : ∀ i, (σ (.spin 2 .plus i) * σ (.spin 2 .minus i) + σ (.spin 2 .minus i) * σ (.spin 2 .plus i)).eqOp
    (Expr.const 1) = true
  spin_z : ∀ i, (σ (.spin 2 .z i) * σ (.spin 2 .plus i) - σ (.spin 2 .plus i) * σ (.spin 2 .z i)).eqOp
      (σ (.spin 2 .plus i)) = true ∧
    (σ (.spin 2 .z i) * σ (.spin 2 .minus i) - σ (.spin 2 .minus i) * σ (.spin 2 .z i)).eqOp
      (-(σ (.spin 2 .minus i))) = true
  spin_az : ∀ i c, c ≠ .z → (σ (.spin 2 .z i) * σ (.spin 2 c i) + σ (.spin 2 c i) * σ (.spin 2 .z i)).eqOp 0 = true
  spin_nil : ∀ i c, c ≠ .z → (σ (.spin 2 c i) * σ (.spin 2 c i)).eqOp 0 = true
  spin_zz : ∀ i, (Expr.smulPrefix 4 (σ (.spin 2 .z i) * σ (.spin 2 .z i))).eqOp (Expr.const 1) = true
  spin_sites : ∀ c i e j, i ≠ j → (σ (.spin 2 c i) * σ (.spin 2 e j)).eqOp (σ (.spin 2 e j) * σ (.spin 2 c i)) = true
  comm_fb : ∀ d i e j, (σ (.fermion d i) * σ (.boson e j)).eqOp (σ (.boson e j) * σ (.fermion d i)) = true
  comm_fs : ∀ d i c j, (σ (.fermion d i) * σ (.spin 2 c j)).eqOp (σ (.spin 2 c j) * σ (.fermion d i)) = true
  comm_bs : ∀ d i c j, (σ (.boson d i) * σ (.spin 2 c j)).eqOp (σ (.spin 2 c j) * σ (.boson d i)) = true

/-- The new creation operators are the conjugates of the new annihilation operators, and so on. -/
structure StarTransformation [Star S] (σ : Gen ι → Expr (Gen κ) S) : Prop where
  fermion : ∀ d i, (σ (.fermion d i)).conj.eqOp (σ (.fermion (!d) i)) = true
  boson : ∀ d i, (σ (.boson d i)).conj.eqOp (σ (.boson (!d) i)) = true
  plus : ∀ i, (σ (.spin 2 .plus i)).conj.eqOp (σ (.spin 2 .minus i)) = true
  minus : ∀ i, (σ (.spin 2 .minus i)).conj.eqOp (σ (.spin 2 .plus i)) = true
  z : ∀ i, (σ (.spin 2 .z i)).conj.eqOp (σ (.spin 2 .z i)) = true

namespace ExprProg

/-- All generators named by the program satisfy `P`. -/
def Uses (P : Gen ι → Prop) : ExprProg ι S → Prop
  | zero | scalar _ => True
  | monomial _ m => ∀ g ∈ m, P g
  | cDag i => P (.fermion true i)
  | c i => P (.fermion false i)
  | n i => P (.fermion true i) ∧ P (.fermion false i)
  | aDag i => P (.boson true i)
  | a i => P (.boson false i)
  | spin m e i => P (.spin m e i)
  | add p q | sub p q | mul p q => p.Uses P ∧ q.Uses P
  | neg p | conj p | plusHc p | minusHc p => p.Uses P
  | smul _ p | muls p _ | addScalar p _ | scalarAdd _ p | subScalar p _ | scalarSub _ p => p.Uses P

/-- The program run with the new operators in the place of the generators. -/
def runWith [Star S] (σ : Gen ι → Expr (Gen κ) S) : ExprProg ι S → Expr (Gen κ) S
  | zero => 0
  | scalar x => Expr.const x
  | monomial x m => Expr.smulPrefix x (substMon σ m)
  | cDag i => σ (.fermion true i)
  | c i => σ (.fermion false i)
  | n i => σ (.fermion true i) * σ (.fermion false i)
  | aDag i => σ (.boson true i)
  | a i => σ (.boson false i)
  | spin mult comp i => σ (.spin mult comp i)
  | add p q => p.runWith σ + q.runWith σ
  | sub p q => p.runWith σ - q.runWith σ
  | mul p q => p.runWith σ * q.runWith σ
  | neg p => -p.runWith σ
  | smul x p => Expr.smulPrefix x (p.runWith σ)
  | muls p x => Expr.smulPostfix (p.runWith σ) x
  | addScalar p x => (p.runWith σ).addScalar x
  | scalarAdd x p => Expr.scalarAdd x (p.runWith σ)
  | subScalar p x => (p.runWith σ).subScalar x
  | scalarSub x p => Expr.scalarSub x (p.runWith σ)
  | conj p => (p.runWith σ).conj
  | plusHc p => (p.runWith σ).plusHc
  | minusHc p => (p.runWith σ).minusHc

end ExprProg
end LC
