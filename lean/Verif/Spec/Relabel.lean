import Verif.Model.Factories
import Verif.Model.LOperator
import Verif.Model.DynIndices
/-
Specification for C96: programs that name degrees of freedom by indices, and what it means to rename the indices.
Nothing in this file is a function of the library; `ExprProg.run` calls the model.
-/
namespace LC

/-- The same generator at the index `f i` instead of `i`. -/
def Gen.relabel {ι κ : Type _} (f : ι → κ) : Gen ι → Gen κ
  | .fermion d i => .fermion d (f i)
  | .boson d i => .boson d (f i)
  | .spin m c i => .spin m c (f i)

/-- The same expression, every index replaced: same number of terms, in the same order, with the same coefficients. -/
def Expr.relabel {ι κ S : Type _} (f : ι → κ) (e : Expr (Gen ι) S) : Expr (Gen κ) S :=
  ⟨e.terms.map fun p => (p.1.map (Gen.relabel f), p.2)⟩

/-- The same elementary space with other indices. -/
def ESpace.relabel {ι κ : Type _} (f : ι → κ) (es : ESpace ι) : ESpace κ :=
  ⟨es.algebraId, es.mult, f es.indices, es.dim, es.nBits⟩

/-- The same Hilbert space (same order of factors, same bits, same dimension) with other indices. -/
def HilbertSpace.relabel {ι κ : Type _} (f : ι → κ) (hs : HilbertSpace ι) : HilbertSpace κ :=
  ⟨hs.spaces.map fun p => (p.1.relabel f, p.2), hs.algRanges, hs.bitRangeEnd, hs.dim, hs.foreachAlg⟩

/-- The same exception, about the renamed generator. -/
def ActError.relabel {ι κ : Type _} (f : ι → κ) : ActError ι → ActError κ
  | .unknownGenerator g => .unknownGenerator (g.relabel f)
  | .hs e => .hs e

/-- User code computing an expression: factory calls and arithmetic. -/
inductive ExprProg (ι S : Type _) where
  | zero
  | scalar (x : S)
  | monomial (x : S) (m : List (Gen ι))
  | cDag (i : ι) | c (i : ι) | n (i : ι) | aDag (i : ι) | a (i : ι) | spin (mult : Nat) (comp : SpinComp) (i : ι)
  | add (p q : ExprProg ι S) | sub (p q : ExprProg ι S) | mul (p q : ExprProg ι S) | neg (p : ExprProg ι S)
  | smul (x : S) (p : ExprProg ι S) | muls (p : ExprProg ι S) (x : S)
  | addScalar (p : ExprProg ι S) (x : S) | scalarAdd (x : S) (p : ExprProg ι S)
  | subScalar (p : ExprProg ι S) (x : S) | scalarSub (x : S) (p : ExprProg ι S)
  | conj (p : ExprProg ι S) | plusHc (p : ExprProg ι S) | minusHc (p : ExprProg ι S)

namespace ExprProg

/-- The expression the code computes. -/
def run {ι S : Type _} [LinearOrder ι] [CommRing S] [DecidableEq S] [ConstScalar S] [Star S] :
    ExprProg ι S → Expr (Gen ι) S
  | zero => 0
  | scalar x => Expr.const x
  | monomial x m => Expr.ofMonomial x m
  | cDag i => Factory.cDag i
  | c i => Factory.c i
  | n i => Factory.n i
  | aDag i => Factory.aDag i
  | a i => Factory.a i
  | spin mult comp i => Factory.spin mult comp i
  | add p q => p.run + q.run
  | sub p q => p.run - q.run
  | mul p q => p.run * q.run
  | neg p => -p.run
  | smul x p => Expr.smulPrefix x p.run
  | muls p x => Expr.smulPostfix p.run x
  | addScalar p x => p.run.addScalar x
  | scalarAdd x p => Expr.scalarAdd x p.run
  | subScalar p x => p.run.subScalar x
  | scalarSub x p => Expr.scalarSub x p.run
  | conj p => p.run.conj
  | plusHc p => p.run.plusHc
  | minusHc p => p.run.minusHc

/-- The code with every index `i` replaced by `f i`. -/
def relabel {ι κ S : Type _} (f : ι → κ) : ExprProg ι S → ExprProg κ S
  | zero => zero
  | scalar x => scalar x
  | monomial x m => monomial x (m.map (Gen.relabel f))
  | cDag i => cDag (f i)
  | c i => c (f i)
  | n i => n (f i)
  | aDag i => aDag (f i)
  | a i => a (f i)
  | spin mult comp i => spin mult comp (f i)
  | add p q => add (p.relabel f) (q.relabel f)
  | sub p q => sub (p.relabel f) (q.relabel f)
  | mul p q => mul (p.relabel f) (q.relabel f)
  | neg p => neg (p.relabel f)
  | smul x p => smul x (p.relabel f)
  | muls p x => muls (p.relabel f) x
  | addScalar p x => addScalar (p.relabel f) x
  | scalarAdd x p => scalarAdd x (p.relabel f)
  | subScalar p x => subScalar (p.relabel f) x
  | scalarSub x p => scalarSub x (p.relabel f)
  | conj p => conj (p.relabel f)
  | plusHc p => plusHc (p.relabel f)
  | minusHc p => minusHc (p.relabel f)

end ExprProg

/-! ### Static and dynamic index sequences -/

/-- `std::tuple<IndexTypes...>` whose types are `int` (`false`) or `std::string` (`true`). -/
def StaticTuple (α β : Type) : List Bool → Type
  | [] => Unit
  | false :: sig => α × StaticTuple α β sig
  | true :: sig => β × StaticTuple α β sig

/-- `operator<` of such a tuple (`tupleLt`, the comparison of the standard library). -/
def StaticTuple.lt {α β : Type} [LinearOrder α] [LinearOrder β] : (sig : List Bool) → StaticTuple α β sig → StaticTuple α β sig → Bool
  | [] => fun _ _ => false
  | false :: sig => tupleLt (fun x y : α => decide (x < y)) (StaticTuple.lt sig)
  | true :: sig => tupleLt (fun x y : β => decide (x < y)) (StaticTuple.lt sig)

/-- The sequence of the same indices in the same order, as `dyn_indices(args...)` builds it (dyn_indices.hpp:66-70). -/
def StaticTuple.toDyn {α β : Type} : (sig : List Bool) → StaticTuple α β sig → List (DynIndex α β)
  | [] => fun _ => []
  | false :: sig => fun t => .int t.1 :: toDyn sig t.2
  | true :: sig => fun t => .str t.1 :: toDyn sig t.2

end LC
