import Verif.Model.AnyScalar
/-
Model of `expression/expression.hpp` for scalar types whose `make_const(var_number)` may throw, i.e. integral types
(scalar_traits.hpp:52-77: only integers can be converted). `none` is an exception leaving the function.
The code is the one modelled in `Model/AnyScalar.lean`.
-/
namespace LC

/-- A scalar type with the set of variant numbers that `make_const` converts; it throws for the others
(scalar_traits.hpp:65-73). -/
class ThrowOps (S : Type _) extends ScalarOps S where
  representable : VarNumber → Bool

namespace Thr
variable {G S T : Type _} [GenOps G] [ThrowOps S]

/-- `scalar_traits<S>::make_const(var_number)` (scalar_traits.hpp:65-73). -/
def makeConst (v : VarNumber) : Option S := if ThrowOps.representable S v then some (ScalarOps.makeConst v) else none

/-- Lambda `process_f` (expression.hpp:636-655). -/
def processF (N : List G → S → T → Option T) (pre post : List G) (f : LinFun G) (c : S) (t : T) : Option T :=
  (if f.const.isZero then some t
    else (makeConst f.const).bind fun v => N (pre ++ post) (ScalarOps.mul c v) t).bind fun t =>
  f.terms.foldlM (fun t gv => (makeConst gv.2).bind fun v => N (pre ++ gv.1 :: post) (ScalarOps.mul c v) t) t

/-- The `for(n = 1; n <= n_max; ++n)` loop (expression.hpp:661-687). -/
def pass (N : List G → S → T → Option T) : Nat → List G → G → List G → S → Bool → T → Option (PassRes G S T)
  | 0, pre, x, rest, c, sw, t => some (.cont (pre ++ x :: rest) c sw t)
  | _ + 1, pre, x, [], c, sw, t => some (.cont (pre ++ [x]) c sw t)
  | cnt + 1, pre, x, y :: rest, c, sw, t =>
      if GenOps.gt x y then
        let cf := GenOps.swapWith x y
        (processF N pre rest cf.2 c t).bind fun t' =>
        if cf.1.eq (.integer 0) then some (.done t')
        else (makeConst cf.1).bind fun v => pass N cnt (pre ++ [y]) x rest (ScalarOps.mul c v) true t'
      else
        match GenOps.simplifyProd x y with
        | some f => (processF N pre rest f c t).map .done
        | none => pass N cnt (pre ++ [x]) y rest c sw t

/-- The `do … while(is_swapped)` loop (expression.hpp:659-689). -/
def sortLoop (N : List G → S → T → Option T) : Nat → List G → S → T → Option (PassRes G S T)
  | nmax, m, c, t =>
    match m with
    | [] => some (.cont [] c false t)
    | x :: rest =>
      match pass N nmax [] x rest c false t with
      | none => none
      | some (.done t') => some (.done t')
      | some (.cont m' c' false t') => some (.cont m' c' false t')
      | some (.cont m' c' true t') =>
        match nmax with
        | 0 => some (.cont m' c' true t')
        | nmax' + 1 => sortLoop N nmax' m' c' t'

/-- Body of `normalize_and_store` (expression.hpp:622-697). -/
def normStep (N R : List G → S → T → Option T) (m : List G) (c : S) (t : T) : Option T :=
  if 2 ≤ m.length then
    (sortLoop N (m.length - 1) m c t).bind fun
    | .done t' => some t'
    | .cont m' c' _ t' => if ScalarOps.isZero c' then some t' else R m' c' t'
  else R m c t

/-- The loop of `reduce_powers_and_store` (expression.hpp:707-746). -/
def reduceLoop (st : List G → S → T → T) (N R : List G → S → T → Option T) :
    List G → List G → G → List G → LinFun G → S → T → Option T
  | pre, run, _, [], _, c, t => some (st (pre ++ run) c t)
  | pre, run, x, y :: rest, f, c, t =>
      if GenOps.eq y x then
        if run.length + 1 > 2 then
          let rf := GenOps.reducePower x (run.length + 1) f
          if rf.1 then
            if rf.2.vanishing then some t
            else
              (makeConst rf.2.const).bind fun v =>
              (if ScalarOps.isZero v then some t else R (pre ++ rest) (ScalarOps.mul c v) t).bind fun t' =>
              rf.2.terms.foldlM
                (fun t gv => (makeConst gv.2).bind fun v =>
                  if ScalarOps.isZero v then some t else N (pre ++ gv.1 :: rest) (ScalarOps.mul c v) t) t'
          else reduceLoop st N R pre (run ++ [y]) y rest rf.2 c t
        else reduceLoop st N R pre (run ++ [y]) y rest f c t
      else reduceLoop st N R (pre ++ run) [y] y rest f c t

/-- Body of `reduce_powers_and_store` (expression.hpp:699-747). -/
def reduceStep (st : List G → S → T → T) (N R : List G → S → T → Option T) (m : List G) (c : S) (t : T) : Option T :=
  match m with
  | [] => some (st [] c t)
  | x :: rest => reduceLoop st N R [] [x] x rest LinFun.zero c t

/-- The two mutually recursive functions, with a bound on the recursion depth. -/
def both (st : List G → S → T → T) : Nat → (List G → S → T → Option T) × (List G → S → T → Option T)
  | 0 => (fun _ _ t => some t, fun _ _ t => some t)
  | n + 1 =>
      let p := both st n
      let R' := reduceStep st p.1 p.2
      (normStep p.1 R', R')

/-- `normalize_and_store` (expression.hpp:622-697); see `LC.normalize` for the recursion depth. -/
def normalize (st : List G → S → T → T) (m : List G) (c : S) (t : T) : Option T := (both st (m.length + 1)).1 m c t

/-- `expression(S const& x, monomial_t const&)` (expression.hpp:96-103). -/
def ofMonomial (x : S) (m : List G) : Option (Expr G S) :=
  if ScalarOps.isZero x then some ⟨[]⟩ else (normalize Any.store m x []).map Expr.mk

/-- `operator*` (expression.hpp:235-241). -/
def mul (a b : Expr G S) : Option (Expr G S) :=
  (a.terms.foldlM (fun t m1 =>
      b.terms.foldlM (fun t m2 => normalize Any.store (m1.1 ++ m2.1) (ScalarOps.mul m1.2 m2.2) t) t) []).map Expr.mk

/-- `a *= b` (expression.hpp:277-288): the value of `a` afterwards, and whether an exception left the function. -/
def mulAssign (a b : Expr G S) : Expr G S × Bool :=
  match a.terms.foldlM (fun t m1 =>
      b.terms.foldlM (fun t m2 => normalize Any.store (m1.1 ++ m2.1) (ScalarOps.mul m1.2 m2.2) t) t) [] with
  | none => (a, true)
  | some resMap => (⟨resMap⟩, false)

/-- Private constructor from a linear function of generators (expression.hpp:107-119). -/
def ofLinFun (f : LinFun G) : Option (Expr G S) :=
  (if f.const.isZero then some ⟨[]⟩ else (makeConst f.const).map fun v => ⟨[([], v)]⟩).bind fun e =>
  f.terms.foldlM (fun e gv => (makeConst gv.2).bind fun v =>
      if ScalarOps.isZero v then some e else (ofMonomial v [gv.1]).map fun e' => Any.addAssign e e') e

/-- `conj(expr)` (expression.hpp:196-213); `m_contrib` keeps its previous value when `is_zero` holds for the conjugated
coefficient. -/
def conj (a : Expr G S) : Option (Expr G S) :=
  (a.terms.foldlM (fun (s : Expr G S × Expr G S) (m : List G × S) =>
      (if ScalarOps.isZero (ScalarOps.conj m.2) then some s.2
        else m.1.reverse.foldlM (fun e g => (ofLinFun (GenOps.conj g)).bind fun c => mul e c)
          (Any.const (ScalarOps.conj m.2))).map fun contrib => (Any.addAssign s.1 contrib, contrib)) (⟨[]⟩, ⟨[]⟩)).map Prod.fst

end Thr

/-- `int` and the other integral types as mathematical integers (overflow is not modelled): `scalar_traits<S>` with
`std::is_integral` (scalar_traits.hpp:52-77); `mpz_class` (scalars/gmpxx.hpp:80-105), which cannot overflow. The value of `makeConst` for numbers that are not representable is irrelevant. -/
instance : ThrowOps Int where
  isZero x := decide (x = 0)
  makeConst
    | .integer i => i
    | _ => 0
  conj x := x
  add := (· + ·)
  sub := (· - ·)
  mul := (· * ·)
  neg := (- ·)
  eq x y := decide (x = y)
  representable
    | .integer _ => true
    | _ => false

/-- `mpq_class` (scalars/gmpxx.hpp:110-137) and `boost::rational` (scalars/boost_rational.hpp:28-57; overflow is not
modelled): floating-point structure constants cannot be converted. `mpq_class` does not bring fractions to lowest terms
(gmpxx.hpp:127); the structure constants of the predefined algebras are in lowest terms. -/
instance : ThrowOps Rat where
  isZero x := decide (x = 0)
  makeConst
    | .integer i => i
    | .rational a b => a / b
    | .real x => x
  conj x := x
  add := (· + ·)
  sub := (· - ·)
  mul := (· * ·)
  neg := (- ·)
  eq x y := decide (x = y)
  representable
    | .real _ => false
    | _ => true

end LC
