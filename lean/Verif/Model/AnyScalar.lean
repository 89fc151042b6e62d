import Verif.Model.Expression
/-
Model of `expression/expression.hpp` for an arbitrary scalar type, given only by its operations and its `scalar_traits`:
nothing is assumed about rounding, tolerances of `is_zero`, overflow, NaNs. The code is the one modelled in
`Model/Expression.lean` (where scalars form a ring and `is_zero(x)` is `x == 0`); `Proof/AnyExact.lean` proves that the two
models agree for such scalars.
-/
namespace LC

/-- The operations of a scalar type that `expression` uses: `scalar_traits<S>::{is_zero, make_const, conj}`
(scalar_traits.hpp:52-111) and the arithmetic operators; `add_assign`, `sub_assign`, `mul_assign`
(scalar_traits.hpp:162-187) are assignments of the results of the operators. Scalar types whose `make_const` throws
(fractions in integral types) are outside the model. -/
class ScalarOps (S : Type _) where
  isZero : S → Bool
  makeConst : VarNumber → S
  conj : S → S
  add : S → S → S
  sub : S → S → S
  mul : S → S → S
  neg : S → S
  /-- `operator==` -/
  eq : S → S → Bool

namespace Any
variable {G S T : Type _} [GenOps G] [ScalarOps S]

/-- `scalar_traits<S>::make_const(0)` (scalar_traits.hpp:56-62, 88, 106). -/
def zero : S := ScalarOps.makeConst (.integer 0)

/-- `store_monomial` (expression.hpp:606-619). -/
def store (k : List G) (c : S) (t : Terms G S) : Terms G S :=
  match t.find? k with
  | none => t.emplace k c
  | some v => if ScalarOps.isZero (ScalarOps.add v c) then t.erase k else t.assign k (ScalarOps.add v c)

/-- Lambda `process_f` (expression.hpp:636-655). -/
def processF (N : List G → S → T → T) (pre post : List G) (f : LinFun G) (c : S) (t : T) : T :=
  f.terms.foldl (fun t gv => N (pre ++ gv.1 :: post) (ScalarOps.mul c (ScalarOps.makeConst gv.2)) t)
    (if f.const.isZero then t else N (pre ++ post) (ScalarOps.mul c (ScalarOps.makeConst f.const)) t)

/-- The `for(n = 1; n <= n_max; ++n)` loop (expression.hpp:661-687). -/
def pass (N : List G → S → T → T) : Nat → List G → G → List G → S → Bool → T → PassRes G S T
  | 0, pre, x, rest, c, sw, t => .cont (pre ++ x :: rest) c sw t
  | _ + 1, pre, x, [], c, sw, t => .cont (pre ++ [x]) c sw t
  | cnt + 1, pre, x, y :: rest, c, sw, t =>
      if GenOps.gt x y then
        let cf := GenOps.swapWith x y
        let t' := processF N pre rest cf.2 c t
        if cf.1.eq (.integer 0) then .done t'
        else pass N cnt (pre ++ [y]) x rest (ScalarOps.mul c (ScalarOps.makeConst cf.1)) true t'
      else
        match GenOps.simplifyProd x y with
        | some f => .done (processF N pre rest f c t)
        | none => pass N cnt (pre ++ [x]) y rest c sw t

/-- The `do … while(is_swapped)` loop (expression.hpp:659-689). -/
def sortLoop (N : List G → S → T → T) : Nat → List G → S → T → PassRes G S T
  | nmax, m, c, t =>
    match m with
    | [] => .cont [] c false t
    | x :: rest =>
      match pass N nmax [] x rest c false t with
      | .done t' => .done t'
      | .cont m' c' false t' => .cont m' c' false t'
      | .cont m' c' true t' =>
        match nmax with
        | 0 => .cont m' c' true t'
        | nmax' + 1 => sortLoop N nmax' m' c' t'

/-- Body of `normalize_and_store` (expression.hpp:622-697). -/
def normStep (N R : List G → S → T → T) (m : List G) (c : S) (t : T) : T :=
  if 2 ≤ m.length then
    match sortLoop N (m.length - 1) m c t with
    | .done t' => t'
    | .cont m' c' _ t' => if ScalarOps.isZero c' then t' else R m' c' t'
  else R m c t

/-- The loop of `reduce_powers_and_store` (expression.hpp:707-746). -/
def reduceLoop (st N R : List G → S → T → T) :
    List G → List G → G → List G → LinFun G → S → T → T
  | pre, run, _, [], _, c, t => st (pre ++ run) c t
  | pre, run, x, y :: rest, f, c, t =>
      if GenOps.eq y x then
        if run.length + 1 > 2 then
          let rf := GenOps.reducePower x (run.length + 1) f
          if rf.1 then
            if rf.2.vanishing then t
            else
              let v : S := ScalarOps.makeConst rf.2.const
              let t' := if ScalarOps.isZero v then t else R (pre ++ rest) (ScalarOps.mul c v) t
              rf.2.terms.foldl
                (fun t gv =>
                  let v : S := ScalarOps.makeConst gv.2
                  if ScalarOps.isZero v then t else N (pre ++ gv.1 :: rest) (ScalarOps.mul c v) t) t'
          else reduceLoop st N R pre (run ++ [y]) y rest rf.2 c t
        else reduceLoop st N R pre (run ++ [y]) y rest f c t
      else reduceLoop st N R (pre ++ run) [y] y rest f c t

/-- Body of `reduce_powers_and_store` (expression.hpp:699-747). -/
def reduceStep (st N R : List G → S → T → T) (m : List G) (c : S) (t : T) : T :=
  match m with
  | [] => st [] c t
  | x :: rest => reduceLoop st N R [] [x] x rest LinFun.zero c t

/-- The two mutually recursive functions, with a bound on the recursion depth. -/
def both (st : List G → S → T → T) : Nat → (List G → S → T → T) × (List G → S → T → T)
  | 0 => (fun _ _ t => t, fun _ _ t => t)
  | n + 1 =>
      let p := both st n
      let R' := reduceStep st p.1 p.2
      (normStep p.1 R', R')

/-- `normalize_and_store` (expression.hpp:622-697); see `LC.normalize` for the recursion depth. -/
def normalize (st : List G → S → T → T) (m : List G) (c : S) (t : T) : T :=
  (both st (m.length + 1)).1 m c t

/-- `reduce_powers_and_store` (expression.hpp:699-747). -/
def reduce (st : List G → S → T → T) (m : List G) (c : S) (t : T) : T :=
  (both st (m.length + 1)).2 m c t

/-- `expression(S const& x)` (expression.hpp:88-93). -/
def const (x : S) : Expr G S := ⟨if ScalarOps.isZero x then [] else [([], x)]⟩

/-- `expression(S const& x, monomial_t const&)` (expression.hpp:96-103). -/
def ofMonomial (x : S) (m : List G) : Expr G S :=
  ⟨if ScalarOps.isZero x then [] else normalize store m x []⟩

/-- `operator+=(expression)` (expression.hpp:248-259); `operator+` (expression.hpp:220-224, 449-464) is the same on a
copy. -/
def addAssign (a b : Expr G S) : Expr G S :=
  ⟨b.terms.foldl (fun t p =>
      match t.find? p.1 with
      | none => t.emplace p.1 p.2
      | some v => if ScalarOps.isZero (ScalarOps.add v p.2) then t.erase p.1 else t.assign p.1 (ScalarOps.add v p.2))
    a.terms⟩

/-- `operator-=(expression)` (expression.hpp:262-274); `operator-` (expression.hpp:227-232, 516-533) is the same on a
copy. -/
def subAssign (a b : Expr G S) : Expr G S :=
  ⟨b.terms.foldl (fun t p =>
      match t.find? p.1 with
      | none => t.emplace p.1 (ScalarOps.sub zero p.2)
      | some v => if ScalarOps.isZero (ScalarOps.sub v p.2) then t.erase p.1 else t.assign p.1 (ScalarOps.sub v p.2))
    a.terms⟩

/-- `operator*=(expression)` (expression.hpp:277-288), `operator*` (expression.hpp:235-241). -/
def mulAssign (a b : Expr G S) : Expr G S :=
  ⟨a.terms.foldl (fun t m1 =>
      b.terms.foldl (fun t m2 => normalize store (m1.1 ++ m2.1) (ScalarOps.mul m1.2 m2.2) t) t) []⟩

/-- Unary minus (expression.hpp:291-294, 584-590). -/
def neg (a : Expr G S) : Expr G S := ⟨a.terms.map fun p => (p.1, ScalarOps.neg p.2)⟩

/-- Multiplication by scalar, prefix form (expression.hpp:313-322, 779-786). -/
def smulPrefix (x : S) (a : Expr G S) : Expr G S :=
  if ScalarOps.isZero x then ⟨[]⟩ else ⟨a.terms.map fun p => (p.1, ScalarOps.mul x p.2)⟩

/-- Multiplication by scalar, postfix form (expression.hpp:301-310, 755-762) and `operator*=(S const&)`
(expression.hpp:378-386). -/
def smulPostfix (a : Expr G S) (x : S) : Expr G S :=
  if ScalarOps.isZero x then ⟨[]⟩ else ⟨a.terms.map fun p => (p.1, ScalarOps.mul p.2 x)⟩

/-- Addition of scalar, postfix and prefix form (expression.hpp:325-340, 807-885). -/
def addScalar (a : Expr G S) (x : S) : Expr G S :=
  if ScalarOps.isZero x then a else
    ⟨match a.terms.find? [] with
     | none => a.terms.emplace [] x
     | some v => if ScalarOps.isZero (ScalarOps.add v x) then a.terms.erase [] else a.terms.assign [] (ScalarOps.add v x)⟩

/-- `operator+=(S const&)` (expression.hpp:389-404). -/
def addAssignScalar (a : Expr G S) (x : S) : Expr G S :=
  if ScalarOps.isZero x then a else
    ⟨match a.terms.find? [] with
     | none => a.terms.emplace [] (ScalarOps.add zero x)
     | some v => if ScalarOps.isZero (ScalarOps.add v x) then a.terms.erase [] else a.terms.assign [] (ScalarOps.add v x)⟩

/-- Subtraction of scalar, postfix form (expression.hpp:343-349, 893-932) and `operator-=(S const&)`
(expression.hpp:407-421). -/
def subScalar (a : Expr G S) (x : S) : Expr G S :=
  if ScalarOps.isZero x then a else
    ⟨match a.terms.find? [] with
     | none => a.terms.emplace [] (ScalarOps.sub zero x)
     | some v => if ScalarOps.isZero (ScalarOps.sub v x) then a.terms.erase [] else a.terms.assign [] (ScalarOps.sub v x)⟩

/-- Subtraction of scalar, prefix form `alpha - expr` (expression.hpp:352-371). -/
def scalarSub (x : S) (a : Expr G S) : Expr G S :=
  let t : Terms G S := a.terms.foldl (fun t p => t.emplace p.1 (ScalarOps.sub zero p.2)) []
  if ScalarOps.isZero x then ⟨t⟩ else
    ⟨match t.find? [] with
     | none => t.emplace [] x
     | some v => if ScalarOps.isZero (ScalarOps.add v x) then t.erase [] else t.assign [] (ScalarOps.add v x)⟩

/-- `transform(expr, f)` (expression.hpp:180-193). -/
def transform {S' : Type _} [ScalarOps S'] (a : Expr G S) (f : List G → S → S') : Expr G S' :=
  ⟨a.terms.foldl (fun t m =>
      let v := f m.1 m.2
      if ScalarOps.isZero v then t else t.emplace m.1 v) []⟩

/-- Private constructor from a linear function of generators (expression.hpp:107-119). -/
def ofLinFun (f : LinFun G) : Expr G S :=
  f.terms.foldl (fun e gv =>
      let v : S := ScalarOps.makeConst gv.2
      if ScalarOps.isZero v then e else addAssign e (ofMonomial v [gv.1]))
    ⟨if f.const.isZero then [] else [([], ScalarOps.makeConst f.const)]⟩

/-- `conj(expr)` (expression.hpp:196-213); `m_contrib` keeps its previous value when `is_zero` holds for the conjugated
coefficient. -/
def conj (a : Expr G S) : Expr G S :=
  (a.terms.foldl (fun (s : Expr G S × Expr G S) m =>
      let co := ScalarOps.conj m.2
      let contrib :=
        if ScalarOps.isZero co then s.2
        else m.1.reverse.foldl (fun e g => mulAssign e (ofLinFun (GenOps.conj g))) (const co)
      (addAssign s.1 contrib, contrib)) (⟨[]⟩, ⟨[]⟩)).1

/-- `operator==` (expression.hpp:148-150). -/
def eqOp (a b : Expr G S) : Bool :=
  a.terms.length == b.terms.length &&
    (List.zipWith (fun p q => monEq p.1 q.1 && ScalarOps.eq p.2 q.2) a.terms b.terms).all id

/-- Expressions that a program can build with the given scalar type from generators satisfying `P`. -/
inductive Reachable (P : G → Prop) : Expr G S → Prop
  | zero : Reachable P ⟨[]⟩
  | const (x : S) : Reachable P (const x)
  | ofMonomial (x : S) (m : List G) : (∀ g ∈ m, P g) → Reachable P (ofMonomial x m)
  | add {a b} : Reachable P a → Reachable P b → Reachable P (addAssign a b)
  | sub {a b} : Reachable P a → Reachable P b → Reachable P (subAssign a b)
  | mul {a b} : Reachable P a → Reachable P b → Reachable P (mulAssign a b)
  | neg {a} : Reachable P a → Reachable P (neg a)
  | smulPrefix (x : S) {a} : Reachable P a → Reachable P (smulPrefix x a)
  | smulPostfix (x : S) {a} : Reachable P a → Reachable P (smulPostfix a x)
  | addScalar (x : S) {a} : Reachable P a → Reachable P (addScalar a x)
  | addAssignScalar (x : S) {a} : Reachable P a → Reachable P (addAssignScalar a x)
  | subScalar (x : S) {a} : Reachable P a → Reachable P (subScalar a x)
  | scalarSub (x : S) {a} : Reachable P a → Reachable P (scalarSub x a)
  | transform (f : List G → S → S) {a} : Reachable P a → Reachable P (transform a f)
  | conj {a} : Reachable P a → Reachable P (conj a)

end Any
end LC
