import Mathlib.Algebra.Ring.Defs
import Mathlib.Algebra.Star.Basic
import Mathlib.Data.Int.Cast.Basic
import Verif.Model.Generator
/-
Model of `expression/monomial.hpp`, `expression/expression.hpp`.
-/
namespace LC

/-- `scalar_traits<S>::make_const(var_number)` (scalar_traits.hpp:64-108, the `make_const(var_number)` members).
The laws say that integers, fractions and floating-point numbers are mapped to their values; scalar types for which some of
these throw (integral types) are outside the model. -/
class ConstScalar (S : Type _) [CommRing S] where
  makeConst : VarNumber → S
  mk_integer : ∀ i : Int, makeConst (.integer i) = (i : S)
  mk_rational : ∀ a b : Int, b ≠ 0 → makeConst (.rational a b) * (b : S) = (a : S)
  mk_real : ∀ x : Rat, makeConst (.real x) * ((x.den : Int) : S) = (x.num : S)

/-! ### Monomials -/

section Monomial
variable {G : Type _} [GenOps G]

/-- `std::lexicographical_compare` with comparison `r` (used by monomial.hpp:133-136, 146-149). -/
def lexCompare (r : G → G → Bool) : List G → List G → Bool
  | [], [] => false
  | [], _ :: _ => true
  | _ :: _, [] => false
  | a :: as, b :: bs => if r a b then true else if r b a then false else lexCompare r as bs

/-- `operator==(monomial, monomial)` (monomial.hpp:133-136). -/
def monEq (m₁ m₂ : List G) : Bool :=
  m₁.length == m₂.length && (List.zipWith GenOps.eq m₁ m₂).all id

/-- `operator<(monomial, monomial)` (monomial.hpp:142-151). -/
def monLt (m₁ m₂ : List G) : Bool :=
  if m₁.length ≠ m₂.length then decide (m₁.length < m₂.length) else lexCompare GenOps.lt m₁ m₂

/-- `operator>(monomial, monomial)` (monomial.hpp:152-163). -/
def monGt (m₁ m₂ : List G) : Bool :=
  if m₁.length ≠ m₂.length then decide (m₁.length > m₂.length) else lexCompare GenOps.gt m₁ m₂

/-- `monomial::is_ordered()` = `std::is_sorted(begin(), end())` (monomial.hpp:166). -/
def monIsOrdered : List G → Bool
  | [] => true
  | [_] => true
  | a :: b :: l => !(GenOps.lt b a) && monIsOrdered (b :: l)

end Monomial

/-! ### `std::map<monomial, ScalarType>` -/

/-- `monomials_map_t` (expression.hpp:54): the sequence of (key, value) nodes in iteration order. -/
abbrev Terms (G S : Type _) := List (List G × S)

namespace Terms
variable {G S : Type _} [GenOps G]

/-- `std::map::find` (walk to the first key not less than `k`, check equivalence). -/
def find? (k : List G) : Terms G S → Option S
  | [] => none
  | (k', v) :: t => if monLt k' k then find? k t else if monLt k k' then none else some v

/-- `std::map::emplace`/`emplace_hint`: no effect if an equivalent key is present. -/
def emplace (k : List G) (v : S) : Terms G S → Terms G S
  | [] => [(k, v)]
  | (k', v') :: t =>
      if monLt k' k then (k', v') :: emplace k v t
      else if monLt k k' then (k, v) :: (k', v') :: t
      else (k', v') :: t

/-- Assignment through the iterator returned by `find` (`it->second = v`). -/
def assign (k : List G) (v : S) : Terms G S → Terms G S
  | [] => []
  | (k', v') :: t =>
      if monLt k' k then (k', v') :: assign k v t
      else if monLt k k' then (k', v') :: t
      else (k', v) :: t

/-- `std::map::erase(it)` with `it` returned by `find(k)`. -/
def erase (k : List G) : Terms G S → Terms G S
  | [] => []
  | (k', v') :: t =>
      if monLt k' k then (k', v') :: erase k t
      else if monLt k k' then (k', v') :: t
      else t

variable [CommRing S] [DecidableEq S]

/-- `store_monomial` (expression.hpp:606-619): emplace; on collision add and erase if the sum is zero. -/
def store (k : List G) (c : S) (t : Terms G S) : Terms G S :=
  match t.find? k with
  | none => t.emplace k c
  | some v => if v + c = 0 then t.erase k else t.assign k (v + c)

end Terms

/-! ### Normalisation

The functions of this section write to the target map only through `store_monomial`; they are therefore parametrised
by the type `T` of the target and the operation `st : List G → S → T → T`.  The library is the instance
`T = Terms G S`, `st = Terms.store`. -/

section Normalize
variable {G S T : Type _} [GenOps G] [CommRing S] [DecidableEq S] [ConstScalar S]

/-- Outcome of a bubble-sort pass: `done` = the C++ function has executed `return`. -/
inductive PassRes (G S T : Type _) where
  | done (t : T)
  | cont (m : List G) (c : S) (isSwapped : Bool) (t : T)

/-- Lambda `process_f` (expression.hpp:636-655); `pre = m[0..n-2]`, `post = m[n+1..]`, `N = normalize_and_store`. -/
def processF (N : List G → S → T → T) (pre post : List G) (f : LinFun G) (c : S) (t : T) : T :=
  f.terms.foldl (fun t gv => N (pre ++ gv.1 :: post) (c * ConstScalar.makeConst gv.2) t)
    (if f.const.isZero then t else N (pre ++ post) (c * ConstScalar.makeConst f.const) t)

/-- The `for(n = 1; n <= n_max; ++n)` loop (expression.hpp:661-687). `m = pre ++ x :: rest`, `x = m[n-1]`,
`cnt` iterations are left. -/
def pass (N : List G → S → T → T) : Nat → List G → G → List G → S → Bool → T → PassRes G S T
  | 0, pre, x, rest, c, sw, t => .cont (pre ++ x :: rest) c sw t
  | _ + 1, pre, x, [], c, sw, t => .cont (pre ++ [x]) c sw t
  | cnt + 1, pre, x, y :: rest, c, sw, t =>
      if GenOps.gt x y then
        let cf := GenOps.swapWith x y
        let t' := processF N pre rest cf.2 c t
        if cf.1.eq (.integer 0) then .done t'
        else pass N cnt (pre ++ [y]) x rest (c * ConstScalar.makeConst cf.1) true t'
      else
        match GenOps.simplifyProd x y with
        | some f => .done (processF N pre rest f c t)
        | none => pass N cnt (pre ++ [x]) y rest c sw t

/-- The `do … while(is_swapped)` loop (expression.hpp:659-689). The wrap-around of `--n_max` from 0 is never
followed by another pass, because the pass with `n_max = 0` does nothing and leaves `is_swapped = false`. -/
def sortLoop (N : List G → S → T → T) : Nat → List G → S → T → PassRes G S T
  | nmax, m, c, t =>
    match m with
    | [] => .cont [] c false t
    | x :: rest =>
      match pass N nmax [] x rest c false t with
      | .done t' => .done t'
      | .cont m' c' false t' => .cont m' c' false t'
      | .cont m' c' true t' =>
        match nmax with
        | 0 => .cont m' c' true t'
        | nmax' + 1 => sortLoop N nmax' m' c' t'

/-- Body of `normalize_and_store` (expression.hpp:622-697); recursive calls go to `N`,
`R = reduce_powers_and_store`. -/
def normStep (N R : List G → S → T → T) (m : List G) (c : S) (t : T) : T :=
  if 2 ≤ m.length then
    match sortLoop N (m.length - 1) m c t with
    | .done t' => t'
    | .cont m' c' _ t' => if c' = 0 then t' else R m' c' t'
  else R m c t

/-- The loop of `reduce_powers_and_store` (expression.hpp:707-746). `m = pre ++ run ++ rest`, `run` is the current
run of equal generators up to and including `*it = x`, `power = run.length`, `f` is the linear function passed by
reference to all calls of `reduce_power`. -/
def reduceLoop (st N R : List G → S → T → T) :
    List G → List G → G → List G → LinFun G → S → T → T
  | pre, run, _, [], _, c, t => st (pre ++ run) c t
  | pre, run, x, y :: rest, f, c, t =>
      if GenOps.eq y x then
        if run.length + 1 > 2 then
          let rf := GenOps.reducePower x (run.length + 1) f
          if rf.1 then
            if rf.2.vanishing then t
            else
              let v : S := ConstScalar.makeConst rf.2.const
              let t' := if v = 0 then t else R (pre ++ rest) (c * v) t
              rf.2.terms.foldl
                (fun t gv =>
                  let v : S := ConstScalar.makeConst gv.2
                  if v = 0 then t else N (pre ++ gv.1 :: rest) (c * v) t) t'
          else reduceLoop st N R pre (run ++ [y]) y rest rf.2 c t
        else reduceLoop st N R pre (run ++ [y]) y rest f c t
      else reduceLoop st N R (pre ++ run) [y] y rest f c t

/-- Body of `reduce_powers_and_store` (expression.hpp:699-747). -/
def reduceStep (st N R : List G → S → T → T) (m : List G) (c : S) (t : T) : T :=
  match m with
  | [] => st [] c t
  | x :: rest => reduceLoop st N R [] [x] x rest LinFun.zero c t

/-- The two mutually recursive functions, with a bound on the recursion depth. -/
def both (st : List G → S → T → T) : Nat → (List G → S → T → T) × (List G → S → T → T)
  | 0 => (fun _ _ t => t, fun _ _ t => t)
  | n + 1 =>
      let p := both st n
      let R' := reduceStep st p.1 p.2
      (normStep p.1 R', R')

/-- `normalize_and_store` (expression.hpp:622-697). Every recursive call is made on a shorter monomial, so depth
`m.length + 1` suffices (`normalize_eq` in `Proof/Normalize.lean` proves the unbounded recursion equation). -/
def normalize (st : List G → S → T → T) (m : List G) (c : S) (t : T) : T :=
  (both st (m.length + 1)).1 m c t

/-- `reduce_powers_and_store` (expression.hpp:699-747). -/
def reduce (st : List G → S → T → T) (m : List G) (c : S) (t : T) : T :=
  (both st (m.length + 1)).2 m c t

end Normalize

/-! ### Expressions -/

/-- `class expression` (expression.hpp:49-…): its only data member is the map `monomials_` (expression.hpp:54-58). -/
@[ext] structure Expr (G S : Type _) where
  terms : Terms G S

namespace Expr
variable {G S : Type _} [GenOps G] [CommRing S] [DecidableEq S] [ConstScalar S]

/-- Default constructor / `clear()` (expression.hpp:71, 146). -/
instance : Zero (Expr G S) := ⟨⟨[]⟩⟩

/-- `expression(S const& x)` (expression.hpp:88-93). -/
def const (x : S) : Expr G S := ⟨if x = 0 then [] else [([], x)]⟩

/-- `expression(S const& x, monomial_t const&)` (expression.hpp:96-103). -/
def ofMonomial (x : S) (m : List G) : Expr G S :=
  ⟨if x = 0 then [] else normalize Terms.store m x []⟩

/-- `operator+=(expression)` (expression.hpp:248-259). -/
def addAssign (a b : Expr G S) : Expr G S :=
  ⟨b.terms.foldl (fun t p =>
      match t.find? p.1 with
      | none => t.emplace p.1 p.2
      | some v => if v + p.2 = 0 then t.erase p.1 else t.assign p.1 (v + p.2)) a.terms⟩

/-- `operator-=(expression)` (expression.hpp:262-274). -/
def subAssign (a b : Expr G S) : Expr G S :=
  ⟨b.terms.foldl (fun t p =>
      match t.find? p.1 with
      | none => t.emplace p.1 (0 - p.2)
      | some v => if v - p.2 = 0 then t.erase p.1 else t.assign p.1 (v - p.2)) a.terms⟩

/-- `operator*=(expression)` (expression.hpp:277-288). -/
def mulAssign (a b : Expr G S) : Expr G S :=
  ⟨a.terms.foldl (fun t m1 =>
      b.terms.foldl (fun t m2 => normalize Terms.store (m1.1 ++ m2.1) (m1.2 * m2.2) t) t) []⟩

/-- `operator+(expression)` for equal scalar types (expression.hpp:220-224, 449-464 `add_impl(…, true_type)`). -/
instance : Add (Expr G S) := ⟨addAssign⟩
/-- `operator-(expression)` for equal scalar types (expression.hpp:227-232, 516-533 `sub_impl(…, true_type)`). -/
instance : Sub (Expr G S) := ⟨subAssign⟩
/-- `operator*(expression)` (expression.hpp:235-241): copy, then `*=`. -/
instance : Mul (Expr G S) := ⟨mulAssign⟩

/-- Unary minus (expression.hpp:291-294, 584-590). -/
instance : Neg (Expr G S) := ⟨fun a => ⟨a.terms.map fun p => (p.1, -p.2)⟩⟩

/-- Multiplication by scalar, prefix form (expression.hpp:313-322, 779-786). -/
def smulPrefix (x : S) (a : Expr G S) : Expr G S :=
  if x = 0 then ⟨[]⟩ else ⟨a.terms.map fun p => (p.1, x * p.2)⟩

/-- Multiplication by scalar, postfix form (expression.hpp:301-310, 755-762). -/
def smulPostfix (a : Expr G S) (x : S) : Expr G S :=
  if x = 0 then ⟨[]⟩ else ⟨a.terms.map fun p => (p.1, p.2 * x)⟩

/-- `operator*=(S const&)` (expression.hpp:378-386). -/
def smulAssign (a : Expr G S) (x : S) : Expr G S :=
  if x = 0 then ⟨[]⟩ else ⟨a.terms.map fun p => (p.1, p.2 * x)⟩

instance : SMul S (Expr G S) := ⟨smulPrefix⟩

/-- Addition of scalar, postfix form (expression.hpp:325-331, 807-822); the prefix form (expression.hpp:334-340,
848-863) is the same code. -/
def addScalar (a : Expr G S) (x : S) : Expr G S :=
  if x = 0 then a else
    ⟨match a.terms.find? [] with
     | none => a.terms.emplace [] x
     | some v => if v + x = 0 then a.terms.erase [] else a.terms.assign [] (v + x)⟩

/-- Addition of scalar, prefix form (expression.hpp:334-340, 848-863). -/
def scalarAdd (x : S) (a : Expr G S) : Expr G S :=
  if x = 0 then a else
    ⟨match a.terms.find? [] with
     | none => a.terms.emplace [] x
     | some v => if v + x = 0 then a.terms.erase [] else a.terms.assign [] (v + x)⟩

/-- `operator+=(S const&)` (expression.hpp:389-404). -/
def addAssignScalar (a : Expr G S) (x : S) : Expr G S :=
  if x = 0 then a else
    ⟨match a.terms.find? [] with
     | none => a.terms.emplace [] (0 + x)
     | some v => if v + x = 0 then a.terms.erase [] else a.terms.assign [] (v + x)⟩

/-- Subtraction of scalar, postfix form (expression.hpp:343-349, 893-909). -/
def subScalar (a : Expr G S) (x : S) : Expr G S :=
  if x = 0 then a else
    ⟨match a.terms.find? [] with
     | none => a.terms.emplace [] (0 - x)
     | some v => if v - x = 0 then a.terms.erase [] else a.terms.assign [] (v - x)⟩

/-- `operator-=(S const&)` (expression.hpp:407-421). -/
def subAssignScalar (a : Expr G S) (x : S) : Expr G S :=
  if x = 0 then a else
    ⟨match a.terms.find? [] with
     | none => a.terms.emplace [] (0 - x)
     | some v => if v - x = 0 then a.terms.erase [] else a.terms.assign [] (v - x)⟩

/-- Subtraction of scalar, prefix form `alpha - expr` (expression.hpp:352-371). -/
def scalarSub (x : S) (a : Expr G S) : Expr G S :=
  let t : Terms G S := a.terms.foldl (fun t p => t.emplace p.1 (0 - p.2)) []
  if x = 0 then ⟨t⟩ else
    ⟨match t.find? [] with
     | none => t.emplace [] x
     | some v => if v + x = 0 then t.erase [] else t.assign [] (v + x)⟩

/-- `add_impl(…, false_type)` (expression.hpp:468-508): ordered merge. The loop state is the pair of remaining
ranges; the mixed scalar types are identified with their common type (`it1->second + z2` is `v + 0`).
The result list is in emplacement order; the first argument is the accumulated map. -/
def mergeAdd : Terms G S → Terms G S → Terms G S → Terms G S
  | res, [], [] => res
  | res, [], (k₂, v₂) :: t₂ => mergeAdd (res.emplace k₂ (0 + v₂)) [] t₂
  | res, (k₁, v₁) :: t₁, [] => mergeAdd (res.emplace k₁ (v₁ + 0)) t₁ []
  | res, (k₁, v₁) :: t₁, (k₂, v₂) :: t₂ =>
      if monLt k₁ k₂ then mergeAdd (res.emplace k₁ (v₁ + 0)) t₁ ((k₂, v₂) :: t₂)
      else if monLt k₂ k₁ then mergeAdd (res.emplace k₂ (0 + v₂)) ((k₁, v₁) :: t₁) t₂
      else if v₁ + v₂ = 0 then mergeAdd res t₁ t₂
      else mergeAdd (res.emplace k₁ (v₁ + v₂)) t₁ t₂
  termination_by _ t₁ t₂ => t₁.length + t₂.length

/-- `sub_impl(…, false_type)` (expression.hpp:537-577). -/
def mergeSub : Terms G S → Terms G S → Terms G S → Terms G S
  | res, [], [] => res
  | res, [], (k₂, v₂) :: t₂ => mergeSub (res.emplace k₂ (0 - v₂)) [] t₂
  | res, (k₁, v₁) :: t₁, [] => mergeSub (res.emplace k₁ (v₁ - 0)) t₁ []
  | res, (k₁, v₁) :: t₁, (k₂, v₂) :: t₂ =>
      if monLt k₁ k₂ then mergeSub (res.emplace k₁ (v₁ - 0)) t₁ ((k₂, v₂) :: t₂)
      else if monLt k₂ k₁ then mergeSub (res.emplace k₂ (0 - v₂)) ((k₁, v₁) :: t₁) t₂
      else if v₁ - v₂ = 0 then mergeSub res t₁ t₂
      else mergeSub (res.emplace k₁ (v₁ - v₂)) t₁ t₂
  termination_by _ t₁ t₂ => t₁.length + t₂.length

/-- `operator+` when the result scalar type differs from `ScalarType` (expression.hpp:468-508). -/
def addMixed (a b : Expr G S) : Expr G S := ⟨mergeAdd [] a.terms b.terms⟩
/-- `operator-` when the result scalar type differs from `ScalarType` (expression.hpp:537-577). -/
def subMixed (a b : Expr G S) : Expr G S := ⟨mergeSub [] a.terms b.terms⟩

/-- `operator==` (expression.hpp:148-150): `std::map::operator==` compares sizes and then the sequences of pairs with
the monomial and scalar `operator==`. -/
def eqOp (a b : Expr G S) : Bool :=
  a.terms.length == b.terms.length &&
    (List.zipWith (fun p q => monEq p.1 q.1 && decide (p.2 = q.2)) a.terms b.terms).all id

/-- `transform(expr, f)` (expression.hpp:180-193). -/
def transform {S' : Type _} [CommRing S'] [DecidableEq S'] (a : Expr G S) (f : List G → S → S') : Expr G S' :=
  ⟨a.terms.foldl (fun t m =>
      let v := f m.1 m.2
      if v = 0 then t else t.emplace m.1 v) []⟩

/-- Private constructor from a linear function of generators (expression.hpp:107-119). -/
def ofLinFun (f : LinFun G) : Expr G S :=
  f.terms.foldl (fun e gv =>
      let v : S := ConstScalar.makeConst gv.2
      if v = 0 then e else addAssign e (ofMonomial v [gv.1]))
    ⟨if f.const.isZero then [] else [([], ConstScalar.makeConst f.const)]⟩

/-- `conj(expr)` (expression.hpp:196-213). The loop carries `res` and `m_contrib`, which keeps its previous value when
the conjugated coefficient is zero. `f` is overwritten by every `conj(f)`. -/
def conj [Star S] (a : Expr G S) : Expr G S :=
  (a.terms.foldl (fun (s : Expr G S × Expr G S) m =>
      let co := star m.2
      let contrib :=
        if co = 0 then s.2
        else m.1.reverse.foldl (fun e g => mulAssign e (ofLinFun (GenOps.conj g))) (const co)
      (addAssign s.1 contrib, contrib)) (⟨[]⟩, ⟨[]⟩)).1

end Expr
end LC
