import Verif.Model.MixedScalar
/-
Exceptions at arbitrary points. A program on an object of type `σ` is executed with an oracle that decides for the `n`-th
operation that may throw (memory allocation, copying of monomials and coefficients, arithmetic and `make_const` of the scalar
type, comparisons and products of user-defined generators) whether it does. When an exception leaves the program, the
destructors of local variables run and the object keeps the value it has at that point.

Assumptions, taken from the C++ standard library and from the scalar types of libcommute: `std::map::emplace` and the
compound assignments of scalars have no effect if they throw; `std::map::erase`, `std::map::clear`, `std::swap` of maps and
`is_zero` do not throw.
-/
namespace LC

/-- A program: oracle, number of operations so far that could throw, object; the result is `none` if an exception was thrown. -/
def Flt (σ α : Type _) := (Nat → Bool) → Nat → σ → Option α × Nat × σ

namespace Flt
variable {σ τ α β : Type _}

/-- Sequencing of statements; an exception skips the rest. -/
instance : Monad (Flt σ) where
  pure a := fun _ n s => (some a, n, s)
  bind p f := fun o n s =>
    match p o n s with
    | (none, n', s') => (none, n', s')
    | (some a, n', s') => f a o n' s'

/-- An operation that may throw. -/
def point : Flt σ Unit := fun o n s => if o n then (none, n + 1, s) else (some (), n + 1, s)

/-- The current value of the object. -/
def read : Flt σ σ := fun _ n s => (some s, n, s)

/-- A modification of the object that does not throw. -/
def modify (f : σ → σ) : Flt σ Unit := fun _ n s => (some (), n, f s)

/-- Range-based `for` loop. -/
def each (l : List α) (body : α → Flt σ Unit) : Flt σ Unit :=
  match l with
  | [] => pure ()
  | a :: l => do body a; each l body

/-- A program that works on a local variable, whose final value is returned. If an exception leaves the program, the local
variable is destroyed. -/
def withLocal (init : τ) (p : Flt τ Unit) : Flt σ τ := fun o n s =>
  match p o n init with
  | (none, n', _) => (none, n', s)
  | (some _, n', x) => (some x, n', s)

end Flt

open Flt

namespace Faults
variable {G S S' : Type _} [GenOps G] [ScalarOps S]

/-- `expr += b` (expression.hpp:248-259). -/
def addAssign (o : AsgOps S S') (b : Expr G S') : Flt (Terms G S) Unit :=
  each b.terms fun p => do
    point
    let t ← read
    match t.find? p.1 with
    | none => do
        point
        modify (·.emplace p.1 (o.conv p.2))
    | some v => do
        point
        modify (·.assign p.1 (o.addAsg v p.2))
        if ScalarOps.isZero (o.addAsg v p.2) then modify (·.erase p.1) else pure ()

/-- `expr -= b` (expression.hpp:262-274). -/
def subAssign (o : AsgOps S S') (b : Expr G S') : Flt (Terms G S) Unit := do
  point
  each b.terms fun p => do
    point
    let t ← read
    match t.find? p.1 with
    | none => do
        point
        modify (·.emplace p.1 (o.sub Any.zero p.2))
    | some v => do
        point
        modify (·.assign p.1 (o.subAsg v p.2))
        if ScalarOps.isZero (o.subAsg v p.2) then modify (·.erase p.1) else pure ()

/-- `store_monomial` (expression.hpp:606-619). -/
def store (k : List G) (c : S) : Flt (Terms G S) Unit := do
  point
  let t ← read
  match t.find? k with
  | none => modify (·.emplace k c)
  | some v => do
      modify (·.assign k (ScalarOps.add v c))
      if ScalarOps.isZero (ScalarOps.add v c) then modify (·.erase k) else pure ()

/-- `normalize_and_store` (expression.hpp:622-697), which writes to its target only by `store_monomial`: an exception thrown
between two calls of `store_monomial` has the same effect as an exception thrown at the beginning of the second one. -/
def normalize (m : List G) (c : S) : Flt (Terms G S) Unit := fun o n t =>
  Any.normalize (fun k c r =>
    match r with
    | (none, n, t) => (none, n, t)
    | (some _, n, t) => store k c o n t) m c (some (), n, t)

/-- `expr *= b` (expression.hpp:277-288). -/
def mulAssign (o : AsgOps S S') (b : Expr G S') : Flt (Terms G S) Unit := do
  let t ← read
  let resMap ← withLocal [] (each t fun m1 => each b.terms fun m2 => do
    point
    normalize (m1.1 ++ m2.1) (o.mul m1.2 m2.2)
    point)
  modify fun _ => resMap

/-- `expr *= alpha` (expression.hpp:378-386). -/
def smulAssign [ScalarOps S'] (mulAsg : S → S' → S) (x : S') : Flt (Terms G S) Unit :=
  if ScalarOps.isZero x then modify fun _ => []
  else do
    let t ← read
    each (List.range t.length) fun i => do
      point
      modify (·.modify i fun p => (p.1, mulAsg p.2 x))

/-- `expr += alpha` (expression.hpp:389-404). -/
def addAssignScalar [ScalarOps S'] (o : AsgOps S S') (x : S') : Flt (Terms G S) Unit :=
  if ScalarOps.isZero x then pure ()
  else do
    point
    let t ← read
    match t.find? [] with
    | none => do
        point
        modify (·.emplace [] (o.addAsg Any.zero x))
    | some v => do
        point
        modify (·.assign [] (o.addAsg v x))
        if ScalarOps.isZero (o.addAsg v x) then modify (·.erase []) else pure ()

/-- `expr -= alpha` (expression.hpp:407-421). -/
def subAssignScalar [ScalarOps S'] (o : AsgOps S S') (x : S') : Flt (Terms G S) Unit := do
  point
  if ScalarOps.isZero x then pure ()
  else do
    let t ← read
    match t.find? [] with
    | none => do
        point
        modify (·.emplace [] (o.sub Any.zero x))
    | some v => do
        point
        modify (·.assign [] (o.subAsg v x))
        if ScalarOps.isZero (o.subAsg v x) then modify (·.erase []) else pure ()

omit [ScalarOps S] in
/-- `expr = b` for an expression `b` of a different scalar type (expression.hpp:123-132). -/
def assignConv (cv : S' → S) (b : Expr G S') : Flt (Terms G S) Unit := do
  modify fun _ => []
  each b.terms fun p => do
    point
    modify (·.emplace p.1 (cv p.2))

end Faults
end LC
