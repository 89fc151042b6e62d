import Verif.Model.Alias
/-
Model of the iterators of `expression` (expression.hpp:936-1000) and of the nodes of `std::map` they point to. An expression owns a
sorted sequence of nodes; a node has an identity, a monomial and a coefficient. Iterators, and the references `(*it).monomial`,
`(*it).coeff` (expression.hpp:943-948, 991), are identified by the node; they are valid as long as the node exists.
Programs create, copy, move, modify and destroy any number of expressions (of one scalar type).
-/
namespace LC
variable {G S : Type _} [GenOps G]

/-- The map `monomials_` (expression.hpp:54-58) with identities of its nodes. -/
abbrev NTerms (G S : Type _) := Terms G (S × Nat)

namespace NTerms

/-- The map without the identities: the value of `monomials_` (expression.hpp:54-58). -/
def values (t : NTerms G S) : Terms G S := t.map fun p => (p.1, p.2.1)

/-- A map whose nodes are newly allocated, starting with the identity `n` (`std::map`, expression.hpp:54-58). -/
def label : Nat → Terms G S → NTerms G S
  | _, [] => []
  | n, (k, c) :: t => (k, (c, n)) :: label (n + 1) t

/-- The node `id` of `monomials_` (expression.hpp:54-58). -/
def node (id : Nat) : NTerms G S → Option (List G × S)
  | [] => none
  | (k, (c, i)) :: t => if i = id then some (k, c) else node id t

end NTerms

/-- All expressions (expression.hpp:52-58) of a program. Variables are numbered in the order of creation. -/
structure ExprMem (G S : Type _) where
  objs : Nat → Option (NTerms G S)
  vars : Nat
  next : Nat

/-- `const_iterator` (expression.hpp:936-1000): a node, or the end of an expression. Simplification: `end()` belongs to the object also after moves. -/
inductive EIter where
  | node (id : Nat)
  | fin (o : Nat)
  deriving DecidableEq

namespace ExprMem

/-- No expressions: the start of a program that uses expression.hpp:52-58. -/
def empty : ExprMem G S := ⟨fun _ => none, 0, 0⟩

/-- The expression that contains a node, the monomial and the coefficient (expression.hpp:54-58). -/
def locate (m : ExprMem G S) (id : Nat) : Option (Nat × List G × S) :=
  (List.range m.vars).findSome? fun o => (m.objs o).bind fun t => (t.node id).map fun p => (o, p)

/-- Replace the nodes of an expression (`monomials_`, expression.hpp:54-58). -/
def put (m : ExprMem G S) (v : Nat) (t : Option (NTerms G S)) (next : Nat) : ExprMem G S :=
  { m with objs := Function.update m.objs v t, next := next }

/-- A new expression (constructors, expression.hpp:71-76). -/
def push (m : ExprMem G S) (t : NTerms G S) (next : Nat) : ExprMem G S :=
  ⟨Function.update m.objs m.vars (some t), m.vars + 1, next⟩

/-! ### Iterators -/

/-- The iterator to the first of the nodes: `monomials_.begin()` (expression.hpp:163-168). -/
def headIter (o : Nat) : NTerms G S → EIter
  | [] => .fin o
  | (_, (_, i)) :: _ => .node i

/-- `begin()`, `cbegin()` (expression.hpp:163-168). -/
def begin_ (m : ExprMem G S) (o : Nat) : Option EIter := (m.objs o).map (headIter o)

/-- `end()`, `cend()` (expression.hpp:170-175). -/
def end_ (m : ExprMem G S) (o : Nat) : Option EIter := (m.objs o).map fun _ => .fin o

/-- `operator*`, `operator->` (expression.hpp:991-994). `none` is undefined behaviour, here and below. -/
def deref (m : ExprMem G S) : EIter → Option (List G × S)
  | .node id => (m.locate id).map Prod.snd
  | .fin _ => none

/-- The position after the node `id`: `++` of the map iterator (expression.hpp:965-973). -/
def succIn (o id : Nat) : NTerms G S → Option EIter
  | [] => none
  | (_, (_, i)) :: t => if i = id then some (headIter o t) else succIn o id t

/-- The position before the node `id`; `p` is the position before the list: `--` of the map iterator (expression.hpp:976-984). -/
def predIn (id : Nat) : Option EIter → NTerms G S → Option EIter
  | _, [] => none
  | p, (_, (_, i)) :: t => if i = id then p else predIn id (some (.node i)) t

/-- The last node: `--` of the end iterator of the map (expression.hpp:976-984). -/
def lastIter : NTerms G S → Option EIter
  | [] => none
  | [(_, (_, i))] => some (.node i)
  | _ :: p :: t => lastIter (p :: t)

/-- `++it` (expression.hpp:965-973). -/
def incr (m : ExprMem G S) : EIter → Option EIter
  | .node id =>
    match m.locate id with
    | none => none
    | some (o, _) => (m.objs o).bind (succIn o id)
  | .fin _ => none

/-- `--it` (expression.hpp:976-984). -/
def decr (m : ExprMem G S) : EIter → Option EIter
  | .node id =>
    match m.locate id with
    | none => none
    | some (o, _) => (m.objs o).bind (predIn id none)
  | .fin o => (m.objs o).bind lastIter

/-- A range-based `for` loop over `[it, last)`: the monomials and coefficients it visits (uses expression.hpp:163-175, 951-994). -/
def walk (m : ExprMem G S) (last : EIter) : Nat → EIter → Option (List (List G × S))
  | 0, _ => none
  | n + 1, it =>
    if it = last then some [] else
    match m.deref it, m.incr it with
    | some p, some it => (walk m last n it).map (p :: ·)
    | _, _ => none

/-! ### Operations -/
variable [CommRing S] [DecidableEq S] [ConstScalar S]

/-- The body of the loops of `operator+=`, `operator-=` (expression.hpp:249-256, 264-271): `u` is the operation, `n` gives the coefficients
of new monomials. -/
def updNode (u : S → S → S) (n : S → S) (next : Nat) (t : NTerms G S) (k : List G) (c : S) : NTerms G S × Nat :=
  match t.find? k with
  | none => (t.emplace k (n c, next), next + 1)
  | some (v, i) => if u v c = 0 then (t.erase k, next) else (t.assign k (u v c, i), next)

/-- The loop over the nodes of `w` (expression.hpp:249-257, 264-272), also if `v` and `w` are the same object. `cur` is the monomial of
the node the loop iterator points to, `n` bounds the number of iterations. -/
def updLoop (u : S → S → S) (nw : S → S) (v w : Nat) : Nat → Option (List G) → ExprMem G S → Option (ExprMem G S)
  | _, none, m => some m
  | 0, some _, m => some m
  | n + 1, some k, m =>
    match m.objs v, m.objs w with
    | some tv, some tw =>
      match tw.find? k with
      | none => none
      | some (c, _) =>
        let r := updNode u nw m.next tv k c
        let m' := m.put v (some r.1) r.2
        match m'.objs w with
        | none => none
        | some tw' =>
          match tw'.find? k with
          | none => none -- `++` for an iterator to an erased node
          | some _ => updLoop u nw v w n (tw'.nextKey k) m'
    | _, _ => none

/-- Operations on expressions (expression.hpp:71-76, 146, 248-288, 378-421). -/
inductive Op (G S : Type _) where
  /-- A new variable that holds the value `e` (a constructor, or the result of an operator). -/
  | create (e : Expr G S)
  | copy (w : Nat)
  | move (w : Nat)
  | destroy (v : Nat)
  | copyAssign (v w : Nat)
  | moveAssign (v w : Nat)
  | addAssign (v w : Nat)
  | subAssign (v w : Nat)
  | mulAssign (v w : Nat)
  | addScalar (v : Nat) (x : S)
  | subScalar (v : Nat) (x : S)
  | mulScalar (v : Nat) (x : S)
  | clear (v : Nat)

/-- One operation. `std::map` (a moved-from map is empty; copying allocates new nodes; moving and swapping keep nodes; moving an object
to itself is left open): expression.hpp:71-76; `operator+=`, `-=`, `*=` (expression.hpp:248-288), scalar operands
(expression.hpp:378-421), `clear()` (expression.hpp:146). -/
def step : Op G S → ExprMem G S → Option (ExprMem G S)
  | .create e, m => some (m.push (NTerms.label m.next e.terms) (m.next + e.terms.length))
  | .copy w, m => (m.objs w).map fun t => m.push (NTerms.label m.next t.values) (m.next + t.length)
  | .move w, m => (m.objs w).map fun t => (m.put w (some []) m.next).push t m.next
  | .destroy v, m => (m.objs v).map fun _ => m.put v none m.next
  | .copyAssign v w, m =>
    match m.objs v, m.objs w with
    | some _, some t => some (if v = w then m else m.put v (some (NTerms.label m.next t.values)) (m.next + t.length))
    | _, _ => none
  | .moveAssign v w, m =>
    match m.objs v, m.objs w with
    | some _, some t => if v = w then none else some ((m.put w (some []) m.next).put v (some t) m.next)
    | _, _ => none
  | .addAssign v w, m =>
    match m.objs v, m.objs w with
    | some _, some t => updLoop (· + ·) id v w t.length (t.firstKey) m
    | _, _ => none
  | .subAssign v w, m =>
    match m.objs v, m.objs w with
    | some _, some t => updLoop (· - ·) (0 - ·) v w t.length (t.firstKey) m
    | _, _ => none
  | .mulAssign v w, m =>
    match m.objs v, m.objs w with
    | some tv, some tw =>
      let e := (Expr.mk tv.values).mulAssign (Expr.mk tw.values)
      some (m.put v (some (NTerms.label m.next e.terms)) (m.next + e.terms.length))
    | _, _ => none
  | .addScalar v x, m =>
    (m.objs v).map fun t =>
      if x = 0 then m else let r := updNode (· + ·) (0 + ·) m.next t [] x; m.put v (some r.1) r.2
  | .subScalar v x, m =>
    (m.objs v).map fun t =>
      if x = 0 then m else let r := updNode (· - ·) (0 - ·) m.next t [] x; m.put v (some r.1) r.2
  | .mulScalar v x, m =>
    (m.objs v).map fun t => m.put v (some (if x = 0 then [] else t.map fun p => (p.1, (p.2.1 * x, p.2.2)))) m.next
  | .clear v, m => (m.objs v).map fun _ => m.put v (some []) m.next

/-- A program that performs a sequence of operations (expression.hpp:71-76, 146, 248-288, 378-421). -/
def run : List (Op G S) → ExprMem G S → Option (ExprMem G S)
  | [], m => some m
  | op :: l, m => (step op m).bind (run l)

end ExprMem
end LC
