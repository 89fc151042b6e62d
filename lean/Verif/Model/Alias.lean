import Verif.Model.Factories
/-
Compound assignments whose argument is the assigned object itself (`e += e`, `e -= e`, `e *= e`), and multiplication
by a scalar that is a reference to one of the coefficients of the assigned object.  The range-for loop runs over the map
that is being modified; the iterator is modelled by the key of the node it points to.  Incrementing an iterator whose
node was erased is undefined behaviour (`none`).
-/
namespace LC
variable {G S : Type _} [GenOps G] [CommRing S] [DecidableEq S] [ConstScalar S]

namespace Terms

/-- Key of the first node after the node `k` (`++it`). -/
def nextKey (k : List G) : Terms G S → Option (List G)
  | [] => none
  | (k', _) :: t => if monLt k k' then some k' else nextKey k t

/-- `begin()`. -/
def firstKey : Terms G S → Option (List G)
  | [] => none
  | (k, _) :: _ => some k

end Terms

/-- The loop of `operator+=`/`operator-=` (expression.hpp:248-259, 262-274) when `expr` and `*this` are the same object:
`p` and `*it` are the same node, so `add_assign(it->second, p.second)` computes `op v v`. `cur` is the position of the
loop iterator, `n` bounds the number of iterations. -/
def aliasLoop (op : S → S → S) : Nat → Option (List G) → Terms G S → Option (Terms G S)
  | _, none, t => some t
  | 0, some _, t => some t
  | n + 1, some k, t =>
      match t.find? k with
      | none => none
      | some v =>
          if op v v = 0 then none -- the node the loop iterator points to is erased; `++` is undefined
          else aliasLoop op n ((t.assign k (op v v)).nextKey k) (t.assign k (op v v))

/-- `e += e` (expression.hpp:248-259). -/
def Expr.addAssignSelf (a : Expr G S) : Option (Expr G S) :=
  (aliasLoop (· + ·) a.terms.length a.terms.firstKey a.terms).map Expr.mk

/-- `e -= e` (expression.hpp:262-274). -/
def Expr.subAssignSelf (a : Expr G S) : Option (Expr G S) :=
  (aliasLoop (· - ·) a.terms.length a.terms.firstKey a.terms).map Expr.mk

/-- `e *= e` (expression.hpp:277-288): the result is accumulated in a separate map and swapped in at the end. -/
def Expr.mulAssignSelf (a : Expr G S) : Option (Expr G S) :=
  some ⟨a.terms.foldl (fun t m1 =>
      a.terms.foldl (fun t m2 => normalize Terms.store (m1.1 ++ m2.1) (m1.2 * m2.2) t) t) []⟩

/-- The loop of `operator*=(S const& alpha)` (expression.hpp:383-385) when `alpha` refers to the coefficient of the node
number `j` of the same object: the value of `alpha` changes when the loop passes that node. `i` counts the nodes. -/
def scaleLoop (alpha : S) : Nat → Nat → Terms G S → Terms G S
  | _, _, [] => []
  | i, j, (k, v) :: t =>
      (k, v * alpha) :: scaleLoop (if i = j then v * alpha else alpha) (i + 1) j t

/-- `e *= coeff`, `coeff` a reference to the coefficient of the `j`-th monomial of `e` (expression.hpp:383-385). -/
def Expr.smulAssignOwnCoeff (a : Expr G S) (j : Nat) : Expr G S :=
  match a.terms[j]? with
  | none => a
  | some p => if p.2 = 0 then ⟨[]⟩ else ⟨scaleLoop p.2 0 j a.terms⟩

end LC
