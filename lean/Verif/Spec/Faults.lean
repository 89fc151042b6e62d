import Verif.Model.Faults
import Verif.Proof.MapLemmas
/-
What an exception may leave behind.
-/
namespace LC
variable {G S : Type _} [GenOps G]

/-- For every monomial, `e` has either the coefficient it has in `old` or the coefficient it has in `new` (or, likewise, no
coefficient); and the monomials of `e` are listed in increasing order, each once. -/
structure Between (old new e : Expr G S) : Prop where
  increasing : e.terms.Sorted
  coeffs : ∀ k, (∀ w, (k, w) ∈ e.terms ↔ (k, w) ∈ old.terms) ∨ (∀ w, (k, w) ∈ e.terms ↔ (k, w) ∈ new.terms)

/-- Outcomes of a program that changes an expression in place: `done e` — it returned normally; `threw e` — an exception left
it; `e` is the value of the expression afterwards. -/
inductive Outcome (G S : Type _) where
  | done (e : Expr G S)
  | threw (e : Expr G S)

/-- Run a program on an expression; `o n` says whether the `n`-th operation that may throw does. -/
def runOn (p : Flt (Terms G S) Unit) (o : Nat → Bool) (e : Expr G S) : Outcome G S :=
  match p o 0 e.terms with
  | (some _, _, t) => .done ⟨t⟩
  | (none, _, t) => .threw ⟨t⟩

/-- The value of the expression after the program. -/
def Outcome.value {G S : Type _} : Outcome G S → Expr G S
  | .done e => e
  | .threw e => e

/-- Operations within one scalar type. -/
def sameType (S : Type _) [ScalarOps S] : AsgOps S S where
  conv := id
  addAsg := ScalarOps.add
  subAsg := ScalarOps.sub
  mulAsg := ScalarOps.mul
  sub := ScalarOps.sub
  mul := ScalarOps.mul

/-- Statements of a program with expression variables `v 0`, `v 1`, … that change a variable. -/
inductive Cmd (G S : Type _) where
  /-- `v i += v j` -/
  | addTo (i j : Nat)
  /-- `v i -= v j` -/
  | subFrom (i j : Nat)
  /-- `v i *= v j` -/
  | mulBy (i j : Nat)
  /-- `v i *= x` -/
  | scale (i : Nat) (x : S)
  /-- `v i += x` -/
  | plus (i : Nat) (x : S)
  /-- `v i -= x` -/
  | minus (i : Nat) (x : S)
  /-- `v i = v j * v k` and the like: the result `e` of operations that do not change their operands is moved into `v i` -/
  | set (i : Nat) (e : Expr G S)

/-- `e += e`, `e -= e` are not covered here (see C22). -/
def Cmd.NoAlias : Cmd G S → Prop
  | .addTo i j | .subFrom i j => i ≠ j
  | _ => True

/-- Execute a statement during which the oracle `o` decides what throws. The exception is caught by the caller, who goes on using the
variables. -/
def Cmd.exec {G S : Type} [GenOps G] [ScalarOps S] (o : Nat → Bool) (v : Nat → Expr G S) : Cmd G S → Nat → Expr G S
  | .addTo i j => Function.update v i (runOn (Faults.addAssign (sameType S) (v j)) o (v i)).value
  | .subFrom i j => Function.update v i (runOn (Faults.subAssign (sameType S) (v j)) o (v i)).value
  | .mulBy i j => Function.update v i (runOn (Faults.mulAssign (sameType S) (v j)) o (v i)).value
  | .scale i x => Function.update v i (runOn (Faults.smulAssign ScalarOps.mul x) o (v i)).value
  | .plus i x => Function.update v i (runOn (Faults.addAssignScalar (sameType S) x) o (v i)).value
  | .minus i x => Function.update v i (runOn (Faults.subAssignScalar (sameType S) x) o (v i)).value
  | .set i e => Function.update v i e

end LC
