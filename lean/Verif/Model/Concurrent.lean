import Verif.Model.HilbertSpace
import Verif.Model.LOperator
import Verif.Model.DisjointSets
/-
Model of several threads calling `const` member functions: iterations over Hilbert spaces (hilbert_space.hpp:93-109, 369-378),
applications of linear operators (loperator.hpp:109-144), look-ups in `disjoint_sets` and space partitions
(disjoint_sets.hpp:67-74). Memory is sequentially consistent and every step reads or writes one memory location (the
increment of a number in memory by one thread is one step in `FPc.inc`, `FPc.carry`).
-/
namespace LC.Conc

/-- A program of a thread: one step with the shared memory `M` and the thread's own variables `L`; `none` if the thread has
ended. -/
abbrev Prog (M L : Type _) := M → L → Option (M × L)

/-- One step of thread `t`. -/
def stepThread {M L : Type _} (p : Nat → Prog M L) (s : M × (Nat → L)) (t : Nat) : M × (Nat → L) :=
  match p t s.1 (s.2 t) with
  | none => s
  | some (m, l) => (m, Function.update s.2 t l)

/-- Execution of a schedule: the list of threads in the order in which they take steps. -/
def exec {M L : Type _} (p : Nat → Prog M L) (sched : List Nat) (s : M × (Nat → L)) : M × (Nat → L) := sched.foldl (stepThread p) s

/-! ### Iteration over Hilbert spaces -/

/-- Where a thread is in `sparse_foreach_basis_state::operator()` (hilbert_space.hpp:93-109) or in the simple loop of
`foreach` (hilbert_space.hpp:374-376). -/
inductive FPc where
  | fill (d : Nat)
  | test
  | inc
  | cond (d : Nat)
  | store (d : Nat)
  | carry (d : Nat)
  | done
  deriving DecidableEq, Repr

/-- Local variables of a thread inside `foreach(hs, f)`: `i`, `state` (hilbert_space.hpp:95-96) and the arguments `f` was called
with so far. -/
structure FLocal where
  pc : FPc
  i : Nat
  state : Nat
  log : List Nat
  deriving DecidableEq, Repr

/-- One step of the sparse iteration (hilbert_space.hpp:93-109); `ind` is the member `indices_`, which belongs to the object. -/
def sparseStep (a : SparseForeach) (ind : List Nat) (l : FLocal) : Option (List Nat × FLocal) :=
  match l.pc with
  | .fill d =>
    if d < ind.length then some (ind.set d 0, { l with pc := .fill (d + 1) })
    else some (ind, { l with pc := .test, i := 0, state := 0 })
  | .test =>
    if l.i < a.nStates then some (ind, { l with pc := .inc, log := l.log ++ [l.state] })
    else some (ind, { l with pc := .done })
  | .inc => some (ind.modify 0 (· + 1), { l with pc := .cond 0, state := add64 l.state 1 })
  | .cond d =>
    if d + 1 < ind.length ∧ ind[d]? = a.sizes[d]? then some (ind, { l with pc := .store d })
    else some (ind, { l with pc := .test, i := l.i + 1 })
  | .store d => some (ind.set d 0, { l with pc := .carry d })
  | .carry d => some (ind.modify (d + 1) (· + 1), { l with pc := .cond (d + 1), state := add64 l.state (a.jumps.getD d 0) })
  | .done => none

/-- One step of the simple loop `for(st = 0; st < dim_; ++st) f(st)` (hilbert_space.hpp:374-376). -/
def denseStep (dim : Nat) (l : FLocal) : Option FLocal :=
  match l.pc with
  | .done => none
  | _ => if l.i < dim then some { l with i := l.i + 1, log := l.log ++ [l.i] } else some { l with pc := .done }

/-- The variables of a thread at the call of `foreach(hs, f)`. -/
def fStart : FLocal := ⟨.fill 0, 0, 0, []⟩

/-- The members `indices_` of all Hilbert space objects of the program. -/
abbrev IndMem := Nat → List Nat

/-- `foreach(hs, f)` (hilbert_space.hpp:369-378) on the object number `o`. -/
def foreachProg {ι : Type _} (hs : HilbertSpace ι) (o : Nat) : Prog IndMem FLocal := fun m l =>
  match hs.foreachAlg with
  | none => (denseStep hs.dim l).map fun l => (m, l)
  | some a => (sparseStep a (m o) l).map fun r => (Function.update m o r.1, r.2)

/-! ### Application of linear operators -/

section
variable {S T : Type _} [CommRing S] [Algebra ℝ S] [AddCommMonoid T] [Module S T] [DecidableEq T]

/-- Where a thread is in `op(src, dst)` (loperator.hpp:109-115) for `std::vector`s. -/
inductive OPc (S T : Type _) where
  /-- inside `set_zeros(dst)` (state_vector.hpp:58-60), before the element `k` is set -/
  | zero (k : Nat)
  /-- before the test of `foreach(src, …)` (state_vector.hpp:71-80) for element `n` -/
  | scan (n : Nat)
  /-- in the loop over the monomials (loperator.hpp:136-142) for the non-zero element `a` of position `n` -/
  | terms (n : Nat) (a : T) (l : List (MonomialAction × S))
  /-- about to read `dst[k]` in order to add `v` (state_vector.hpp:51-55) -/
  | read (n : Nat) (a : T) (l : List (MonomialAction × S)) (k : Nat) (v : T)
  /-- about to write `dst[k]` -/
  | write (n : Nat) (a : T) (l : List (MonomialAction × S)) (k : Nat) (x : T)
  /-- access out of bounds -/
  | failed (e : SVError)
  | done

/-- All vectors of the program. -/
abbrev VecMem (T : Type _) := Nat → List T

/-- One step of `op(src, dst)` (loperator.hpp:109-144 with state_vector.hpp:51-80) for the vectors number `src` and `dst`. -/
noncomputable def opProg (op : LOperator S) (src dst : Nat) : Prog (VecMem T) (OPc S T) := fun m pc =>
  match pc with
  | .zero k =>
    if k < (m dst).length then some (Function.update m dst ((m dst).set k 0), .zero (k + 1)) else some (m, .scan 0)
  | .scan n =>
    match (m src)[n]? with
    | none => some (m, .done)
    | some a => if a = 0 then some (m, .scan (n + 1)) else some (m, .terms n a op.actions)
  | .terms n _ [] => some (m, .scan (n + 1))
  | .terms n a ((ma, c) :: l) =>
    match ma.act n (1 : S) with
    | .ub => some (m, .failed .ub)
    | .zero => some (m, .terms n a l)
    | .nonzero k coeff => some (m, .read n a l k ((c * coeff) • a))
  | .read n a l k v =>
    match (m dst)[k]? with
    | none => some (m, .failed .ub)
    | some x => some (m, .write n a l k (x + v))
  | .write n a l k x => some (Function.update m dst ((m dst).set k x), .terms n a l)
  | .failed _ => none
  | .done => none

end

/-! ### Look-ups in disjoint sets -/

/-- Where a thread is in a sequence of calls of `find_root` (disjoint_sets.hpp:67-74). -/
inductive QPc where
  /-- between two calls -/
  | idle
  /-- about to read `parents_[x]` -/
  | readParent (x : Nat)
  /-- about to read `parents_[p]`, `p = parents_[x]` -/
  | readGrand (x p : Nat)
  /-- a call returns `r` -/
  | ret (r : Nat)
  /-- access out of bounds -/
  | failed
  deriving DecidableEq, Repr

/-- Variables of such a thread: the arguments of the calls still to be made, the argument of the current one, the arguments of
the suspended recursive calls (innermost first), and the results so far. -/
structure QLocal where
  pc : QPc
  todo : List Nat
  cur : Nat
  stack : List Nat
  results : List (Nat × Nat)
  deriving DecidableEq, Repr

/-- One step of a sequence of calls of `find_root` (disjoint_sets.hpp:67-74) on the shared vector `parents_`. -/
def queryProg : Prog (List Nat) QLocal := fun ps l =>
  match l.pc with
  | .idle =>
    match l.todo with
    | [] => none
    | x :: xs => some (ps, { l with pc := .readParent x, todo := xs, cur := x, stack := [] })
  | .readParent x =>
    match ps[x]? with
    | none => some (ps, { l with pc := .failed })
    | some p => some (ps, { l with pc := .readGrand x p })
  | .readGrand x p =>
    match ps[p]? with
    | none => some (ps, { l with pc := .failed })
    | some q =>
      if q ≠ p then some (ps, { l with pc := .readParent p, stack := x :: l.stack }) else some (ps, { l with pc := .ret p })
  | .ret r =>
    match l.stack with
    | [] => some (ps, { l with pc := .idle, results := l.results ++ [(l.cur, r)] })
    | x :: st => some (ps.set x r, { l with stack := st })
  | .failed => none

/-- A thread that is going to call `find_root` for the elements of a list. -/
def qStart (xs : List Nat) : QLocal := ⟨.idle, xs, 0, [], []⟩

end LC.Conc
