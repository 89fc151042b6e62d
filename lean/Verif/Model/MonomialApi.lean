import Mathlib.Data.List.Basic
import Mathlib.Logic.Function.Basic
/-!
The programming interface of `monomial` (expression/monomial.hpp): constructors, value semantics, iterators, element access, `append`,
`concatenate` and `swap_generators`, on a memory in which the buffers of the vectors `generators_` are allocated and freed, so that
iterators can be invalidated. Elsewhere in the model a monomial is just the list of its generators (Model/Expression.lean); the theorems
about this file justify that.
-/
namespace LC.MonApi

/-- What a call does: it returns, it throws `std::bad_weak_ptr` (from `shared_from_this()`), or its behaviour is undefined. -/
inductive Out (β : Type _) where
  | ok (b : β)
  | badWeakPtr
  | ub
deriving DecidableEq

/-- Sequencing of calls: what comes after an exception or undefined behaviour is not run. Not code of libcommute. -/
def Out.bind {β γ : Type _} : Out β → (β → Out γ) → Out γ
  | .ok b, f => f b
  | .badWeakPtr, _ => .badWeakPtr
  | .ub, _ => .ub

/-- A generator object (generator.hpp:34-36). `addr` is its identity; `shared` tells whether it is owned by a `std::shared_ptr`, so that
`shared_from_this()` works. Generators are immutable (generator.hpp:50-51), hence their value is not part of the state. -/
structure GenObj where
  addr : Nat
  shared : Bool
deriving DecidableEq

/-- `g.shared_from_this()` (inherited, generator.hpp:35-36): throws if no `shared_ptr` owns the object. Simplification: this is the
behaviour since C++17; before, the behaviour is undefined. -/
def GenObj.sharedFromThis (g : GenObj) : Out GenObj := if g.shared then .ok g else .badWeakPtr

/-- The vector `generators_` of a monomial (monomial.hpp:258): where its buffer is and its capacity. Simplification: also a vector
without elements has a buffer of its own. -/
structure Vec where
  buf : Nat
  cap : Nat
deriving DecidableEq

/-- The memory: the living buffers with the elements constructed in them (`shared_ptr`s, i.e. references to generator objects), the
living monomials, and the number of allocations made so far. Simplification: addresses of buffers are not used again. -/
structure Mem where
  heap : Nat → Option (List GenObj)
  objs : Nat → Option Vec
  next : Nat

/-- The growth policy of `std::vector`: the new capacity for an old one and a needed size. Any policy is allowed. -/
abbrev Growth := Nat → Nat → Nat

/-- The memory before any monomial has been created. Not code of libcommute. -/
def Mem.init : Mem := ⟨fun _ => none, fun _ => none, 0⟩

/-- The generators of the monomial `o` (monomial.hpp:258). -/
def Mem.gens (m : Mem) (o : Nat) : Option (List GenObj) := (m.objs o).bind fun v => m.heap v.buf

/-- The vector of `o` moves to a new buffer of capacity `c` (reallocation by `std::vector`): the old one is freed. -/
def Mem.realloc (m : Mem) (o : Nat) (v : Vec) (l : List GenObj) (c : Nat) : Mem :=
  { heap := Function.update (Function.update m.heap v.buf none) m.next (some l)
    objs := Function.update m.objs o (some ⟨m.next, c⟩)
    next := m.next + 1 }

/-- The elements of the buffer of `v` become `l`, in place. -/
def Mem.store (m : Mem) (v : Vec) (l : List GenObj) : Mem := { m with heap := Function.update m.heap v.buf (some l) }

/-- A new monomial `o` with the generators `l` (monomial.hpp:61-78: default constructor, constructors from generators, a list or a
vector of pointers; the copy constructor, monomial.hpp:81). `o` must be unoccupied storage. -/
def Mem.create (grow : Growth) (m : Mem) (o : Nat) (l : List GenObj) : Out Mem :=
  match m.objs o with
  | some _ => .ub
  | none => .ok
    { heap := Function.update m.heap m.next (some l)
      objs := Function.update m.objs o (some ⟨m.next, grow 0 l.length⟩)
      next := m.next + 1 }

/-- `generators_.reserve(n)` (monomial.hpp:173, 235). -/
def Mem.reserve (grow : Growth) (m : Mem) (o n : Nat) : Out Mem :=
  match m.objs o with
  | none => .ub
  | some v =>
    match m.heap v.buf with
    | none => .ub
    | some l => if n ≤ v.cap then .ok m else .ok (m.realloc o v l (grow v.cap n))

/-- `generators_.emplace_back(g)` (monomial.hpp:231, 244; through `std::back_inserter` in monomial.hpp:238). -/
def Mem.emplaceBack (grow : Growth) (m : Mem) (o : Nat) (g : GenObj) : Out Mem :=
  match m.objs o with
  | none => .ub
  | some v =>
    match m.heap v.buf with
    | none => .ub
    | some l =>
      if l.length < v.cap then .ok (m.store v (l ++ [g]))
      else .ok (m.realloc o v (l ++ [g]) (grow v.cap (l.length + 1)))

/-- `constructor_impl` (monomial.hpp:41-49): every argument, an object of its own that need not be owned by a `shared_ptr`, is copied or
moved into a new generator object made by `std::make_shared`. `fresh` is the address of the first new object. Simplification: the new
objects have consecutive addresses. -/
def madeShared (fresh : Nat) : List GenObj → List GenObj
  | [] => []
  | _ :: gs => ⟨fresh, true⟩ :: madeShared (fresh + 1) gs

/-- `const_iterator` (monomial.hpp:261-266): a position in a buffer. -/
structure Iter where
  buf : Nat
  pos : Int
deriving DecidableEq

/-- The iterator may be used: its buffer lives and the position is not outside of it. -/
def Mem.valid (m : Mem) (i : Iter) : Bool :=
  match m.heap i.buf with
  | some l => decide (0 ≤ i.pos) && decide (i.pos ≤ l.length)
  | none => false

/-- `begin()`, `cbegin()` (monomial.hpp:100-103). -/
def Mem.begin_ (m : Mem) (o : Nat) : Out Iter :=
  match m.objs o with
  | some v => .ok ⟨v.buf, 0⟩
  | none => .ub

/-- `end()`, `cend()` (monomial.hpp:105-106). -/
def Mem.end_ (m : Mem) (o : Nat) : Out Iter :=
  match m.objs o with
  | some v =>
    match m.heap v.buf with
    | some l => .ok ⟨v.buf, l.length⟩
    | none => .ub
  | none => .ub

/-- `size()` (monomial.hpp:88). -/
def Mem.size (m : Mem) (o : Nat) : Out Nat :=
  match m.gens o with
  | some l => .ok l.length
  | none => .ub

/-- `empty()` (monomial.hpp:91). -/
def Mem.empty (m : Mem) (o : Nat) : Out Bool :=
  match m.gens o with
  | some l => .ok l.isEmpty
  | none => .ub

/-- `operator[](n)` (monomial.hpp:128-130). -/
def Mem.at_ (m : Mem) (o n : Nat) : Out GenObj :=
  match m.gens o with
  | some l => match l[n]? with
    | some g => .ok g
    | none => .ub
  | none => .ub

/-- `operator*`, `operator->` of the iterator (monomial.hpp:341-342). -/
def Mem.deref (m : Mem) (i : Iter) : Out GenObj :=
  match m.heap i.buf with
  | some l =>
    if 0 ≤ i.pos then
      match l[i.pos.toNat]? with
      | some g => .ok g
      | none => .ub
    else .ub
  | none => .ub

/-- The iterator moved to another position, as the underlying `std::vector` iterator does it: undefined outside of the vector. -/
def Mem.moveIt (m : Mem) (i : Iter) (d : Int) : Out Iter :=
  if m.valid i ∧ m.valid ⟨i.buf, i.pos + d⟩ then .ok ⟨i.buf, i.pos + d⟩ else .ub

/-- The conversion of `std::size_t` to the `difference_type` of the vector iterator, where monomial.hpp:308-324, 343 pass one to the other:
two's complement. -/
def toDiff (n : Nat) : Int := if n % 2 ^ 64 < 2 ^ 63 then (n % 2 ^ 64 : Nat) else (n % 2 ^ 64 : Nat) - 2 ^ 64

/-- The conversion of an offset of type `difference_type` to the `std::size_t` parameters of monomial.hpp:308-324, 343. -/
def ofDiff (d : Int) : Nat := (d % 2 ^ 64).toNat

/-- `++it` (monomial.hpp:286-289). -/
def Mem.incr (m : Mem) (i : Iter) : Out Iter := m.moveIt i 1

/-- `it++` (monomial.hpp:290-294): the value returned and the iterator afterwards. -/
def Mem.postIncr (m : Mem) (i : Iter) : Out (Iter × Iter) := (m.incr i).bind fun j => .ok (i, j)

/-- `--it` (monomial.hpp:297-300). -/
def Mem.decr (m : Mem) (i : Iter) : Out Iter := m.moveIt i (-1)

/-- `it--` (monomial.hpp:301-305): the value returned and the iterator afterwards. -/
def Mem.postDecr (m : Mem) (i : Iter) : Out (Iter × Iter) := (m.decr i).bind fun j => .ok (i, j)

/-- `it += n`, `it + n`, `n + it` (monomial.hpp:308-311, 316-321). -/
def Mem.plus (m : Mem) (i : Iter) (n : Nat) : Out Iter := m.moveIt i (toDiff n)

/-- `it -= n`, `it - n` (monomial.hpp:312-315, 322-324). -/
def Mem.minus (m : Mem) (i : Iter) (n : Nat) : Out Iter := m.moveIt i (-(toDiff n))

/-- `it1 - it2` (monomial.hpp:325-328): undefined for iterators of different vectors. -/
def Mem.diff (m : Mem) (i j : Iter) : Out Int :=
  if m.valid i ∧ m.valid j ∧ i.buf = j.buf then .ok (i.pos - j.pos) else .ub

/-- `it1 == it2` (monomial.hpp:331; `!=`, monomial.hpp:332, is its negation): undefined for iterators of different vectors. -/
def Mem.itEq (m : Mem) (i j : Iter) : Out Bool :=
  if m.valid i ∧ m.valid j ∧ i.buf = j.buf then .ok (decide (i.pos = j.pos)) else .ub

/-- `it1 < it2` (monomial.hpp:335). -/
def Mem.itLt (m : Mem) (i j : Iter) : Out Bool :=
  if m.valid i ∧ m.valid j ∧ i.buf = j.buf then .ok (decide (i.pos < j.pos)) else .ub

/-- `it1 > it2` (monomial.hpp:336). -/
def Mem.itGt (m : Mem) (i j : Iter) : Out Bool :=
  if m.valid i ∧ m.valid j ∧ i.buf = j.buf then .ok (decide (i.pos > j.pos)) else .ub

/-- `it1 <= it2` (monomial.hpp:337). -/
def Mem.itLe (m : Mem) (i j : Iter) : Out Bool :=
  if m.valid i ∧ m.valid j ∧ i.buf = j.buf then .ok (decide (i.pos ≤ j.pos)) else .ub

/-- `it1 >= it2` (monomial.hpp:338). -/
def Mem.itGe (m : Mem) (i j : Iter) : Out Bool :=
  if m.valid i ∧ m.valid j ∧ i.buf = j.buf then .ok (decide (i.pos ≥ j.pos)) else .ub

/-- `it[n]` (monomial.hpp:343). -/
def Mem.index (m : Mem) (i : Iter) (n : Nat) : Out GenObj := m.deref ⟨i.buf, i.pos + toDiff n⟩

/-- The loop `for(it = first; it != last; ++it) visit(*it)`, e.g. by an algorithm of the standard library: the generators visited.
The number bounds the number of steps; not code of libcommute. -/
def Mem.walk (m : Mem) : Nat → Iter → Iter → Out (List GenObj)
  | 0, _, _ => .ub
  | n + 1, it, last =>
    (m.itEq it last).bind fun b =>
    if b then .ok [] else
    (m.deref it).bind fun g => (m.incr it).bind fun it => (Mem.walk m n it last).bind fun gs => .ok (g :: gs)

/-- The same loop with a `const_reverse_iterator` (monomial.hpp:111-125): `std::reverse_iterator` dereferences the iterator before its
base, `rit == rlast` compares the bases and `++rit` decrements the base. -/
def Mem.rwalk (m : Mem) : Nat → Iter → Iter → Out (List GenObj)
  | 0, _, _ => .ub
  | n + 1, base, last =>
    (m.itEq base last).bind fun b =>
    if b then .ok [] else
    (m.decr base).bind fun tmp => (m.deref tmp).bind fun g =>
    (m.decr base).bind fun base => (Mem.rwalk m n base last).bind fun gs => .ok (g :: gs)

/-- `for(auto const& g : mon)`: `begin()` to `end()` (monomial.hpp:100-106). -/
def Mem.forward (m : Mem) (o : Nat) : Out (List GenObj) :=
  (m.begin_ o).bind fun b => (m.end_ o).bind fun e => (m.size o).bind fun n => m.walk (n + 1) b e

/-- `rbegin()` to `rend()` (monomial.hpp:113-125). -/
def Mem.backward (m : Mem) (o : Nat) : Out (List GenObj) :=
  (m.end_ o).bind fun e => (m.begin_ o).bind fun b => (m.size o).bind fun n => m.rwalk (n + 1) e b

/-- `append(generator)` (monomial.hpp:230-232). -/
def Mem.appendGen (grow : Growth) (m : Mem) (o : Nat) (g : GenObj) : Out Mem :=
  g.sharedFromThis.bind fun g => m.emplaceBack grow o g

/-- The body of `std::transform` in `append(monomial)` (monomial.hpp:236-239) for the elements at positions `p`, `p+1`, ... of the
buffer `b`: the iterators of `m.generators_` were taken before the first element is inserted. -/
def Mem.transform (grow : Growth) (b o : Nat) : Nat → Nat → Mem → Out Mem
  | 0, _, m => .ok m
  | n + 1, p, m =>
    (m.deref ⟨b, p⟩).bind fun g => g.sharedFromThis.bind fun g => (m.emplaceBack grow o g).bind fun m =>
    if m.valid ⟨b, p + 1⟩ then Mem.transform grow b o n (p + 1) m else .ub

/-- `append(monomial)` (monomial.hpp:234-240). -/
def Mem.appendMono (grow : Growth) (m : Mem) (o src : Nat) : Out Mem :=
  (m.size o).bind fun n => (m.size src).bind fun k => (m.reserve grow o (n + k)).bind fun m =>
  (m.begin_ src).bind fun b => Mem.transform grow b.buf o k 0 m

/-- The loop of `append(range)` (monomial.hpp:243-244) with `n` steps to go until `it == last`. -/
def Mem.rangeLoop (grow : Growth) (o : Nat) (last : Iter) : Nat → Iter → Mem → Out Mem
  | 0, _, m => .ok m
  | n + 1, it, m =>
    (m.deref it).bind fun g => g.sharedFromThis.bind fun g => (m.emplaceBack grow o g).bind fun m =>
    (m.incr it).bind fun it => (m.itEq it last).bind fun _ => Mem.rangeLoop grow o last n it m

/-- `append(range)` (monomial.hpp:242-245). If `last` cannot be reached from `first` the behaviour is undefined. Simplification: the
iterator `end()` stays usable when elements are added without reallocation (as in all implementations; the standard does not say so). -/
def Mem.appendRange (grow : Growth) (m : Mem) (o : Nat) (first last : Iter) : Out Mem :=
  (m.diff last first).bind fun d => if 0 ≤ d then Mem.rangeLoop grow o last d.toNat first m else .ub

/-- `swap_generators(n1, n2)` (monomial.hpp:179-183). The assertions are the precondition. -/
def Mem.swapGens (m : Mem) (o n1 n2 : Nat) : Out Mem :=
  match m.objs o with
  | none => .ub
  | some v =>
    match m.heap v.buf with
    | none => .ub
    | some l =>
      match l[n1]?, l[n2]? with
      | some g1, some g2 => .ok (m.store v ((l.set n1 g2).set n2 g1))
      | _, _ => .ub

/-- The copy constructor (monomial.hpp:81). -/
def Mem.copy (grow : Growth) (m : Mem) (o src : Nat) : Out Mem :=
  match m.gens src with
  | some l => m.create grow o l
  | none => .ub

/-- The move constructor (monomial.hpp:82): the new monomial takes over the buffer, the old one becomes empty. -/
def Mem.move (grow : Growth) (m : Mem) (o src : Nat) : Out Mem :=
  match m.objs o, m.objs src with
  | none, some v => .ok
    { heap := Function.update m.heap m.next (some [])
      objs := Function.update (Function.update m.objs src (some ⟨m.next, grow 0 0⟩)) o (some v)
      next := m.next + 1 }
  | _, _ => .ub

/-- The copy assignment (monomial.hpp:83): in place if the capacity suffices. -/
def Mem.assign (grow : Growth) (m : Mem) (o src : Nat) : Out Mem :=
  match m.objs o, m.gens src with
  | some v, some l =>
    if o = src then .ok m
    else if l.length ≤ v.cap then .ok (m.store v l) else .ok (m.realloc o v l (grow v.cap l.length))
  | _, _ => .ub

/-- The move assignment (monomial.hpp:84) of another monomial: the old buffer is freed. Simplification: a move assignment to itself,
which leaves the monomial in an unspecified state, is undefined here. -/
def Mem.moveAssign (grow : Growth) (m : Mem) (o src : Nat) : Out Mem :=
  if o = src then .ub else
  match m.objs o, m.objs src with
  | some w, some v => .ok
    { heap := Function.update (Function.update m.heap w.buf none) m.next (some [])
      objs := Function.update (Function.update m.objs src (some ⟨m.next, grow 0 0⟩)) o (some v)
      next := m.next + 1 }
  | _, _ => .ub

/-- The destructor (monomial.hpp:85). -/
def Mem.destroy (m : Mem) (o : Nat) : Out Mem :=
  match m.objs o with
  | some v => .ok { m with heap := Function.update m.heap v.buf none, objs := Function.update m.objs o none }
  | none => .ub

/-- A part given to `concatenate` (monomial.hpp:168-171): a generator, a monomial or a range of iterators. -/
inductive Part where
  | gen (g : GenObj)
  | mono (o : Nat)
  | range (first last : Iter)

/-- `monomial_part_size` (monomial.hpp:207-215). -/
def Mem.partSize (m : Mem) : Part → Out Nat
  | .gen _ => .ok 1
  | .mono o => m.size o
  | .range first last => (m.diff last first).bind fun d => if 0 ≤ d then .ok d.toNat else .ub

/-- `concat_parts_total_size` (monomial.hpp:219-226). -/
def Mem.totalSize (m : Mem) : List Part → Out Nat
  | [] => .ok 0
  | p :: ps => (m.partSize p).bind fun a => (Mem.totalSize m ps).bind fun b => .ok (a + b)

/-- `append(part)`, resolved by the type of the part (monomial.hpp:230-245). -/
def Mem.appendPart (grow : Growth) (m : Mem) (o : Nat) : Part → Out Mem
  | .gen g => m.appendGen grow o g
  | .mono src => m.appendMono grow o src
  | .range first last => m.appendRange grow o first last

/-- `concat_impl` (monomial.hpp:248-256). -/
def Mem.concatImpl (grow : Growth) (o : Nat) : List Part → Mem → Out Mem
  | [], m => .ok m
  | p :: ps, m => (m.appendPart grow o p).bind fun m => Mem.concatImpl grow o ps m

/-- `concatenate(parts...)` (monomial.hpp:170-176); `o` is the monomial `res` that is returned. -/
def Mem.concatenate (grow : Growth) (m : Mem) (o : Nat) (parts : List Part) : Out Mem :=
  (m.create grow o []).bind fun m => (m.totalSize parts).bind fun n => (m.reserve grow o n).bind fun m =>
  Mem.concatImpl grow o parts m

end LC.MonApi
