import Verif.Model.MonomialApi
/-!
What the interface of `monomial` means for a user: monomials are values, namely lists of generators. Programs are histories of calls.
-/
namespace LC.MonApi

/-- The value of every living monomial. -/
abbrev Vals := Nat → Option (List GenObj)

/-- A part given to `concatenate` as a user writes it: a generator, a monomial, or `{src.begin() + i, src.begin() + j}`. -/
inductive UPart where
  | gen (g : GenObj)
  | mono (src : Nat)
  | range (src i j : Nat)

/-- The calls a program makes; `o` is the monomial created or modified. -/
inductive Call where
  /-- a constructor, with the generators pointed to -/
  | create (o : Nat) (l : List GenObj)
  | copy (o src : Nat)
  | move (o src : Nat)
  | assign (o src : Nat)
  | moveAssign (o src : Nat)
  | destroy (o : Nat)
  | appendGen (o : Nat) (g : GenObj)
  | appendMono (o src : Nat)
  /-- `o.append({src.begin() + i, src.begin() + j})` -/
  | appendRange (o src i j : Nat)
  | swap (o n1 n2 : Nat)
  /-- `o = concatenate(parts...)` for a new monomial `o` -/
  | concat (o : Nat) (parts : List UPart)

/-- The generators a part stands for. `none`: the part is not allowed (no such monomial or range, or a generator that no
`shared_ptr` owns). Positions are below 2^63, the largest size of a vector. -/
def UPart.value (s : Vals) : UPart → Option (List GenObj)
  | .gen g => if g.shared then some [g] else none
  | .mono src => s src
  | .range src i j => (s src).bind fun l => if i ≤ j ∧ j ≤ l.length ∧ j < 2 ^ 63 then some ((l.take j).drop i) else none

/-- The generators of several parts, one after the other. -/
def values (s : Vals) : List UPart → Option (List GenObj)
  | [] => some []
  | p :: ps => (p.value s).bind fun a => (values s ps).bind fun b => some (a ++ b)

/-- The expected effect of a call on the values. `none`: the call violates a precondition. A range appended to a monomial must not
belong to the same monomial. -/
def Call.effect (s : Vals) : Call → Option Vals
  | .create o l => if s o = none ∧ ∀ g ∈ l, g.shared then some (Function.update s o (some l)) else none
  | .copy o src => (s src).bind fun l => if s o = none then some (Function.update s o (some l)) else none
  | .move o src => (s src).bind fun l =>
      if s o = none then some (Function.update (Function.update s src (some [])) o (some l)) else none
  | .assign o src => (s src).bind fun l => (s o).bind fun _ => some (Function.update s o (some l))
  | .moveAssign o src => (s src).bind fun l => (s o).bind fun _ =>
      if o = src then none else some (Function.update (Function.update s src (some [])) o (some l))
  | .destroy o => (s o).bind fun _ => some (Function.update s o none)
  | .appendGen o g => (s o).bind fun l => if g.shared then some (Function.update s o (some (l ++ [g]))) else none
  | .appendMono o src => (s o).bind fun l => (s src).bind fun k => some (Function.update s o (some (l ++ k)))
  | .appendRange o src i j => (s o).bind fun l => (s src).bind fun k =>
      if o ≠ src ∧ i ≤ j ∧ j ≤ k.length ∧ j < 2 ^ 63 then some (Function.update s o (some (l ++ (k.take j).drop i))) else none
  | .swap o n1 n2 => (s o).bind fun l =>
      if h : n1 < l.length ∧ n2 < l.length then
        some (Function.update s o (some ((l.set n1 (l[n2]'h.2)).set n2 (l[n1]'h.1))))
      else none
  | .concat o parts => if s o = none then (values s parts).bind fun l => some (Function.update s o (some l)) else none

/-- The effect of a history of calls. -/
def effects (s : Vals) : List Call → Option Vals
  | [] => some s
  | c :: cs => (c.effect s).bind fun s => effects s cs

/-- The iterators `src.begin() + i` and `src.begin() + j` (or the part itself) as they are passed to the function. -/
def UPart.pass (m : Mem) : UPart → Out Part
  | .gen g => .ok (.gen g)
  | .mono src => .ok (.mono src)
  | .range src i j => (m.begin_ src).bind fun b => (m.plus b i).bind fun first => (m.plus b j).bind fun last =>
      .ok (.range first last)

/-- All arguments of `concatenate`. -/
def passAll (m : Mem) : List UPart → Out (List Part)
  | [] => .ok []
  | p :: ps => (p.pass m).bind fun a => (passAll m ps).bind fun b => .ok (a :: b)

/-- The calls, executed by the code. -/
def Call.run (grow : Growth) (m : Mem) : Call → Out Mem
  | .create o l => m.create grow o l
  | .copy o src => m.copy grow o src
  | .move o src => m.move grow o src
  | .assign o src => m.assign grow o src
  | .moveAssign o src => m.moveAssign grow o src
  | .destroy o => m.destroy o
  | .appendGen o g => m.appendGen grow o g
  | .appendMono o src => m.appendMono grow o src
  | .appendRange o src i j => (m.begin_ src).bind fun b => (m.plus b i).bind fun first => (m.plus b j).bind fun last =>
      m.appendRange grow o first last
  | .swap o n1 n2 => m.swapGens o n1 n2
  | .concat o parts => (passAll m parts).bind fun ps => m.concatenate grow o ps

/-- A history of calls, executed by the code. -/
def run (grow : Growth) (m : Mem) : List Call → Out Mem
  | [] => .ok m
  | c :: cs => (c.run grow m).bind fun m => run grow m cs

/-- The monomials whose iterators a call may invalidate: the one modified, and a monomial whose buffer is freed or taken over. -/
def Call.touches : Call → Nat → Prop
  | .create o _ | .copy o _ | .assign o _ | .destroy o | .appendGen o _ | .appendMono o _ | .appendRange o _ _ _ | .swap o _ _
  | .concat o _ => fun x => x = o
  | .move o src | .moveAssign o src => fun x => x = o ∨ x = src

/-- A growth policy that a `std::vector` can have: the new capacity suffices. -/
def Growth.Suffices (grow : Growth) : Prop := ∀ c n, n ≤ grow c n

end LC.MonApi
