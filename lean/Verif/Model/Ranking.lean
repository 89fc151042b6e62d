import Verif.Model.BitOps
/-
Model of the ranking and unranking algorithms of `loperator/n_fermion_sector_view.hpp`. Access to a vector element
outside the vector is undefined behaviour (`none`).
-/
namespace LC

/-- `detail::binomial(n, k)` (n_fermion_sector_view.hpp:53-60), in `uint64_t` arithmetic; `n - i` does not wrap
because `i < k ≤ n`. -/
def binomial (n k : Nat) : Nat :=
  if k > n then 0 else
    let k := if k > n / 2 then n - k else k
    (List.range k).foldl (fun C i => mul64 C (n - i) / (i + 1)) 1

/-- `n_fermion_sector_params_t` (n_fermion_sector_view.hpp:63-77). -/
structure SectorParams where
  M : Nat
  mask : Nat
  N : Nat
  deriving DecidableEq, Repr

/-! ### combination_ranking -/

/-- Data members of `combination_ranking` (n_fermion_sector_view.hpp:131-138). -/
structure CombRanking where
  nCounted : Nat
  table : List Nat
  mask : Nat

/-- Number of counted modes (n_fermion_sector_view.hpp:142, 406). -/
def countedModes (p : SectorParams) : Nat := if p.N ≤ p.M / 2 then p.N else p.M - p.N

/-- The XOR mask (n_fermion_sector_view.hpp:144-145, 409-410); `pow2(M) - 1` with `M ≤ 63`. -/
def xorMask (p : SectorParams) : Nat := if p.N = countedModes p then 0 else sub64 (pow2 p.M) 1

/-- Constructor of `combination_ranking` (n_fermion_sector_view.hpp:141-151): a zero-filled vector of size
`M * N_counted` and a double loop of assignments. -/
def CombRanking.make (p : SectorParams) : CombRanking where
  nCounted := countedModes p
  mask := xorMask p
  table := (List.range p.M).foldl (fun t m =>
      (List.range' 1 (countedModes p)).foldl (fun t n => t.set (m * countedModes p + n - 1) (binomial m n)) t)
    (List.replicate (p.M * countedModes p) 0)

/-- Loop of `combination_ranking::operator()` (n_fermion_sector_view.hpp:158-163). -/
def combRankLoop (nc : Nat) (table : List Nat) (index i k : Nat) : Option Nat :=
  if _h : index = 0 then some i else
    match table[ctz index * nc + k]? with
    | none => none
    | some b => combRankLoop nc table (index &&& (index - 1)) (add64 i b) (k + 1)
  termination_by index
  decreasing_by exact land_pred_lt _h

/-- `combination_ranking::operator()` (n_fermion_sector_view.hpp:154-165). -/
def CombRanking.rank (r : CombRanking) (index : Nat) : Option Nat :=
  combRankLoop r.nCounted r.table (index ^^^ r.mask) 0 0

/-! ### staggered_ranking -/

/-- Data members of `staggered_ranking<R>` (n_fermion_sector_view.hpp:173-190). -/
structure StagRanking where
  mpmax : Nat
  heads : List Nat
  table : List Nat
  popTable : List Nat
  mask : Nat

/-- Private `rank(r, Mp, Np)` (n_fermion_sector_view.hpp:193-204): the loop with accumulator `i` and counter `k`. -/
def stagRankLoop (Mp Np : Nat) (r i k : Nat) : Nat :=
  if _h : r = 0 then i else
    stagRankLoop Mp Np (r &&& (r - 1)) (add64 i (binomial (Mp + ctz r) (Np + k))) (k + 1)
  termination_by r
  decreasing_by exact land_pred_lt _h

/-- Constructor of `staggered_ranking<R>` (n_fermion_sector_view.hpp:207-234); the vectors are filled by
`emplace_back`. The products are exact because the tables fit in memory. -/
def StagRanking.make (R : Nat) (p : SectorParams) : StagRanking where
  mpmax := p.M / R
  mask := if p.N ≤ p.M / 2 then 0 else sub64 (pow2 p.M) 1
  heads := (List.range (p.M / R + 1)).map fun mp => (mp + R * (mp * mp - mp) / 2) * 2 ^ R
  table := (List.range (p.M / R + 1)).flatMap fun mp =>
    (List.range (mp * R + 1)).flatMap fun Np =>
      (List.range (2 ^ R)).map fun r => stagRankLoop (mp * R) Np r 0 1
  popTable := (List.range (2 ^ R)).map popcount

/-- Loop of `staggered_ranking<R>::operator()` (n_fermion_sector_view.hpp:241-246). `R > 0` is a static assertion. -/
def stagLoop (R : Nat) (s : StagRanking) (index i Np mp : Nat) : Option Nat :=
  if _h : index = 0 then some i else
  if _hR : R = 0 then none else
    let r := index &&& (2 ^ R - 1)
    match s.heads[mp]? with
    | none => none
    | some head =>
      match s.table[head + Np * 2 ^ R + r]?, s.popTable[r]? with
      | some v, some pc => stagLoop R s (index >>> R) (add64 i v) (Np + pc) (mp + 1)
      | _, _ => none
  termination_by index
  decreasing_by
    rw [Nat.shiftRight_eq_div_pow]
    exact Nat.div_lt_self (Nat.pos_of_ne_zero _h) (Nat.one_lt_two_pow _hR)

/-- `staggered_ranking<R>::operator()` (n_fermion_sector_view.hpp:237-248). -/
def StagRanking.rank (R : Nat) (s : StagRanking) (index : Nat) : Option Nat := stagLoop R s (index ^^^ s.mask) 0 0 0

/-! ### unranking_generator -/

/-- `next_state` (n_fermion_sector_view.hpp:268-274) and the same computation in `unranking_generator::next`
(n_fermion_sector_view.hpp:425-429). -/
def nextState (state : Nat) : Nat :=
  let b := add64 (state ||| sub64 state 1) 1
  let l := state &&& not64 b
  b ||| (l >>> (ctz state + 1))

/-- Data members of `unranking_generator` (n_fermion_sector_view.hpp:389-402); `i` and `unranked` are `mutable`. -/
structure UnrankGen where
  nCounted : Nat
  total : Nat
  mask : Nat
  i : Nat
  unranked : Nat
  deriving DecidableEq, Repr

/-- Constructor (n_fermion_sector_view.hpp:405-410). -/
def UnrankGen.make (p : SectorParams) : UnrankGen where
  nCounted := countedModes p
  total := binomial p.M (countedModes p)
  mask := xorMask p
  i := 0
  unranked := sub64 (pow2 (countedModes p)) 1

/-- `init()` (n_fermion_sector_view.hpp:413-416). -/
def UnrankGen.init (g : UnrankGen) : UnrankGen := { g with unranked := sub64 (pow2 g.nCounted) 1, i := 0 }

/-- `next()` (n_fermion_sector_view.hpp:419-432). -/
def UnrankGen.next (g : UnrankGen) : Nat × UnrankGen :=
  if g.i = 0 then (g.unranked ^^^ g.mask, { g with i := add64 g.i 1 })
  else
    let u := nextState g.unranked
    (u ^^^ g.mask, { g with unranked := u, i := add64 g.i 1 })

/-- `done()` (n_fermion_sector_view.hpp:435). -/
def UnrankGen.done (g : UnrankGen) : Bool := g.i == g.total

/-- `size()` (n_fermion_sector_view.hpp:438). -/
def UnrankGen.size (g : UnrankGen) : Nat := g.total

/-- The idiom `while(!g.done()) { … g.next() … }` (e.g. n_fermion_sector_view.hpp:572-573, 618-619): the list of states
returned and the final generator; `none` when it has not ended within `fuel` iterations. -/
def UnrankGen.drain : Nat → UnrankGen → Option (List Nat × UnrankGen)
  | fuel, g => if g.done then some ([], g) else
    match fuel with
    | 0 => none
    | fuel + 1 => (drain fuel g.next.2).map fun r => (g.next.1 :: r.1, r.2)

end LC
