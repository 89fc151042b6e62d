import Verif.Model.SectorView
/-
Model of `trie_ranking<R>` (`loperator/n_fermion_sector_view.hpp:252-384`).  `none` stands for an access outside
`trie`, for a failed assertion (n_fermion_sector_view.hpp:312), for a wrap-around of the 64-bit index `k` and for a loop that has
not ended within the number of iterations given to it: the theorems show that none of them happens.
-/
namespace LC

/-- `std::vector<std::int64_t> trie` (n_fermion_sector_view.hpp:263) as a length and the function from positions to elements. The
elements are `Int`: they are (minus) ranks and positions, below 2^63. -/
structure TrieMem where
  size : Nat
  data : Nat → Int

/-- `trie[i]`. -/
def TrieMem.get (m : TrieMem) (i : Nat) : Option Int := if i < m.size then some (m.data i) else none

/-- `trie[i] = v`. -/
def TrieMem.set (m : TrieMem) (i : Nat) (v : Int) : Option TrieMem :=
  if i < m.size then some ⟨m.size, fun j => if j = i then v else m.data j⟩ else none

/-- `trie.resize(n)` (n_fermion_sector_view.hpp:368). -/
def TrieMem.resize (m : TrieMem) (n : Nat) : TrieMem := ⟨n, fun j => if j < m.size then m.data j else 0⟩

/-- Local variables of `make_trie` that its loop updates, together with the vector. -/
structure TrieState where
  rank : Nat
  st : Nat
  k : Nat
  mem : TrieMem

/-- Move the subtree backwards by `l` (n_fermion_sector_view.hpp:331-333): `n` iterations from `kpp`. -/
def packMove (l : Nat) : Nat → Nat → TrieMem → Option TrieMem
  | 0, _, m => some m
  | n + 1, kpp, m =>
    match m.get (kpp + l) with
    | none => none
    | some v =>
      match m.set kpp v with
      | none => none
      | some m' => packMove l n (kpp + 1) m'

/-- Update the non-leaf entries (n_fermion_sector_view.hpp:335-339): `n` iterations from `kpp`. The subtraction of the unsigned `l` and
the conversion back to `int64_t` are exact because the entry is positive and `l < 2^63`. -/
def packDec (l : Nat) : Nat → Nat → TrieMem → Option TrieMem
  | 0, _, m => some m
  | n + 1, kpp, m =>
    match m.get kpp with
    | none => none
    | some v =>
      if v > 0 then
        match m.set kpp (v - l) with
        | none => none
        | some m' => packDec l n (kpp + 1) m'
      else packDec l n (kpp + 1) m

/-- The packing step at the end of `make_trie` (n_fermion_sector_view.hpp:324-342), `cs` is `chunk_size`; the condition
`level <= pext_masks.size() - 1` always holds. -/
def packTrie (cs kp c0 c : Nat) (s : TrieState) : Option TrieState :=
  let l := (2 ^ cs - 1) - c
  let head := kp + c0
  let tsize := 2 ^ cs - c0 - l
  if s.k < l then none else
  let k := s.k - l
  if l > 0 then
    match packMove l (k - (head + tsize)) (head + tsize) s.mem with
    | none => none
    | some m =>
      match packDec l (k - head) head m with
      | none => none
      | some m' => some ⟨s.rank, s.st, k, m'⟩
  else some ⟨s.rank, s.st, k, s.mem⟩

/-- The `while` loop of `make_trie` (n_fermion_sector_view.hpp:291, 294-321). `body c s` is the loop body after the assignment to `c`; its Boolean
says that the body executed `break`. The result includes the last value of `c`. -/
def trieLoop (cs Ms P p : Nat) (body : Nat → TrieState → Option (Bool × TrieState)) :
    Nat → Nat → TrieState → Option (Nat × TrieState)
  | 0, _, _ => none
  | fuel + 1, c, s =>
    if s.st &&& P = p then
      let c := (s.st >>> (Ms - cs)) &&& (2 ^ cs - 1)
      match body c s with
      | none => none
      | some (true, s') => some (c, s')
      | some (false, s') => trieLoop cs Ms P p body fuel c s'
    else some (c, s)

/-- Loop body for the last chunk (n_fermion_sector_view.hpp:296-300). -/
def trieLeaf (kp c : Nat) (s : TrieState) : Option (Bool × TrieState) :=
  match s.mem.set (kp + c) (-(s.rank : Int)) with
  | none => none
  | some m =>
    if s.st = 0 then some (true, ⟨s.rank, s.st, s.k, m⟩)
    else some (false, ⟨add64 s.rank 1, nextState s.st, s.k, m⟩)

/-- Loop body for the other chunks (n_fermion_sector_view.hpp:301-320). `cs'` is `chunk_sizes[level + 1]` and `sub` is
`make_trie(level + 1, …)`. -/
def trieNode (cs cs' Ms kp : Nat) (sub : Nat → TrieState → Option TrieState) (c : Nat) (s : TrieState) :
    Option (Bool × TrieState) :=
  let f := (s.st >>> (Ms - cs - cs')) &&& (2 ^ cs' - 1)
  let k := if s.k ≥ f then s.k - f else s.k
  if k ≤ kp then none else
  match s.mem.set (kp + c) k with
  | none => none
  | some m =>
    match sub (Ms - cs) ⟨s.rank, s.st, k, m⟩ with
    | none => none
    | some s' => some (decide (s'.st = 0), s')

/-- The choice between the two loop bodies (n_fermion_sector_view.hpp:296, 301): the chunk is the last one if there is no next size. -/
def trieBody (cs : Nat) (next : Option Nat) (Ms kp : Nat) (sub : Nat → TrieState → Option TrieState) :
    Nat → TrieState → Option (Bool × TrieState) :=
  match next with
  | none => trieLeaf kp
  | some cs' => trieNode cs cs' Ms kp sub

/-- `make_trie(level, rank, st, k, M_subtree)` (n_fermion_sector_view.hpp:276-343). The first argument is
`chunk_sizes[level], chunk_sizes[level + 1], …`; `rank`, `st`, `k` and the vector are in the state; `Ms` is `M_subtree`
(at most 62, see `TrieRanking.make`). The loop makes at most one iteration for every value of the chunk. -/
def makeTrie : List Nat → Nat → TrieState → Option TrieState
  | [], _, _ => none
  | cs :: rest, Ms, s =>
    let P := not64 (sub64 (pow2 Ms) 1)
    let p := s.st &&& P
    let kp := s.k
    let k := s.k + 2 ^ cs
    if W64 ≤ k then none else
    let c0 := (s.st >>> (Ms - cs)) &&& (2 ^ cs - 1)
    match trieLoop cs Ms P p (trieBody cs rest.head? Ms kp (makeTrie rest)) (2 ^ cs + 1) (2 ^ cs - 1) ⟨s.rank, s.st, k, s.mem⟩ with
    | none => none
    | some (c, s') => packTrie cs kp c0 c s'

/-- Data members of `trie_ranking<R>` (n_fermion_sector_view.hpp:256-266). -/
structure TrieRanking where
  pextMasks : List Nat
  trie : TrieMem
  mask : Nat

/-- `chunk_sizes` (n_fermion_sector_view.hpp:347, 352). -/
def chunkSizes (R M : Nat) : List Nat := List.replicate (M / R) R ++ (if M % R ≠ 0 then [M % R] else [])

/-- `pext_masks` (n_fermion_sector_view.hpp:354-360): the loop over chunk sizes with `pext_mask_shift` as a parameter. -/
def pextMaskLoop : List Nat → Nat → List Nat
  | [], _ => []
  | size :: rest, shift => (sub64 (pow2 size) 1 <<< (shift - size)) % W64 :: pextMaskLoop rest (shift - size)

/-- Constructor of `trie_ranking<R>` (n_fermion_sector_view.hpp:346-373). `detail::pow2(params.M + 1)` is undefined for 63 modes
(`pow2?` is then `none`). -/
def TrieRanking.make (R : Nat) (p : SectorParams) : Option TrieRanking :=
  match pow2? (p.M + 1) with
  | none => none
  | some size =>
    let masks := pextMaskLoop (chunkSizes R p.M) p.M
    let mask := if p.N ≤ p.M / 2 then 0 else sub64 (pow2 p.M) 1
    if p.M > 0 then
      match makeTrie (chunkSizes R p.M) p.M ⟨0, sub64 (pow2 (countedModes p)) 1, 0, ⟨size, fun _ => 0⟩⟩ with
      | none => none
      | some s =>
        let m := s.mem.resize s.k
        some ⟨masks, ⟨m.size, fun j => if m.data j < 0 then -m.data j else m.data j⟩, mask⟩
    else some ⟨masks, ⟨size, fun _ => 0⟩, mask⟩

/-- Loop of `trie_ranking<R>::operator()` (n_fermion_sector_view.hpp:378-381); the conversion of a negative element would wrap, the
elements are not negative. -/
def trieLookup (a : Nat) (m : TrieMem) : List Nat → Nat → Option Nat
  | [], i => some i
  | mask :: rest, i =>
    match m.get (i + extractBits a mask) with
    | none => none
    | some v => trieLookup a m rest v.toNat

/-- `trie_ranking<R>::operator()` (n_fermion_sector_view.hpp:375-383). -/
def TrieRanking.rank (t : TrieRanking) (a : Nat) : Option Nat := trieLookup (a ^^^ t.mask) t.trie t.pextMasks 0

/-- `trie_ranking<R>`; the constructor's failure (`none`) makes every use of the object undefined. -/
structure Trie (R : Nat) where
  ranking : Option TrieRanking

instance (R : Nat) : RankingAlg (Trie R) := ⟨fun p => ⟨TrieRanking.make R p⟩, fun t a => t.ranking.bind fun r => r.rank a⟩

end LC
