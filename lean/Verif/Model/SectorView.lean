import Verif.Model.Ranking
import Verif.Model.Views
/-
Model of the N-fermion sector and multisector views of `loperator/n_fermion_sector_view.hpp`.

`unsigned int` values are natural numbers below 2^32; subtractions and sums of them are reduced modulo 2^32 where they could wrap.
The generators of unranked states are `mutable` members that are initialised before every use, so their state between two uses is
not tracked.
-/
namespace LC
variable {ι V T R : Type _}

/-- Exceptions thrown by the functions below (`std::runtime_error`, exceptions of `hilbert_space`); `ub` is an access outside
a container or a loop that does not end. -/
inductive SectorError where
  | sparse
  | noSuchSector
  | notInSpace
  | overlap
  | hs (e : HSError)
  | ub
  deriving DecidableEq, Repr

/-- Ranking algorithms: the constructor from the parameters of a sector and `operator()`; `none` is an access outside a
table (n_fermion_sector_view.hpp:128-384). -/
class RankingAlg (R : Type _) where
  make : SectorParams → R
  rank : R → Nat → Option Nat

instance : RankingAlg CombRanking := ⟨CombRanking.make, CombRanking.rank⟩

/-- `staggered_ranking<R>`. -/
structure Staggered (R : Nat) where
  ranking : StagRanking

instance (R : Nat) : RankingAlg (Staggered R) := ⟨fun p => ⟨StagRanking.make R p⟩, fun s => StagRanking.rank R s.ranking⟩

section
variable [LinearOrder ι]

/-- `init_m` (n_fermion_sector_view.hpp:86-98) and the same computation in `n_fermion_sector_size` (n_fermion_sector_view.hpp:454-458);
the range is never empty. -/
def initM (hs : HilbertSpace ι) : Except SectorError Nat :=
  if hs.hasAlgebra (-3) then
    match hs.algebraBitRange (-3) with
    | .error e => .error (.hs e)
    | .ok r => .ok (r.second - r.first + 1).toNat
  else .ok 0

/-- The constructor of `n_fermion_sector_params_t` from a Hilbert space (n_fermion_sector_view.hpp:74-76, 113-120). -/
def SectorParams.ofSpace (hs : HilbertSpace ι) (N : Nat) : Except SectorError SectorParams :=
  match initM hs with
  | .error e => .error e
  | .ok M => if N > M then .error .noSuchSector else .ok ⟨M, sub64 (pow2 M) 1, N⟩

/-! ### `n_fermion_sector_view` -/

/-- `n_fermion_sector_size` (n_fermion_sector_view.hpp:445-460). -/
def sectorSize (hs : HilbertSpace ι) (N : Nat) : Except SectorError Nat :=
  if hs.isSparse then .error .sparse else
  if hs.totalNBits = 0 then .ok 0 else
  match initM hs with
  | .error e => .error e
  | .ok M => .ok (mul64 (binomial M N) (pow2 (hs.totalNBits - M).toNat))

/-- Data members (n_fermion_sector_view.hpp:462-483). -/
structure SectorView (V R : Type _) where
  sv : V
  params : SectorParams
  ranking : R
  unranking : UnrankGen
  fMask : Nat
  mNon : Nat

/-- The constructor (n_fermion_sector_view.hpp:488-499), `make_nfs_view`, `make_const_nfs_view` (n_fermion_sector_view.hpp:626-640). -/
def SectorView.make [RankingAlg R] (sv : V) (hs : HilbertSpace ι) (N : Nat) : Except SectorError (SectorView V R) :=
  match SectorParams.ofSpace hs N with
  | .error e => .error e
  | .ok p =>
    if hs.isSparse then .error .sparse else
    .ok ⟨sv, p, RankingAlg.make p, UnrankGen.make p, sub64 (pow2 p.M) 1, (hs.totalNBits - p.M).toNat⟩

/-- `map_index` (n_fermion_sector_view.hpp:501-506). -/
def SectorView.mapIndex [RankingAlg R] (v : SectorView V R) (index : Nat) : Except SVError Nat :=
  match RankingAlg.rank v.ranking (index &&& v.fMask) with
  | none => .error .ub
  | some ranked => .ok (add64 ((ranked <<< v.mNon) % W64) (index >>> v.params.M))

/-- The double loop over fermionic and non-fermionic parts (n_fermion_sector_view.hpp:571-574, 588-589, 615-621): the basis states in
the order of visiting; `none` if the loop does not end. -/
def sectorStates (M mNon : Nat) (g : UnrankGen) : Option (List Nat) :=
  match g.init.drain W64 with
  | none => none
  | some (l, _) => some (l.flatMap fun u => (List.range (pow2 mNon)).map fun nf => add64 u ((nf <<< M) % W64))

/-- The basis states visited by `foreach` (n_fermion_sector_view.hpp:566-574). -/
def SectorView.visit (v : SectorView V R) : Option (List Nat) :=
  if v.params.M = 0 ∧ v.mNon = 0 then some [] else sectorStates v.params.M v.mNon v.unranking

/-- `n_fermion_sector_basis_states` (n_fermion_sector_view.hpp:594-624). -/
def sectorBasisStates (hs : HilbertSpace ι) (N : Nat) : Except SectorError (List Nat) :=
  if hs.isSparse then .error .sparse else
  match SectorParams.ofSpace hs N with
  | .error e => .error e
  | .ok p =>
    let mNon := (hs.totalNBits - p.M).toNat
    if p.M = 0 ∧ mNon = 0 then .ok [] else
    match sectorStates p.M mNon (UnrankGen.make p) with
    | none => .error .ub
    | some l => .ok l

/-- `get_element`, `update_add_element`, `set_zeros` and `foreach` of a view (n_fermion_sector_view.hpp:518-592). -/
instance [AddCommMonoid T] [DecidableEq T] [StateVec V T] [RankingAlg R] : StateVec (SectorView V R) T where
  getElement v n :=
    match v.mapIndex n with
    | .error e => .error e
    | .ok k => StateVec.getElement v.sv k
  updateAdd v n a :=
    match v.mapIndex n with
    | .error e => .error e
    | .ok k =>
      match StateVec.updateAdd v.sv k a with
      | .error e => .error e
      | .ok sv => .ok { v with sv := sv }
  setZeros v := { v with sv := StateVec.setZeros v.sv }
  foreach v :=
    match v.visit with
    | none => .error .ub
    | some l => viewForeach v.sv l.zipIdx

/-! ### `n_fermion_multisector_view` -/

/-- `sector_descriptor` (n_fermion_sector_view.hpp:648-655): `indices` is a `std::set`, i.e. an increasing list. -/
structure SectorDesc (ι : Type _) where
  indices : List ι
  N : Nat

/-- The inner loop of `validate_sectors` (n_fermion_sector_view.hpp:668-675): `all_indices` after the insertions. -/
def validateIndices (hs : HilbertSpace ι) : List ι → List ι → Except SectorError (List ι)
  | [], all => .ok all
  | i :: is, all => if !hs.has (ESpace.fermion i) then .error .notInSpace else validateIndices hs is (if i ∈ all then all else i :: all)

/-- The loop of `validate_sectors` (n_fermion_sector_view.hpp:667-677) with the variables `M_total` and `all_indices`. -/
def validateLoop (hs : HilbertSpace ι) : List (SectorDesc ι) → Nat → List ι → Except SectorError (Nat × List ι)
  | [], M, all => .ok (M, all)
  | s :: l, M, all =>
    match validateIndices hs s.indices all with
    | .error e => .error e
    | .ok all => validateLoop hs l ((M + s.indices.length) % 2 ^ 32) all

/-- `validate_sectors` (n_fermion_sector_view.hpp:659-680). -/
def validateSectors (hs : HilbertSpace ι) (l : List (SectorDesc ι)) : Except SectorError Unit :=
  match validateLoop hs l 0 [] with
  | .error e => .error e
  | .ok (M, all) => if all.length ≠ M then .error .overlap else .ok ()

/-- The loop of `init_mask` (n_fermion_sector_view.hpp:104-109). -/
def initMaskLoop (hs : HilbertSpace ι) : List ι → Nat → Except SectorError Nat
  | [], m => .ok m
  | i :: is, m =>
    match hs.bitRange (ESpace.fermion i) with
    | .error e => .error (.hs e)
    | .ok r => initMaskLoop hs is (add64 m (pow2 r.first.toNat))

/-- `init_mask` (n_fermion_sector_view.hpp:100-111); the return type is `unsigned int`. -/
def initMask (hs : HilbertSpace ι) (is : List ι) : Except SectorError Nat :=
  match initMaskLoop hs is 0 with
  | .error e => .error e
  | .ok m => .ok (m % 2 ^ 32)

/-- The constructor of `n_fermion_sector_params_t` from a sector descriptor (n_fermion_sector_view.hpp:78-83, 113-120). -/
def SectorParams.ofDesc (hs : HilbertSpace ι) (s : SectorDesc ι) : Except SectorError SectorParams :=
  match initMask hs s.indices with
  | .error e => .error e
  | .ok mask => if s.N > s.indices.length then .error .noSuchSector else .ok ⟨s.indices.length, mask, s.N⟩

/-- The loop of `make_sector_params` (n_fermion_sector_view.hpp:691-695). -/
def paramsLoop (hs : HilbertSpace ι) : List (SectorDesc ι) → List SectorParams → Except SectorError (List SectorParams)
  | [], ps => .ok ps
  | s :: l, ps =>
    match SectorParams.ofDesc hs s with
    | .error e => .error e
    | .ok p => paramsLoop hs l (if p.M ≠ 0 then ps ++ [p] else ps)

/-- `make_sector_params` (n_fermion_sector_view.hpp:684-698). -/
def makeSectorParams (hs : HilbertSpace ι) (l : List (SectorDesc ι)) : Except SectorError (List SectorParams) :=
  match validateSectors hs l with
  | .error e => .error e
  | .ok () => paramsLoop hs l []

/-- Subtraction of `unsigned int`s. -/
def sub32 (a b : Nat) : Nat := (a + 2 ^ 32 - b) % 2 ^ 32

/-- `make_nonmultisector_mask` (n_fermion_sector_view.hpp:700-711): the returned number and the mask. -/
def nonMultiMask (hs : HilbertSpace ι) (ps : List SectorParams) : Nat × Nat :=
  ps.foldl (fun r p => (sub32 r.1 p.M, sub64 r.2 p.mask)) (hs.totalNBits.toNat, sub64 (pow2 hs.totalNBits.toNat) 1)

/-- Data members of `multisector_unranking_generator` (n_fermion_sector_view.hpp:714-733). -/
structure MultiGen where
  params : List SectorParams
  gens : List UnrankGen
  total : Nat
  i : Nat
  s : Int
  part : List Nat

/-- The constructor (n_fermion_sector_view.hpp:736-746). The accumulator of `std::accumulate(…, 1, …)` has type `int`. -/
def MultiGen.make (ps : List SectorParams) : MultiGen where
  params := ps
  gens := ps.map UnrankGen.make
  total := (ps.map UnrankGen.make).foldl (fun n g => SparseForeach.viaInt (mul64 n g.size)) 1
  i := 0
  s := 0
  part := List.replicate ps.length 0

/-- `init()` (n_fermion_sector_view.hpp:748-753). -/
def MultiGen.init (g : MultiGen) : MultiGen := { g with gens := g.gens.map UnrankGen.init, i := 0, s := 0 }

/-- The loop of `next()` (n_fermion_sector_view.hpp:762-783); `none` for an access outside a vector or if the loop has not ended within
`fuel` iterations. -/
def MultiGen.nextLoop : Nat → MultiGen → Option MultiGen
  | 0, _ => none
  | fuel + 1, g =>
    if g.s < 0 then some g else
    match g.gens[g.s.toNat]?, g.params[g.s.toNat]? with
    | some gen, some p =>
      if gen.done then nextLoop fuel { g with gens := g.gens.set g.s.toNat gen.init, s := g.s - 1 } else
      let r := gen.next
      let val := depositBits r.1 p.mask
      match (if g.s = 0 then some val else (g.part[g.s.toNat - 1]?).map fun x => add64 x val) with
      | none => none
      | some x =>
        let g := { g with gens := g.gens.set g.s.toNat r.2, part := g.part.set g.s.toNat x }
        if g.s < (g.gens.length : Int) - 1 then nextLoop fuel { g with s := g.s + 1 } else some g
    | _, _ => none

/-- `next()` (n_fermion_sector_view.hpp:755-784). The loop moves towards the first sector and then towards the last one, so
`2 * size + 1` iterations suffice. -/
def MultiGen.next (g : MultiGen) : Option (Nat × MultiGen) :=
  if g.gens.length = 0 then some (0, { g with s := -1, i := add64 g.i 1 }) else
  match nextLoop (2 * g.gens.length + 1) g with
  | none => none
  | some g =>
    match g.part.getLast? with
    | none => none
    | some x => some (x, { g with i := add64 g.i 1 })

/-- `done()` (n_fermion_sector_view.hpp:786). -/
def MultiGen.done (g : MultiGen) : Bool := g.i == g.total

/-- `size()` (n_fermion_sector_view.hpp:788). -/
def MultiGen.size (g : MultiGen) : Nat := g.total

/-- The idiom `while(!g.done()) { … g.next() … }` (n_fermion_sector_view.hpp:959-960, 1014-1015). -/
def MultiGen.drain : Nat → MultiGen → Option (List Nat)
  | fuel, g => if g.done then some [] else
    match fuel with
    | 0 => none
    | fuel + 1 =>
      match g.next with
      | none => none
      | some (x, g) => (drain fuel g).map (x :: ·)

/-- The loop of `n_fermion_multisector_size` (n_fermion_sector_view.hpp:810-815) with the variables `M_total` and
`multisector_size`; `none` for the early return of 0. -/
def multiSizeLoop : List (SectorDesc ι) → Nat → Nat → Option (Nat × Nat)
  | [], M, size => some (M, size)
  | s :: l, M, size =>
    if s.N > s.indices.length then none
    else multiSizeLoop l ((M + s.indices.length) % 2 ^ 32) (mul64 size (binomial s.indices.length s.N))

/-- `n_fermion_multisector_size` (n_fermion_sector_view.hpp:794-818). -/
def multiSize (hs : HilbertSpace ι) (l : List (SectorDesc ι)) : Except SectorError Nat :=
  if hs.isSparse then .error .sparse else
  match validateSectors hs l with
  | .error e => .error e
  | .ok () =>
    if hs.totalNBits = 0 then .ok 0 else
    match multiSizeLoop l 0 1 with
    | none => .ok 0
    | some (M, size) => .ok (mul64 size (pow2 (sub32 hs.totalNBits.toNat M)))

/-- `init_sector_strides` (n_fermion_sector_view.hpp:880-892). -/
def sectorStrides : List SectorParams → List Nat
  | [] => []
  | [_] => [1]
  | _ :: q :: l =>
    let r := sectorStrides (q :: l)
    mul64 (r.headD 1) (binomial q.M q.N) :: r

/-- Data members (n_fermion_sector_view.hpp:823-844). -/
structure MultiView (V R : Type _) where
  sv : V
  params : List SectorParams
  ranking : List R
  strides : List Nat
  unranking : MultiGen
  mNon : Nat
  nonMask : Nat

/-- The constructor (n_fermion_sector_view.hpp:849-864), `make_nfms_view`, `make_const_nfms_view`
(n_fermion_sector_view.hpp:1028-1048). -/
def MultiView.make [RankingAlg R] (sv : V) (hs : HilbertSpace ι) (l : List (SectorDesc ι)) : Except SectorError (MultiView V R) :=
  match makeSectorParams hs l with
  | .error e => .error e
  | .ok ps =>
    if hs.isSparse then .error .sparse else
    .ok ⟨sv, ps, ps.map RankingAlg.make, sectorStrides ps, MultiGen.make ps, (nonMultiMask hs ps).1, (nonMultiMask hs ps).2⟩

/-- The loop of `map_index` (n_fermion_sector_view.hpp:867-872) with the variable `index_multisector`. -/
def multiMapLoop [RankingAlg R] (index : Nat) : List SectorParams → List R → List Nat → Nat → Except SVError Nat
  | [], _, _, acc => .ok acc
  | p :: ps, r :: rs, st :: sts, acc =>
    match RankingAlg.rank r (extractBits index p.mask) with
    | none => .error .ub
    | some ranked => multiMapLoop index ps rs sts (add64 acc (mul64 ranked st))
  | _ :: _, _, _, _ => .error .ub

/-- `map_index` (n_fermion_sector_view.hpp:866-877). -/
def MultiView.mapIndex [RankingAlg R] (v : MultiView V R) (index : Nat) : Except SVError Nat :=
  match multiMapLoop index v.params v.ranking v.strides 0 with
  | .error e => .error e
  | .ok m => .ok (add64 ((m <<< v.mNon) % W64) (extractBits index v.nonMask))

/-- The double loop (n_fermion_sector_view.hpp:958-962, 977-980, 1013-1023). -/
def multiStates (g : MultiGen) (mNon nonMask : Nat) : Option (List Nat) :=
  match g.init.drain W64 with
  | none => none
  | some l => some (l.flatMap fun u => (List.range (pow2 mNon)).map fun nms => add64 u (depositBits nms nonMask))

/-- The basis states visited by `foreach` (n_fermion_sector_view.hpp:953-962). -/
def MultiView.visit (v : MultiView V R) : Option (List Nat) :=
  if v.params.length = 0 ∧ v.mNon = 0 then some [] else multiStates v.unranking v.mNon v.nonMask

/-- `n_fermion_multisector_basis_states` (n_fermion_sector_view.hpp:986-1026). -/
def multiBasisStates (hs : HilbertSpace ι) (l : List (SectorDesc ι)) : Except SectorError (List Nat) :=
  if hs.isSparse then .error .sparse else
  match makeSectorParams hs l with
  | .error e => .error e
  | .ok ps =>
    if hs.totalNBits = 0 ∧ ps.length = 0 then .ok [] else
    match multiStates (MultiGen.make ps) (nonMultiMask hs ps).1 (nonMultiMask hs ps).2 with
    | none => .error .ub
    | some l => .ok l

/-- `get_element`, `update_add_element`, `set_zeros` and `foreach` of a view (n_fermion_sector_view.hpp:905-984). -/
instance [AddCommMonoid T] [DecidableEq T] [StateVec V T] [RankingAlg R] : StateVec (MultiView V R) T where
  getElement v n :=
    match v.mapIndex n with
    | .error e => .error e
    | .ok k => StateVec.getElement v.sv k
  updateAdd v n a :=
    match v.mapIndex n with
    | .error e => .error e
    | .ok k =>
      match StateVec.updateAdd v.sv k a with
      | .error e => .error e
      | .ok sv => .ok { v with sv := sv }
  setZeros v := { v with sv := StateVec.setZeros v.sv }
  foreach v :=
    match v.visit with
    | none => .error .ub
    | some l => viewForeach v.sv l.zipIdx

end
end LC
