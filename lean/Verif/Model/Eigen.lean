import Verif.Model.StateVector
import Verif.Model.LOperator
/-
Model of `loperator/state_vector_eigen3.hpp`: Eigen vectors, segments of vectors, columns and Nx1 blocks of matrices, and maps as state
vectors. All of them are a sequence of equidistant elements of some memory (Eigen itself is not part of the repository).
-/
namespace LC

/-- Where the elements of an `Eigen::Matrix<T, N, 1>`, `Eigen::VectorBlock`, `Eigen::Block` with one column or `Eigen::Map` are:
`size` elements, `stride` apart, the first of them at `off`. -/
structure EigenView where
  off : Nat
  stride : Nat
  size : Nat
  deriving DecidableEq, Repr

namespace EigenView

/-- The address of element `n`. -/
def addr (v : EigenView) (n : Nat) : Nat := v.off + v.stride * n

/-- A vector of `n` elements, or an `Eigen::Map` of `n` elements starting at `p`. -/
def map (p n : Nat) : EigenView := ⟨p, 1, n⟩

/-- `v.segment(i, n)`. -/
def segment (v : EigenView) (i n : Nat) : EigenView := ⟨v.addr i, v.stride, n⟩

/-- `m.col(j)` of a matrix with `rows` rows stored by columns (the default). -/
def col (p rows j : Nat) : EigenView := ⟨p + rows * j, 1, rows⟩

/-- `m.col(j)` of a `rows` times `cols` matrix stored by rows. -/
def colRowMajor (p rows cols j : Nat) : EigenView := ⟨p + j, cols, rows⟩

/-- `m.block(i, j, n, 1)` of a matrix with `rows` rows stored by columns. -/
def block (p rows i j n : Nat) : EigenView := ⟨p + rows * j + i, 1, n⟩

end EigenView

/-- An Eigen object in memory. -/
structure EigenSV (T : Type _) where
  mem : List T
  view : EigenView

namespace EigenSV
variable {T : Type _} [AddCommMonoid T] [DecidableEq T]

/-- `get_element` (state_vector_eigen3.hpp:102-106, 146-152); Eigen asserts that the index is in range. -/
def getElement (sv : EigenSV T) (n : Nat) : Except SVError T :=
  if n < sv.view.size then
    match sv.mem[sv.view.addr n]? with
    | some a => .ok a
    | none => .error .ub
  else .error .ub

/-- `update_add_element` (state_vector_eigen3.hpp:108-112, 154-161). -/
def updateAdd (sv : EigenSV T) (n : Nat) (value : T) : Except SVError (EigenSV T) :=
  if n < sv.view.size then
    match sv.mem[sv.view.addr n]? with
    | some a => .ok ⟨sv.mem.set (sv.view.addr n) (a + value), sv.view⟩
    | none => .error .ub
  else .error .ub

/-- `setZero()` as a loop over the elements. -/
def zeroLoop (view : EigenView) : List Nat → List T → List T
  | [], mem => mem
  | n :: l, mem => zeroLoop view l (mem.set (view.addr n) 0)

/-- `set_zeros` (state_vector_eigen3.hpp:114-117). -/
def setZeros (sv : EigenSV T) : EigenSV T := ⟨zeroLoop sv.view (List.range sv.view.size) sv.mem, sv.view⟩

/-- `zeros_like` (state_vector_eigen3.hpp:119-126): a new vector with its own memory. -/
def zerosLike (sv : EigenSV T) : EigenSV T := ⟨List.replicate sv.view.size 0, .map 0 sv.view.size⟩

/-- The loop of `foreach` (state_vector_eigen3.hpp:128-139, 163-177) over the given positions. -/
def foreachFrom (sv : EigenSV T) : List Nat → Except SVError (List (Nat × T))
  | [] => .ok []
  | n :: l =>
    match sv.getElement n with
    | .error e => .error e
    | .ok a =>
      match foreachFrom sv l with
      | .error e => .error e
      | .ok r => .ok (if a = 0 then r else (n, a) :: r)

instance : StateVec (EigenSV T) T where
  getElement := getElement
  updateAdd := updateAdd
  setZeros := setZeros
  foreach sv := sv.foreachFrom (List.range sv.view.size)

instance : ZerosLike (EigenSV T) := ⟨zerosLike⟩

end EigenSV

/-! ### Two objects in the same memory -/
section
variable {S T : Type _} [CommRing S] [Algebra ℝ S] [AddCommMonoid T] [Module S T] [DecidableEq T]

/-- The inner loop (loperator.hpp:136-142) when the amplitude `a` is a reference into the memory that `dst` belongs to: it is read anew for
every term. -/
noncomputable def sharedTerms (src : EigenView) (inIndex : Nat) : List (MonomialAction × S) → EigenSV T → Except SVError (EigenSV T)
  | [], dst => .ok dst
  | (ma, c) :: l, dst =>
    match (EigenSV.mk dst.mem src).getElement inIndex with
    | .error e => .error e
    | .ok a =>
      match applyTerm inIndex a ma c dst with
      | .error e => .error e
      | .ok dst => sharedTerms src inIndex l dst

/-- `foreach(src, …)` (state_vector_eigen3.hpp:128-139) with the functor of `act_impl` (loperator.hpp:133-143), `src` and `dst` in the same
memory. -/
noncomputable def sharedLoop (acts : List (MonomialAction × S)) (src : EigenView) : List Nat → EigenSV T → Except SVError (EigenSV T)
  | [], dst => .ok dst
  | n :: l, dst =>
    match (EigenSV.mk dst.mem src).getElement n with
    | .error e => .error e
    | .ok a =>
      if a = 0 then sharedLoop acts src l dst
      else
        match sharedTerms src n acts dst with
        | .error e => .error e
        | .ok dst => sharedLoop acts src l dst

/-- `op(src, dst)` (loperator.hpp:109-115) for two Eigen objects in the same memory. -/
noncomputable def LOperator.applyShared (op : LOperator S) (mem : List T) (src dst : EigenView) : Except SVError (List T) :=
  match sharedLoop op.actions src (List.range src.size) (StateVec.setZeros (EigenSV.mk mem dst)) with
  | .error e => .error e
  | .ok w => .ok w.mem

end
end LC
