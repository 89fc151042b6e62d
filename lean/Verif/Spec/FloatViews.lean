import Verif.Model.FloatViews
import Verif.Spec.FloatAction
/-
Specification for C103.
-/
namespace LC
variable {ι T V X 𝕜 : Type _} [LinearOrder ι] [RCLike 𝕜]

/-- A view of `sv` presents the basis states of the list `l`: the amplitude of the `i`-th of them is the element `i` of `sv`, and iteration
visits each of them once, in some order. (C43, C44, C51, C52 say which views do.) -/
structure Shows [Positions X V] (x : X) (l : List Nat) (sv : V) : Prop where
  base : Positions.base x = sv
  idx : l.map (Positions.idx x) = (List.range l.length).map .ok
  order : ∃ o, Positions.order x = .ok o ∧ o.Perm l.zipIdx

/-- The row `t` of the matrix of absolute values, applied to the absolute values of the elements of a vector; the `j`-th element is the amplitude
of the `j`-th state of the list. -/
noncomputable def absRow (hs : HilbertSpace ι) (e : Expr (Gen ι) 𝕜) (t : Nat) (l : List Nat) (x : List 𝕜) : ℝ :=
  (l.zipIdx.map fun p => absEl hs e t p.1 * ‖x.getD p.2 0‖).sum

/-- The part of the row `t` of the matrix of absolute values that belongs to elements of the vector passing `is_zero`. -/
noncomputable def skippedRow [AmpOps T] (hs : HilbertSpace ι) (e : Expr (Gen ι) 𝕜) (t : Nat) (l : List Nat) (x : List T) : ℝ :=
  (l.zipIdx.map fun p => if AmpOps.isZero (x.getD p.2 AmpOps.zero) then absEl hs e t p.1 else 0).sum

end LC
