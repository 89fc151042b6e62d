import Verif.Proof.Kanamori
/-
C111: the program examples/kanamori.cpp prints 0 for all values of the Coulomb integrals and all names of the indices, and the general
principle behind the proof: a computation with symbolic coefficients that gives zero gives zero for all values.
-/
set_option linter.unusedSectionVars false
set_option linter.unnecessarySeqFocus false
namespace LC
open Expr
open scoped Classical

/-- A program with symbolic coefficients (polynomials in two parameters over ℚ(i)) whose result has no terms gives zero when it is run
with any values of the parameters and with the indices renamed by any injective function. -/
theorem C111_symbolic {ι κ : Type _} [LinearOrder ι] [LinearOrder κ] (p : ScalarProg (Gen ι) Sym) (h : p.run.terms = [])
    (hp : p.All FBS) {f : ι → κ} (hf : Function.Injective f) (U J : ℂ) :
    ((p.eval (Sym.value U J)).mapGen (Gen.relabel f)).exact = 0 :=
  symbolic_zero p (by rw [h]; rfl) hp hf U J

namespace Kanamori
variable {ι : Type _} [LinearOrder ι]

/-- `H_K - H_t2g` is the zero expression, for all `U`, `J` and all distinct indices `(m, "up")`, `(m, "down")`. -/
theorem C111_kanamori (idx : Nat → Bool → ι) (hinj : ∀ m s m' s', idx m s = idx m' s' → m = m' ∧ s = s') (U J : ℂ) :
    printed idx U J = 0 := by
  set f : Nat → ι := fun k => idx (k / 2) (decide (k % 2 = 1)) with hfd
  have hf : Function.Injective f := by
    intro a b hab
    obtain ⟨h1, h2⟩ := hinj _ _ _ _ hab
    have h3 : a % 2 = 1 ↔ b % 2 = 1 := by simpa using h2
    omega
  have h := symbolic_zero (pprinted sconsts sgen) symbolic all_sgen hf U J
  rw [prog_value] at h
  have e : ∀ m s, f (2 * m + s.toNat) = idx m s := by
    intro m s
    cases s <;> simp [hfd] <;> congr 1 <;> omega
  simp only [e] at h
  rwa [prog_exact] at h

/-- The two forms of the Hamiltonian compare equal. -/
theorem C111_equal (idx : Nat → Bool → ι) (hinj : ∀ m s m' s', idx m s = idx m' s' → m = m' ∧ s = s') (U J : ℂ) :
    (ham idx U J).eqOp (t2g idx U J) = true := by
  have h := C111_kanamori idx hinj U J
  rw [eqOp_iff]
  have r : ∀ (p : ScalarProg (Gen ι) ℂ), p.All FBS → Reachable FBS p.exact := fun p hp => (p.exact_alg FBS.rep hp).1
  have ra : (pprinted (consts U J) (fun m s d => Gen.fermion d (idx m s))).All FBS := by
    simp [pprinted, pham, pt2g, pnum, ps2, psx, psy, psz, pl2, pl, pn, pcd, pc, ScalarProg.All, FBS, List.range_succ]
  have r1 : Reachable FBS (ham idx U J) := r (pham (consts U J) fun m s d => Gen.fermion d (idx m s)) ra.1
  have r2 : Reachable FBS (t2g idx U J) := r (pt2g (consts U J) fun m s d => Gen.fermion d (idx m s)) ra.2
  refine FBS.ext r1 r2 ?_
  have e := congrArg (evalExpr (Reg.rep (S := ℂ))) h
  rw [printed, eval_sub] at e
  exact sub_eq_zero.1 (e.trans rfl)

end Kanamori

/-- The monomial `n(0,up) n(0,down)` in normal order, with the indices `2m + s`. -/
def c111Monomial : List (Gen Nat) := [.fermion true 0, .fermion true 1, .fermion false 1, .fermion false 0]

set_option maxRecDepth 100000 in
theorem c111_symbolic_coefficient : ((Kanamori.pham Kanamori.sconsts Kanamori.sgen).run.terms.find? c111Monomial).map (·.terms) =
    some [((1, 0, false), 1)] := by decide +kernel

/-- The indices `2m + s`: the difference is zero, but the Hamiltonian is not; the coefficient of `n(0,up) n(0,down)` is `U`. -/
theorem c111_hypotheses : ∃ idx : Nat → Bool → Nat, (∀ m s m' s', idx m s = idx m' s' → m = m' ∧ s = s') ∧
    (∀ U J, Kanamori.printed idx U J = 0) ∧ ∀ U J, (Kanamori.ham idx U J).coeff c111Monomial = U := by
  have hinj : ∀ (m : Nat) (s : Bool) (m' : Nat) (s' : Bool), 2 * m + s.toNat = 2 * m' + s'.toNat → m = m' ∧ s = s' := by
    intro m s m' s' h
    cases s <;> cases s' <;> simp at * <;> omega
  refine ⟨fun m s => 2 * m + s.toNat, hinj, fun U J => Kanamori.C111_kanamori _ hinj U J, fun U J => ?_⟩
  have e := C110_evaluate (Sym.evaluation U J) (Kanamori.pham Kanamori.sconsts Kanamori.sgen) c111Monomial
  rw [show ((Kanamori.pham Kanamori.sconsts Kanamori.sgen).eval (Sym.value U J)) =
    Kanamori.pham (Kanamori.sconsts.map (Sym.value U J)) Kanamori.sgen from rfl, Kanamori.consts_value] at e
  refine Eq.trans (b := (Kanamori.pham (Kanamori.consts U J) Kanamori.sgen).exact.coeff c111Monomial) rfl (e.symm.trans ?_)
  have h := c111_symbolic_coefficient
  rw [Option.map_eq_some_iff] at h
  obtain ⟨x, h1, h2⟩ := h
  rw [Expr.valueAt, h1]
  show Sym.valL U J x.terms = U
  rw [h2]
  simp [Sym.valL, Sym.val1]

end LC
