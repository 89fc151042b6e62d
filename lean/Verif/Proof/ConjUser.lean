import Verif.Proof.FaithfulAll
import Verif.Proof.Conj
/-
Hermitian conjugation of expressions mixing predefined and user-defined algebras.
-/
set_option linter.unusedSectionVars false
set_option linter.unusedSimpArgs false
set_option linter.unusedVariables false
namespace LC
open Terms TensorProduct

section
variable {S : Type _} [CommRing S] [DecidableEq S] [ConstScalar S] [ScalarLaws S] [IsDomain S] [CharZero S] [StarRing S]

theorem star_mk {v : VarNumber} (h : v.Defined) : star (ConstScalar.makeConst v : S) = ConstScalar.makeConst v := by
  have key : ∀ (x : S) (a b : Int), b ≠ 0 → x * (b : S) = (a : S) → star x = x := by
    intro x a b hb e
    have hb' : (b : S) ≠ 0 := by exact_mod_cast hb
    have e2 := congrArg star e
    rw [star_mul, star_intCast, star_intCast, mul_comm] at e2
    exact mul_right_cancel₀ hb' (e2.trans e.symm)
  cases v with
  | integer i => rw [ConstScalar.mk_integer, star_intCast]
  | rational a b => exact key _ a b h (ConstScalar.mk_rational a b h)
  | real x => exact key _ x.num x.den (by exact_mod_cast x.den_ne_zero) (ConstScalar.mk_real x)

end

section
variable {G S A : Type _} [GenOps G] [LawfulGen G] [CommRing S] [DecidableEq S] [ConstScalar S] [ScalarLaws S] [IsDomain S]
  [CharZero S] [StarRing S] [Ring A] [Algebra S A] {P : G → Prop} {ρ : G → A}

/-- Conjugated generators in the opposite algebra. -/
def twLin (S : Type _) [CommRing S] [ConstScalar S] {A : Type _} [Ring A] [Algebra S A] (ρ : G → A) (g : G) : Tw A :=
  tw (evalLin S ρ (GenOps.conj g))

theorem evalMon_twLin (m : List G) :
    evalMon (twLin S ρ) m = tw (m.reverse.map fun g => evalLin S ρ (GenOps.conj g)).prod := by
  induction m with
  | nil => rfl
  | cons g m ih =>
    have : evalMon (twLin S ρ) (g :: m) = twLin S ρ g * evalMon (twLin S ρ) m := by simp [evalMon]
    rw [this, ih, twLin, List.reverse_cons, List.map_append, List.prod_append, tw_mul]
    simp

theorem Expr.eval_conj_twLin (hρ : Represents S P ρ) (hC : ∀ g, P g → ∀ p ∈ (GenOps.conj g).terms, P p.1)
    {a : Expr G S} (ha : a.InP P) (h0 : ∀ p ∈ a.terms, p.2 ≠ 0) : tw (evalExpr ρ a.conj) = evalExpr (twLin S ρ) a := by
  rw [Expr.eval_conj_closed hρ hC ha h0]
  simp only [evalExpr, evalTerms]
  generalize a.terms = t
  induction t with
  | nil => simp [tw_zero]
  | cons p t ih => rw [List.map_cons, List.sum_cons, tw_add, ih, List.map_cons, List.sum_cons, evalMon_twLin, tw_smul]

theorem evalLin_tw {H : Type _} (σ : H → A) (f : LinFun H) (hc : f.const.Defined) (hd : ∀ p ∈ f.terms, p.2.Defined) :
    evalLin S (fun h => tw (σ h)) f = tw (evalLin S σ f) := by
  obtain ⟨c, l⟩ := f
  simp only [evalLin, tw_add] at hc hd ⊢
  congr 1
  · show tw (algebraMap S A (star _)) = _
    rw [star_mk hc]
  · induction l with
    | nil => rfl
    | cons p l ih =>
      rw [List.map_cons, List.sum_cons, ih fun q hq => hd q (by simp [hq]), tw_smul, star_mk (hd p (by simp)),
        List.map_cons, List.sum_cons, tw_add]

end

namespace AllGen
variable {ι U S B : Type _} [LinearOrder ι] [UserGen U] [CommRing S] [DecidableEq S] [ConstScalar S] [ScalarLaws S]
  [IsDomain S] [CharZero S] [StarRing S] [Ring B] [Algebra S B]

theorem twUser {ρ : U → B} (hz : UserNoZeros U) (hc : UserConfluent U) (h : UserConjRelations S ρ) :
    UserRealisation S fun u => tw (evalLin S ρ (UserGen.conj u)) where
  swap u v e hg := by
    have hn := hz.swap u v e hg
    rw [evalLin_tw _ _ hn.const_defined hn.defined, ← tw_mul, ← tw_mul, tw_smul, ← tw_add, h.swap u v e hg, star_mk]
    rcases hz.swap_const u v e hg with h0 | h0
    · rw [h0]; trivial
    · exact h0.1
  simp u v f e hg hf := by
    have hn := hz.simp u v f e hg hf
    rw [evalLin_tw _ _ hn.const_defined hn.defined, ← tw_mul, h.simp u v f e hg hf]
  red u p f hp hf := by
    have hn := hc.red_zero u p f hp hf
    rw [evalLin_tw _ _ hn.1 (by rw [hn.2.2]; simp), ← tw_pow, h.red u p f hp hf]
  comm u v e := by
    show tw _ * tw _ = tw _ * tw _
    rw [← tw_mul, ← tw_mul, h.comm u v e]

omit [StarRing S] in
theorem sideConj {A : Type _} [Ring A] [Algebra S A] (α : Gen ι → A) {β : U → B} (h : UserConjRelations S β) :
    UserConjRelations S fun u => side (S := S) α β (user u) where
  swap u v e hg := by
    simp only [evalLin_right, Algebra.TensorProduct.tmul_mul_tmul, one_mul]
    rw [h.swap u v e hg, TensorProduct.tmul_add, TensorProduct.tmul_smul, ← evalLin_right α]
    rfl
  simp u v f e hg hf := by
    simp only [evalLin_right, Algebra.TensorProduct.tmul_mul_tmul, one_mul]
    rw [h.simp u v f e hg hf, ← evalLin_right α]
    rfl
  red u p f hp hf := by
    simp only [evalLin_right, Algebra.TensorProduct.tmul_pow, one_pow]
    rw [h.red u p f hp hf, ← evalLin_right α]
    rfl
  comm u v e := by
    simp only [evalLin_right, Algebra.TensorProduct.tmul_mul_tmul, one_mul]
    rw [h.comm u v e]
  involutive u := by
    have h1 := h.involutive u
    have h2 := evalLin_right (S := S) α (fun w => evalLin S β (UserGen.conj w)) (UserGen.conj u)
    rw [h1] at h2
    simp only [evalLin_right]
    exact h2

variable {M : Nat → ι → Prop}

theorem evalLin_conj_pre {A : Type _} [Ring A] [Algebra S A] (ρ : AllGen ι U → A) (g : Gen ι) :
    evalLin S ρ (GenOps.conj (pre g : AllGen ι U)) = ρ (pre g.dag) := by
  have : evalLin S ρ (GenOps.conj (pre g : AllGen ι U)) = evalLin S (fun g => ρ (pre g)) (Gen.conj g) := evalLin_map _ _ _
  rw [this]; exact evalLin_conj _ g

theorem evalLin_conj_user {A : Type _} [Ring A] [Algebra S A] (ρ : AllGen ι U → A) (u : U) :
    evalLin S ρ (GenOps.conj (user u : AllGen ι U)) = evalLin S (fun u => ρ (user u)) (UserGen.conj u) := evalLin_map _ _ _

theorem evalLin_comm {A H : Type _} [Ring A] [Algebra S A] (σ : H → A) (x : A) (h : ∀ u, x * σ u = σ u * x) (f : LinFun H) :
    x * evalLin S σ f = evalLin S σ f * x := by
  obtain ⟨c, l⟩ := f
  simp only [evalLin, mul_add, add_mul, Algebra.commutes]
  congr 1
  induction l with
  | nil => simp
  | cons p l ih => rw [List.map_cons, List.sum_cons, mul_add, add_mul, ih, mul_smul_comm, smul_mul_assoc, h]

/-- The conjugated generators realise the relations in the opposite algebra. -/
theorem twRealisation {A : Type _} [Ring A] [Algebra S A] {ρ : AllGen ι U → A} (hz : UserNoZeros U) (hc : UserConfluent U)
    (hρ : Realisation S M ρ) (h : UserConjRelations S fun u => ρ (user u)) : Realisation S M (twLin S ρ) where
  predefined := by
    have := tw_textbook hρ.predefined
    have e : (fun g => twLin S ρ (pre g)) = twRep fun g => ρ (pre g) := by
      funext g; rw [twLin, evalLin_conj_pre]; rfl
    rw [e]; exact this
  user := by
    have e : (fun u => twLin S ρ (user u)) = fun u => tw (evalLin S (fun u => ρ (user u)) (UserGen.conj u)) := by
      funext u; rw [twLin, evalLin_conj_user]
    rw [e]; exact twUser hz hc h
  comm g u hg := by
    rw [twLin, twLin, evalLin_conj_pre, evalLin_conj_user, ← tw_mul, ← tw_mul]
    rw [evalLin_comm]
    intro v
    refine hρ.comm g.dag v ?_
    cases g <;> exact hg

theorem twLin_twLin {A : Type _} [Ring A] [Algebra S A] {ρ : AllGen ι U → A} (hz : UserNoZeros U)
    (h : UserConjRelations S fun u => ρ (user u)) (g : AllGen ι U) : evalLin S (twLin S ρ) (GenOps.conj g) = tw (ρ g) := by
  cases g with
  | pre g => rw [evalLin_conj_pre, twLin, evalLin_conj_pre, Gen.dag_dag]
  | user u =>
    rw [evalLin_conj_user]
    have e : (fun u => twLin S ρ (user u)) = fun u => tw (evalLin S (fun u => ρ (user u)) (UserGen.conj u)) := by
      funext u; rw [twLin, evalLin_conj_user]
    rw [e, evalLin_tw _ _ (hz.conj u).const_defined (hz.conj u).defined, h.involutive u]

end AllGen
end LC
