import Verif.Proof.Fixpoint
import Verif.Proof.ExprLemmas
import Verif.Proof.Predefined
import Verif.Model.Factories
/-
Normal forms of products of at most two generators.
-/
set_option linter.unusedSectionVars false
set_option linter.unusedSimpArgs false
namespace LC
open Terms
variable {G S T : Type _} [GenOps G] [LawfulGen G] [CommRing S] [DecidableEq S] [ConstScalar S]

theorem emits_nil (c : S) : emits ([] : List G) c = [([], c)] := by
  rw [emits, normalize_eq]
  simp only [normStep, List.length_nil]
  rw [if_neg (by omega), reduce_eq]
  rfl

theorem emits_single (g : G) (c : S) : emits [g] c = [([g], c)] := by
  rw [emits, normalize_eq]
  simp only [normStep, List.length_singleton]
  rw [if_neg (by omega), reduce_eq]
  rfl

/-- The list of stored pairs for a linear function. -/
def linLog (f : LinFun G) (c : S) : List (List G × S) :=
  (if f.const.isZero then [] else [([], c * ConstScalar.makeConst f.const)])
    ++ f.terms.map fun p => ([p.1], c * ConstScalar.makeConst p.2)

theorem processF_linLog (f : LinFun G) (c : S) (l : List (List G × S)) :
    processF (normalize logStore) [] [] f c l = l ++ linLog f c := by
  simp only [processF, List.nil_append, linLog]
  have h1 : ∀ (g : G) (c : S) (l : List (List G × S)), normalize logStore [g] c l = l ++ [([g], c)] := fun g c l => by
    rw [normalize_log, emits_single]
  have h0 : (if f.const.isZero then l else normalize logStore [] (c * ConstScalar.makeConst f.const) l)
      = l ++ (if f.const.isZero then [] else [([], c * ConstScalar.makeConst f.const)]) := by
    split
    · simp
    · rw [normalize_log, emits_nil]
  rw [h0, ← List.append_assoc]
  generalize l ++ (if f.const.isZero then [] else [([], c * ConstScalar.makeConst f.const)]) = l'
  induction f.terms generalizing l' with
  | nil => simp
  | cons p t ih => rw [List.foldl_cons, h1, ih]; simp

theorem emits_simp {x y : G} (hg : GenOps.gt x y = false) {f : LinFun G} (hs : GenOps.simplifyProd x y = some f) (c : S) :
    emits [x, y] c = linLog f c := by
  rw [emits, normalize_eq]
  simp only [normStep, List.length_cons, List.length_nil, Nat.zero_add, Nat.reduceAdd, Nat.le_refl, if_true,
    Nat.add_one_sub_one]
  unfold sortLoop
  simp only [pass, hg, hs, Bool.false_eq_true, if_false, processF_linLog, List.nil_append]

theorem emits_ok {x y : G} (hg : GenOps.gt x y = false) (hs : GenOps.simplifyProd x y = none) (c : S) (h0 : c ≠ 0) :
    emits [x, y] c = [([x, y], c)] := by
  have hR : ∀ l : List (List G × S), reduce logStore [x, y] c l = l ++ [([x, y], c)] := fun l => by
    rw [reduce_eq]
    simp only [reduceStep, reduceLoop, List.length_singleton]
    split
    · rw [if_neg (by omega)]; rfl
    · rfl
  rw [emits, normalize_eq]
  simp only [normStep]
  rw [if_pos (by simp), sortLoop_of_chain]
  · simp [h0, hR]
  · simp [OKPair, hg, hs]

theorem emits_swap {x y : G} (hg : GenOps.gt x y = true) (c : S) :
    emits [x, y] c = linLog (GenOps.swapWith x y).2 c ++
      (if (GenOps.swapWith x y).1.eq (.integer 0) then [] else
        if c * ConstScalar.makeConst (GenOps.swapWith x y).1 = 0 then [] else
          [([y, x], c * ConstScalar.makeConst (GenOps.swapWith x y).1)]) := by
  have hne : GenOps.eq x y = false := by
    cases h : GenOps.eq x y with
    | false => rfl
    | true => rw [LawfulGen.eq_iff] at h; subst h; rw [ngt_refl] at hg; cases hg
  have hR : ∀ (c : S) (l : List (List G × S)), reduce logStore [y, x] c l = l ++ [([y, x], c)] := fun c l => by
    rw [reduce_eq]
    simp only [reduceStep, reduceLoop, List.length_singleton, hne]
    rfl
  have h0 : ∀ (c : S) (l : List (List G × S)), sortLoop (normalize logStore) 0 [y, x] c l = .cont [y, x] c false l :=
    fun c l => by unfold sortLoop; simp [pass]
  rw [emits, normalize_eq]
  simp only [normStep, List.length_cons, List.length_nil, Nat.zero_add, Nat.reduceAdd, Nat.le_refl, if_true,
    Nat.add_one_sub_one]
  unfold sortLoop
  by_cases hk : (GenOps.swapWith x y).1.eq (.integer 0) = true
  · simp only [pass, hg, if_true, processF_linLog, List.nil_append, hk, List.append_nil]
  · simp only [pass, hg, if_true, processF_linLog, List.nil_append, hk, if_false, Bool.false_eq_true,
      List.singleton_append, h0]
    split
    · simp
    · rw [hR]

end LC

namespace LC
open Terms Expr
section
variable {G S : Type _} [GenOps G] [LawfulGen G] [CommRing S] [DecidableEq S] [ConstScalar S] [ScalarLaws S] [IsDomain S] [CharZero S]

theorem ofMonomial_single_terms (g : G) : (ofMonomial (1 : S) [g]).terms = [([g], 1)] := by
  simp only [ofMonomial, if_neg (one_ne_zero : (1 : S) ≠ 0)]
  rw [normalize_store, emits_single]; rfl

theorem mul_single (g h : G) : (ofMonomial (1 : S) [g]) * ofMonomial 1 [h] = ofMonomial 1 [g, h] := by
  rw [mul_def]
  refine Expr.ext ?_
  simp only [ofMonomial_single_terms, mulLog, List.flatMap_cons, List.flatMap_nil, List.append_nil, mul_one,
    List.singleton_append]
  simp only [ofMonomial, if_neg (one_ne_zero : (1 : S) ≠ 0)]
  rw [normalize_store]

theorem coeff_ofMonomial_one (m k : List G) : (ofMonomial (1 : S) m).coeff k = sumAt (emits m (1 : S)) k := by
  rw [coeff_ofMonomial, one_mul]; rfl

theorem coeff_mul_single (g h : G) (k : List G) :
    ((ofMonomial (1 : S) [g]) * ofMonomial 1 [h]).coeff k = sumAt (emits [g, h] (1 : S)) k := by
  rw [mul_single, coeff_ofMonomial_one]

end
end LC
