import Verif.Spec.Scalars
import Verif.Spec.Textbook
import Verif.Proof.Conj
import Verif.Proof.Faithful
/-
C04, C05, C06: normalisation of products of generators.
-/
set_option linter.unusedSectionVars false
namespace LC
variable {ι G S A : Type _} [LinearOrder ι] [GenOps G] [LawfulGen G] [CommRing S] [DecidableEq S] [ConstScalar S]
  [ScalarLaws S] [Ring A] [Algebra S A]

/-- **C04** In every algebra in which the generators obey the relations announced by `swap_with`, `simplify_prod` and
`reduce_power`, the expression built from a coefficient `x` and a product of generators denotes `x` times the product. -/
theorem C04_normalisation_sound {P : G → Prop} {ρ : G → A} (hρ : Represents S P ρ) (x : S) (m : List G)
    (hm : ∀ g ∈ m, P g) : evalExpr ρ (Expr.ofMonomial x m) = x • (m.map ρ).prod :=
  Expr.eval_ofMonomial hρ x m hm

/-- **C04** for arbitrary expressions: the product of two expressions denotes the product of the operators, and the
other arithmetic operations denote themselves. -/
theorem C04_arithmetic_sound {P : G → Prop} {ρ : G → A} (hρ : Represents S P ρ) (a b : Expr G S)
    (ha : ∀ p ∈ a.terms, ∀ g ∈ p.1, P g) (hb : ∀ p ∈ b.terms, ∀ g ∈ p.1, P g) (x : S) :
    evalExpr ρ (a * b) = evalExpr ρ a * evalExpr ρ b ∧
    evalExpr ρ (a + b) = evalExpr ρ a + evalExpr ρ b ∧
    evalExpr ρ (a - b) = evalExpr ρ a - evalExpr ρ b ∧
    evalExpr ρ (-a) = - evalExpr ρ a ∧
    evalExpr ρ (x • a) = x • evalExpr ρ a ∧
    evalExpr ρ (Expr.const x : Expr G S) = algebraMap S A x :=
  ⟨Expr.eval_mul hρ ha hb, Expr.eval_add a b, Expr.eval_sub a b, Expr.eval_neg a, Expr.eval_smul x a,
    Expr.eval_const x⟩

/-- **C06** The rewriting data of fermions, bosons and spins agrees with the textbook relations: every family of
operators satisfying the canonical (anti)commutation relations and the spin algebra satisfies the contract of C04,
provided a spin-1/2 does not share its index with a spin of other multiplicity. -/
theorem C06_predefined_algebras {M : Nat → ι → Prop} (hM : HalfAlone M) {ρ : Gen ι → A} (h : TextbookRel S M ρ) :
    Represents S (Allowed M) ρ := represents_of_textbook hM h

/-- **C06** + **C04** for the predefined algebras. -/
theorem C06_normalisation_sound_predefined {M : Nat → ι → Prop} (hM : HalfAlone M) {ρ : Gen ι → A}
    (h : TextbookRel S M ρ) (x : S) (m : List (Gen ι)) (hm : ∀ g ∈ m, Allowed M g) :
    evalExpr ρ (Expr.ofMonomial x m) = x • (m.map ρ).prod :=
  C04_normalisation_sound (C06_predefined_algebras hM h) x m hm

/-- **C06** the hypotheses are satisfiable: there is a (faithful, infinite dimensional) family of operators satisfying
all textbook relations of all fermions, bosons and spins-1/2 simultaneously. -/
theorem C06_textbook_satisfiable : ∃ ρ : Gen ι → Module.End S (Reg.V ι S),
    TextbookRel S (fun n _ => n = 2) ρ := ⟨Reg.rep, Reg.rep_textbook⟩

/-- **C06/C16 (finding F2)** Without the proviso the claim fails: for a spin-1 and a spin-1/2 at the same index the
product depends on the order of the factors, although textbook spins of different kind commute. -/
theorem C06_F2_mixed_multiplicities_do_not_commute :
    ((Factory.spin 3 .z (0 : Nat) : Expr _ ℚ) * Factory.spin 2 .z 0).eqOp
      (Factory.spin 2 .z 0 * Factory.spin 3 .z 0) = false := by decide +kernel

/-- A user-defined algebra for the examples: two anticommuting generators with `g * g = 1` (Clifford algebra). -/
inductive Clif where
  | e1 | e2
  deriving DecidableEq

/-- Virtual functions of the example algebra. -/
instance : GenOps Clif where
  eq a b := decide (a = b)
  lt a b := decide (a = .e1 ∧ b = .e2)
  gt a b := decide (a = .e2 ∧ b = .e1)
  swapWith _ _ := (.integer (-1), LinFun.zero)
  simplifyProd a b := if a = b then some ⟨.integer 1, []⟩ else none
  reducePower _ _ f := (false, f)
  conj g := ⟨.integer 0, [(g, .integer 1)]⟩

instance : LawfulGen Clif where
  eq_iff a b := by cases a <;> cases b <;> decide
  lt_irrefl a := by cases a <;> decide
  lt_trans a b c := by cases a <;> cases b <;> cases c <;> decide
  lt_tri a b := by cases a <;> cases b <;> decide
  gt_iff a b := by cases a <;> cases b <;> decide

/-- The user-defined algebra satisfies the contract in `End(ℚ × ℚ)`: reflections `σ_x`, `σ_z`. -/
def clifRep : Clif → Module.End ℚ (ℚ × ℚ)
  | .e1 => { toFun := fun v => (v.2, v.1), map_add' := fun _ _ => rfl, map_smul' := fun _ _ => rfl }
  | .e2 => { toFun := fun v => (v.1, -v.2), map_add' := fun u v => by ext <;> simp [add_comm],
             map_smul' := fun c v => by ext <;> simp }

theorem clif_represents : Represents ℚ (fun _ : Clif => True) clifRep where
  swap a b _ _ h := by
    cases a <;> cases b <;> simp [GenOps.gt] at h
    apply LinearMap.ext; intro v
    simp [GenOps.swapWith, evalLin, LinFun.zero, ConstScalar.mk_integer, clifRep]
  simp a b f _ _ h h' := by
    cases a <;> cases b <;> simp [GenOps.simplifyProd] at h' <;> subst h' <;>
      (apply LinearMap.ext; intro v; simp [evalLin, ConstScalar.mk_integer, clifRep])
  red_false _ _ _ _ _ _ := rfl
  red_true _ _ _ _ h := by simp [GenOps.reducePower] at h
  swap_mem _ _ _ _ _ p hp := trivial
  simp_mem _ _ _ _ _ _ _ _ _ := trivial
  red_mem _ _ _ _ _ _ _ := trivial

/-- C04 applied to the user-defined algebra: `e2 e1 e2 = -e1`. -/
example : evalExpr clifRep (Expr.ofMonomial (2 : ℚ) [.e2, .e1, .e2]) = (2 : ℚ) • ([Clif.e2, .e1, .e2].map clifRep).prod ∧
    (Expr.ofMonomial (2 : ℚ) [Clif.e2, .e1, .e2]).terms = [([Clif.e1], (-2 : ℚ))] :=
  ⟨C04_normalisation_sound clif_represents 2 _ (by simp), by decide +kernel⟩

example : HalfAlone (fun (n : Nat) (i : Nat) => (i = 0 ∧ n = 2) ∨ (i = 1 ∧ n = 4)) := by
  intro i n; omega

/-- `is_ordered()`, no adjacent simplification and bounded ladder powers: what C05 says about a stored monomial. -/
structure StoredForm (m : List (Gen ι)) : Prop where
  /-- `is_ordered()` returns true -/
  ordered : monIsOrdered m = true
  /-- no two neighbours can be swapped or simplified -/
  no_simplification : ∀ pre x y post, m = pre ++ x :: y :: post → Gen.gtOp x y = false ∧ Gen.simplifyProd x y = none
  /-- a creation/annihilation operator of a fermion occurs at most once -/
  fermion_once : ∀ d i, m.count (.fermion d i) ≤ 1
  /-- no power of a ladder operator reaches the multiplicity -/
  ladder_power : ∀ n c i, 2 ≤ n → c ≠ .z → m.count (.spin n c i) < n

theorem monIsOrdered_of_chain {m : List (Gen ι)} (h : m.IsChain OKPair) : monIsOrdered m = true := by
  induction m with
  | nil => rfl
  | cons a m ih =>
    cases m with
    | nil => rfl
    | cons b m =>
      simp only [List.isChain_cons_cons] at h
      simp only [monIsOrdered, ih h.2, Bool.and_true, Bool.not_eq_true']
      have := h.1.1
      rwa [LawfulGen.gt_iff] at this

/-- In a sorted list equal elements are adjacent. -/
theorem adjacent_of_two_le_count {m : List (Gen ι)} (h : m.IsChain OKPair) {g : Gen ι} (hc : 2 ≤ m.count g) :
    GenOps.simplifyProd g g = none := by
  induction m with
  | nil => simp at hc
  | cons a m ih =>
    by_cases hag : a = g
    · subst hag
      rw [List.count_cons_self] at hc
      have hmem : a ∈ m := List.count_pos_iff.1 (by omega)
      cases m with
      | nil => simp at hmem
      | cons b m =>
        have hp := pairwise_of_chain h
        have hab := (List.isChain_cons_cons.1 h).1
        have : b = a := by
          rcases List.mem_cons.1 hmem with h1 | h1
          · exact h1.symm
          · have h2 := (List.pairwise_cons.1 hp).2
            have h3 := (List.pairwise_cons.1 h2).1 a h1
            exact ngt_antisymm h3 hab.1
        subst this
        exact hab.2
    · rw [List.count_cons_of_ne hag] at hc
      exact ih h.tail hc

theorem storedForm_of_canon {M : Nat → ι → Prop} {m : List (Gen ι)} (h : CanonMon (Allowed M) m) : StoredForm m where
  ordered := monIsOrdered_of_chain h.chain
  no_simplification pre x y post e := by
    have := h.chain
    rw [e, List.isChain_append] at this
    exact (List.isChain_cons_cons.1 this.2.1).1
  fermion_once d i := by
    by_contra hc
    have := adjacent_of_two_le_count h.chain (g := .fermion d i) (by omega)
    simp [GenOps.simplifyProd, Gen.simplifyProd, Gen.eqOp, Gen.equal, Gen.algebraId] at this
  ladder_power n c i hn hz := by
    by_contra hc
    have hc' : n ≤ m.count (.spin n c i) := by omega
    by_cases h2 : n = 2
    · subst h2
      have := adjacent_of_two_le_count h.chain (g := .spin 2 c i) (by omega)
      simp [GenOps.simplifyProd, Gen.simplifyProd] at this
    · have hmem : Gen.spin n c i ∈ m := List.count_pos_iff.1 (by omega)
      have hcount : m.countP (GenOps.eq (Gen.spin n c i)) = m.count (Gen.spin n c i) := by
        rw [List.count]
        apply List.countP_congr
        intro x _
        rw [LawfulGen.eq_iff, beq_iff_eq]; exact eq_comm
      have := h.pow _ hmem n (by omega) (by rw [hcount]; exact hc')
      simp [GenOps.reducePower, Gen.reducePower, hz] at this

/-- **C05** Every monomial stored by any program over the expression API (in particular by building an expression
from an arbitrary product of generators) is sorted, admits no simplification of neighbours and contains no vanishing
power. -/
theorem C05_stored_monomials_canonical_partial [IsDomain S] [CharZero S] [Star S] {M : Nat → ι → Prop} (hM : HalfAlone M)
    {e : Expr (Gen ι) S} (he : Reachable (Allowed M) e) : ∀ p ∈ e.terms, StoredForm p.1 :=
  fun p hp => storedForm_of_canon (he.allCanon (nfGen M hM) (conjOK M) p hp)

/-- **C05** for the constructor alone, without any assumption on the scalars. -/
theorem C05_constructor_partial {M : Nat → ι → Prop} (hM : HalfAlone M) (x : S) (m : List (Gen ι))
    (hm : ∀ g ∈ m, Allowed M g) : ∀ p ∈ (Expr.ofMonomial x m).terms, StoredForm p.1 :=
  fun p hp => storedForm_of_canon (Expr.ac_ofMonomial (nfGen M hM) x m hm p hp)

/-- **C05** canonical monomials are fixed points: storing them again stores exactly them. -/
theorem C05_canonical_fixed_partial {M : Nat → ι → Prop} (hM : HalfAlone M) (x y : S) (hy : y ≠ 0) (m : List (Gen ι))
    (hm : ∀ g ∈ m, Allowed M g) : ∀ p ∈ (Expr.ofMonomial x m).terms, (Expr.ofMonomial y p.1).terms = [(p.1, y)] := by
  intro p hp
  have hc := Expr.ac_ofMonomial (nfGen M hM) x m hm p hp
  simp only [Expr.ofMonomial, if_neg hy]
  rw [normalize_store, emits_of_canon (nfGen M hM) p.1 hc y hy]
  simp [Terms.storeAll, Terms.store, Terms.find?, Terms.emplace]

example : (Expr.ofMonomial (G := Gen Nat) (3 : ℚ) [.fermion false 1, .fermion true 1, .spin 2 .z 0, .spin 2 .plus 0]).terms
    = [([.spin 2 .plus 0], 3/2), ([.fermion true 1, .fermion false 1, .spin 2 .plus 0], -3/2)] := by decide +kernel

/-- **C05 (finding F2)** the proviso on mixed multiplicities is needed: a spin-1/2 to the right of a spin-1 at the same
index is left as a pair that `simplify_prod` would still rewrite once it is in order. -/
theorem C05_F2_counterexample :
    ∃ p ∈ (Expr.ofMonomial (G := Gen Nat) (1 : ℚ) [.spin 3 .z 0, .spin 2 .z 0]).terms, ¬ StoredForm p.1 := by
  have : (Expr.ofMonomial (G := Gen Nat) (1 : ℚ) [.spin 3 .z 0, .spin 2 .z 0]).terms
      = [([.spin 2 .z 0, .spin 3 .z 0], 1)] := by decide +kernel
  rw [this]
  refine ⟨_, List.mem_singleton_self _, fun h => ?_⟩
  have := (h.no_simplification [] _ _ [] rfl).2
  simp [Gen.simplifyProd] at this

end LC
