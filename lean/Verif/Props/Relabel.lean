import Mathlib.Data.Rat.Star
import Mathlib.Data.String.Basic
import Verif.Proof.RelabelSpace
import Verif.Spec.Scalars
/-
C96: the names of the degrees of freedom do not matter, only their order. Renaming all indices by an order-preserving map gives
the same expressions, the same Hilbert spaces, the same linear operators; in particular static and dynamic indices are
interchangeable.
-/
set_option linter.unusedSectionVars false
namespace LC
variable {ι κ S : Type _} [LinearOrder ι] [LinearOrder κ]

/-- **C96** expressions: a program with renamed indices computes the renamed expression, term by term. -/
theorem C96_expressions [CommRing S] [DecidableEq S] [ConstScalar S] [Star S] {f : ι → κ} (hf : StrictMono f)
    (p : ExprProg ι S) : (p.relabel f).run = p.run.relabel f := by
  have hφ := relabel_genHom hf
  have er : ∀ e : Expr (Gen ι) S, e.relabel f = Relabel.renE (Gen.relabel f) e := fun _ => rfl
  induction p with
  | zero => rfl
  | scalar x => exact Relabel.const_ren hφ x
  | monomial x m => exact Relabel.ofMonomial_ren hφ x m
  | cDag i => exact Relabel.ofMonomial_ren hφ (1 : S) [.fermion true i]
  | c i => exact Relabel.ofMonomial_ren hφ (1 : S) [.fermion false i]
  | n i => exact Relabel.ofMonomial_ren hφ (1 : S) [.fermion true i, .fermion false i]
  | aDag i => exact Relabel.ofMonomial_ren hφ (1 : S) [.boson true i]
  | a i => exact Relabel.ofMonomial_ren hφ (1 : S) [.boson false i]
  | spin m c i => exact Relabel.ofMonomial_ren hφ (1 : S) [.spin m c i]
  | add p q hp hq => simp only [ExprProg.relabel, ExprProg.run, hp, hq]; exact Relabel.add_ren hφ _ _
  | sub p q hp hq => simp only [ExprProg.relabel, ExprProg.run, hp, hq]; exact Relabel.sub_ren hφ _ _
  | mul p q hp hq => simp only [ExprProg.relabel, ExprProg.run, hp, hq]; exact Relabel.mul_ren hφ _ _
  | neg p hp => simp only [ExprProg.relabel, ExprProg.run, hp]; exact Relabel.neg_ren hφ _
  | smul x p hp => simp only [ExprProg.relabel, ExprProg.run, hp]; exact Relabel.smulPrefix_ren hφ x _
  | muls p x hp => simp only [ExprProg.relabel, ExprProg.run, hp]; exact Relabel.smulPostfix_ren hφ x _
  | addScalar p x hp => simp only [ExprProg.relabel, ExprProg.run, hp]; exact Relabel.addScalar_ren hφ _ x
  | scalarAdd x p hp => simp only [ExprProg.relabel, ExprProg.run, hp]; exact Relabel.scalarAdd_ren hφ _ x
  | subScalar p x hp => simp only [ExprProg.relabel, ExprProg.run, hp]; exact Relabel.subScalar_ren hφ _ x
  | scalarSub x p hp => simp only [ExprProg.relabel, ExprProg.run, hp]; exact Relabel.scalarSub_ren hφ _ x
  | conj p hp => simp only [ExprProg.relabel, ExprProg.run, hp]; exact Relabel.conj_ren hφ _
  | plusHc p hp =>
    simp only [ExprProg.relabel, ExprProg.run, hp, Expr.plusHc, er, Relabel.conj_ren hφ]; exact Relabel.add_ren hφ _ _
  | minusHc p hp =>
    simp only [ExprProg.relabel, ExprProg.run, hp, Expr.minusHc, er, Relabel.conj_ren hφ]; exact Relabel.sub_ren hφ _ _

/-- **C96** `==` gives the same answers before and after the renaming. -/
theorem C96_equality [CommRing S] [DecidableEq S] [ConstScalar S] [Star S] {f : ι → κ} (hf : StrictMono f)
    (p q : ExprProg ι S) : (p.relabel f).run.eqOp (q.relabel f).run = p.run.eqOp q.run := by
  rw [C96_expressions hf, C96_expressions hf]
  exact Relabel.eqOp_ren (relabel_genHom hf) _ _

/-- **C96** Hilbert spaces: every way of construction accepts or rejects the renamed arguments as it does the original ones (the
exception being the same), and the result is the renamed space: same order of the elementary spaces, same bits, same dimension. -/
theorem C96_spaces {f : ι → κ} (hf : StrictMono f) (l : List (ESpace ι)) (d : Option Nat) (e : Expr (Gen ι) S) :
    HilbertSpace.ofArgs (l.map (ESpace.relabel f)) = (HilbertSpace.ofArgs l).map (HilbertSpace.relabel f) ∧
    HilbertSpace.ofPtrs (l.map (ESpace.relabel f)) = (HilbertSpace.ofPtrs l).map (HilbertSpace.relabel f) ∧
    HilbertSpace.ofMonomials (esConstruct d) ((e.relabel f).terms.map (·.1))
      = (HilbertSpace.ofMonomials (esConstruct d) (e.terms.map (·.1))).map (HilbertSpace.relabel f) := by
  refine ⟨Relabel.ofArgs_ren hf l, Relabel.ofPtrs_ren hf l, ?_⟩
  have h := Relabel.ofMonomials_ren hf d (e.terms.map (·.1))
  rw [← h]
  simp [Expr.relabel, List.map_map, Function.comp_def]

/-- **C96** a renamed Hilbert space answers all queries about the renamed elementary spaces like the original one, and its
basis states are visited in the same order. -/
theorem C96_queries {f : ι → κ} (hf : StrictMono f) (hs hs' : HilbertSpace ι) (es : ESpace ι) (n : Nat) (a : Int) :
    (hs.relabel f).has (es.relabel f) = hs.has es ∧
    (hs.relabel f).index (es.relabel f) = hs.index es ∧
    (hs.relabel f).dimOf (es.relabel f) = hs.dimOf es ∧
    (hs.relabel f).bitRange (es.relabel f) = hs.bitRange es ∧
    (hs.relabel f).basisStateIndex (es.relabel f) n = hs.basisStateIndex es n ∧
    (hs.relabel f).elementarySpaces = hs.elementarySpaces.map (ESpace.relabel f) ∧
    (hs.relabel f).algebraBitRange a = hs.algebraBitRange a ∧ (hs.relabel f).hasAlgebra a = hs.hasAlgebra a ∧
    (hs.relabel f).size = hs.size ∧ (hs.relabel f).dim = hs.dim ∧ (hs.relabel f).vecSize = hs.vecSize ∧
    (hs.relabel f).foreach = hs.foreach ∧ (hs.relabel f).eqOp (hs'.relabel f) = hs.eqOp hs' := by
  refine ⟨Relabel.has_ren hf hs es, Relabel.index_ren hf hs es, Relabel.dimOf_ren hf hs es, Relabel.bitRange_ren hf hs es, ?_,
    ?_, rfl, rfl, ?_, rfl, rfl, rfl, Relabel.eqOp_hs hf hs hs'⟩
  · unfold HilbertSpace.basisStateIndex
    rw [Relabel.bitRange_ren hf hs es]
  · simp [HilbertSpace.elementarySpaces, HilbertSpace.relabel, List.map_map, Function.comp_def]
  · simp [HilbertSpace.size, HilbertSpace.relabel]

/-- **C96** linear operators: for the renamed expression on the renamed space the constructor throws the same exception (about
the renamed generator) or makes *the same* operator, whose action on every state vector is therefore the same. -/
theorem C96_operators [CommRing S] [DecidableEq S] [ConstScalar S] [Star S] {f : ι → κ} (hf : StrictMono f)
    (p : ExprProg ι S) (hs : HilbertSpace ι) :
    (∀ op, LOperator.make p.run hs = .ok op → LOperator.make (p.relabel f).run (hs.relabel f) = .ok op) ∧
    (∀ e, LOperator.make p.run hs = .error e → LOperator.make (p.relabel f).run (hs.relabel f) = .error (e.relabel f)) := by
  rw [C96_expressions hf, Relabel.lop_ren hf]
  constructor <;> intro x hx <;> rw [hx] <;> rfl

/-- **C96** user-defined algebras: any map of generators that respects their virtual functions is respected by the arithmetic of
expressions. -/
theorem C96_user_algebras {G H : Type _} [GenOps G] [GenOps H] [CommRing S] [DecidableEq S] [ConstScalar S] [Star S]
    {φ : G → H} (hφ : GenHom φ) (a b : Expr G S) (x : S) (m : List G) :
    let r : Expr G S → Expr H S := fun e => ⟨e.terms.map fun p => (p.1.map φ, p.2)⟩
    r (a + b) = r a + r b ∧ r (a - b) = r a - r b ∧ r (a * b) = r a * r b ∧ r a.conj = (r a).conj ∧
    r (Expr.ofMonomial x m) = Expr.ofMonomial x (m.map φ) ∧ (r a).eqOp (r b) = a.eqOp b :=
  ⟨(Relabel.add_ren hφ a b).symm, (Relabel.sub_ren hφ a b).symm, (Relabel.mul_ren hφ a b).symm,
    (Relabel.conj_ren hφ a).symm, (Relabel.ofMonomial_ren hφ x m).symm, Relabel.eqOp_ren hφ a b⟩

/-! ### Static and dynamic indices -/

/-- **C96** a static tuple of integers and strings and the dynamic index sequence made of the same values compare alike. -/
theorem C96_static_dynamic {α β : Type} [LinearOrder α] [LinearOrder β] (sig : List Bool) (t u : StaticTuple α β sig) :
    (StaticTuple.lt sig t u = DynIndices.ltOp ⟨StaticTuple.toDyn sig t⟩ ⟨StaticTuple.toDyn sig u⟩) ∧
    (t = u ↔ DynIndices.eqOp (⟨StaticTuple.toDyn sig t⟩ : DynIndices α β) ⟨StaticTuple.toDyn sig u⟩ = true) := by
  have len : ∀ (sig : List Bool) (t : StaticTuple α β sig), (StaticTuple.toDyn sig t).length = sig.length := by
    intro sig
    induction sig with
    | nil => intro t; rfl
    | cons b sig ih => intro t; cases b <;> simp [StaticTuple.toDyn, ih]
  have hlt : ∀ (sig : List Bool) (t u : StaticTuple α β sig),
      StaticTuple.lt sig t u = DynIndices.vecLt (StaticTuple.toDyn sig t) (StaticTuple.toDyn sig u) := by
    intro sig
    induction sig with
    | nil => intro t u; rfl
    | cons b sig ih =>
      intro t u
      cases b <;> obtain ⟨t1, t2⟩ := t <;> obtain ⟨u1, u2⟩ := u <;>
      · simp only [StaticTuple.lt, StaticTuple.toDyn, tupleLt, DynIndices.vecLt, DynIndex.ltOp, ih]
        by_cases h1 : t1 < u1
        · simp [h1]
        · by_cases h2 : u1 < t1 <;> simp [h1, h2]
  have heq : ∀ (sig : List Bool) (t u : StaticTuple α β sig),
      t = u ↔ StaticTuple.toDyn sig t = StaticTuple.toDyn sig u := by
    intro sig
    induction sig with
    | nil => intro t u; exact ⟨fun _ => rfl, fun _ => rfl⟩
    | cons b sig ih =>
      intro t u
      cases b <;> obtain ⟨t1, t2⟩ := t <;> obtain ⟨u1, u2⟩ := u <;>
      · refine Iff.trans Prod.mk_inj ?_
        simp only [StaticTuple.toDyn, List.cons.injEq, ← ih, DynIndex.int.injEq, DynIndex.str.injEq]
  constructor
  · rw [hlt]
    simp [DynIndices.ltOp, len]
  · rw [DynIndices.eqOp_iff, DynIndices.mk.injEq]
    exact heq sig t u

/-- **C96** hence programs using static tuples and programs using the corresponding dynamic indices compute the same expressions
and the same operators (for every linear order whose `<` is the tuple comparison). -/
theorem C96_static_programs {α β : Type} [LinearOrder α] [LinearOrder β] (sig : List Bool)
    [LinearOrder (StaticTuple α β sig)] (hlt : ∀ t u : StaticTuple α β sig, t < u ↔ StaticTuple.lt sig t u = true)
    [CommRing S] [DecidableEq S] [ConstScalar S] [Star S] (p : ExprProg (StaticTuple α β sig) S)
    (hs : HilbertSpace (StaticTuple α β sig)) :
    let toDyn : StaticTuple α β sig → DynIndices α β := fun t => ⟨StaticTuple.toDyn sig t⟩
    (p.relabel toDyn).run = p.run.relabel toDyn ∧
    (∀ op, LOperator.make p.run hs = .ok op → LOperator.make (p.relabel toDyn).run (hs.relabel toDyn) = .ok op) := by
  intro toDyn
  have hf : StrictMono toDyn := by
    intro t u h
    rw [hlt, (C96_static_dynamic sig t u).1] at h
    exact h
  exact ⟨C96_expressions hf p, (C96_operators hf p hs).1⟩

/-- Such an order exists for every signature. -/
example (sig : List Bool) : ∃ _ : LinearOrder (StaticTuple ℤ String sig),
    ∀ t u : StaticTuple ℤ String sig, t < u ↔ StaticTuple.lt sig t u = true := by
  have hinj : Function.Injective fun t : StaticTuple ℤ String sig => (⟨StaticTuple.toDyn sig t⟩ : DynIndices ℤ String) := by
    intro t u h
    rw [(C96_static_dynamic sig t u).2, DynIndices.eqOp_iff]
    exact h
  refine ⟨LinearOrder.lift' (fun t => (⟨StaticTuple.toDyn sig t⟩ : DynIndices ℤ String)) hinj, fun t u => ?_⟩
  rw [(C96_static_dynamic sig t u).1]
  exact Iff.rfl

/-! ### The hypotheses can be met, and the order matters -/

/-- Moving a chain of sites: `c†(1) c(0) + hc` with sites shifted by 10. -/
example : StrictMono (fun i : ℤ => i + 10) ∧
    ((ExprProg.plusHc (.mul (.cDag 1) (.c 0)) : ExprProg ℤ ℚ).relabel (fun i : ℤ => i + 10)).run.terms
      = [([.fermion true 10, .fermion false 11], 1), ([.fermion true 11, .fermion false 10], 1)] :=
  ⟨fun _ _ h => Int.add_lt_add_right h 10, by decide +kernel⟩

/-- A renaming that does not preserve the order changes signs: `c†(1) c†(0)` with `1` and `0` exchanged. -/
example :
    let f : ℤ → ℤ := fun i => 1 - i
    let p : ExprProg ℤ ℚ := .mul (.cDag 1) (.cDag 0)
    (p.relabel f).run.terms = [([.fermion true 0, .fermion true 1], 1)] ∧
    (p.run.relabel f).terms = [([.fermion true 1, .fermion true 0], -1)] := by
  decide +kernel

end LC
