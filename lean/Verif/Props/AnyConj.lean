import Verif.Proof.AnyFixpoint
import Verif.Spec.CTypes
import Verif.Props.AnyScalar
/-
C67, C68: Hermitian conjugation and multiplication by constants for any scalar type.
-/
set_option linter.unusedSectionVars false
set_option linter.unusedSimpArgs false
namespace LC
open Terms

universe u
variable {ι : Type _} {S : Type u} [LinearOrder ι] [ScalarOps S]

/-- Storing a list of monomials, all different and not yet present, adds exactly these monomials. -/
theorem Any.mem_storeAll_fresh {G : Type _} [GenOps G] [LawfulGen G] (l : List (List G × S)) (t : Terms G S)
    (hs : t.Sorted) (hn : (l.map Prod.fst).Nodup) (hd : ∀ p ∈ l, ∀ q ∈ t, q.1 ≠ p.1) (k : List G) (w : S) :
    (k, w) ∈ Any.storeAll l t ↔ (k, w) ∈ t ∨ (k, w) ∈ l := by
  induction l generalizing t with
  | nil => simp [Any.storeAll]
  | cons p l ih =>
    have hnone : t.find? p.1 = none := find?_none_of_not_mem (hd p (by simp))
    have e : Any.store p.1 p.2 t = t.emplace p.1 p.2 := by simp only [Any.store, hnone]
    have hs' : (t.emplace p.1 p.2).Sorted := sorted_emplace hs
    have hmem : ∀ k w, (k, w) ∈ t.emplace p.1 p.2 ↔ (k, w) ∈ t ∨ (k, w) = p := by
      intro k w
      rw [← find?_iff hs', ← find?_iff hs]
      by_cases hk : k = p.1
      · subst hk
        rw [find?_emplace_self hnone, hnone]
        constructor
        · intro h; injection h with h; right; exact Prod.ext rfl h.symm
        · rintro (h | h)
          · cases h
          · rw [← h]
      · rw [find?_emplace_ne hs hk]
        constructor
        · exact Or.inl
        · rintro (h | h)
          · exact h
          · exact absurd (congrArg Prod.fst h) hk
    simp only [List.map_cons, List.nodup_cons] at hn
    have := ih (t.emplace p.1 p.2) hs' hn.2 (by
      intro q hq r hr
      rcases mem_emplace hr with h | h
      · intro he; subst h; exact hn.1 (List.mem_map.2 ⟨q, hq, he.symm⟩)
      · exact hd q (by simp [hq]) r h)
    simp only [Any.storeAll, List.foldl_cons, e] at this ⊢
    rw [this, hmem, List.mem_cons]
    tauto

/-! ### C68 -/

theorem Any.nodup_keys {G : Type _} [GenOps G] [LawfulGen G] {S : Type _} {t : Terms G S} (h : t.Sorted) :
    (t.map Prod.fst).Nodup := by
  have : (t.map Prod.fst).Pairwise (fun k₁ k₂ => monLt k₁ k₂ = true) := by rw [List.pairwise_map]; exact h
  refine this.imp ?_
  intro a b hab heq
  subst heq
  simp [monLt_irrefl] at hab

open Classical in
/-- **C68** The product of the constant expression `x` and an expression, for any scalar type: every coefficient is
multiplied by `x` (once), but a monomial of two or more generators whose new coefficient is negligible is dropped. -/
theorem C68_constant_times {M : Nat → ι → Prop} (hM : HalfAlone M) {a : Expr (Gen ι) S}
    (ha : Any.Reachable (Allowed M) a) (x : S) (hx : ScalarOps.isZero x = false) (k : List (Gen ι)) (w : S) :
    ((k, w) ∈ (Any.mulAssign (Any.const x) a).terms ↔
      ∃ v, (k, v) ∈ a.terms ∧ w = ScalarOps.mul x v ∧ (2 ≤ k.length → ScalarOps.isZero w = false)) ∧
    ((k, w) ∈ (Any.mulAssign a (Any.const x)).terms ↔
      ∃ v, (k, v) ∈ a.terms ∧ w = ScalarOps.mul v x ∧ (2 ≤ k.length → ScalarOps.isZero w = false)) := by
  have hg := Any.good_reachable (Any.monInv_canon (nfGen M hM)) (conjOK M).mem ha
  have key : ∀ f : S → S, ∀ t : Terms (Gen ι) S, t.Sorted → (∀ p ∈ t, CanonMon (Allowed M) p.1) →
      ((k, w) ∈ Any.storeAll (t.flatMap fun p => Any.emits p.1 (f p.2)) [] ↔
        ∃ v, (k, v) ∈ t ∧ w = f v ∧ (2 ≤ k.length → ScalarOps.isZero w = false)) := by
    intro f t hs hc
    have e : (t.flatMap fun p => Any.emits p.1 (f p.2))
        = (t.filter fun p => decide (2 ≤ p.1.length → ScalarOps.isZero (f p.2) = false)).map fun p => (p.1, f p.2) := by
      clear hs
      induction t with
      | nil => rfl
      | cons p t ih =>
        rw [List.flatMap_cons, ih (fun q hq => hc q (by simp [hq])), List.filter_cons]
        by_cases h : 2 ≤ p.1.length → ScalarOps.isZero (f p.2) = false
        · rw [if_pos (decide_eq_true h), Any.emits_of_canon (nfGen M hM) p.1 (hc p (by simp)) _ h]; rfl
        · rw [if_neg (fun hh => h (of_decide_eq_true hh))]
          push Not at h
          rw [Any.emits_of_canon_drop p.1 (hc p (by simp)) _ h.1 (by simpa using h.2)]; rfl
    rw [e, Any.mem_storeAll_fresh _ _ List.Pairwise.nil]
    · simp only [List.not_mem_nil, false_or, List.mem_map, List.mem_filter, decide_eq_true_eq, Prod.mk.injEq]
      constructor
      · rintro ⟨p, ⟨hp, h2⟩, rfl, rfl⟩; exact ⟨p.2, hp, rfl, h2⟩
      · rintro ⟨v, hv, rfl, h2⟩; exact ⟨(k, v), ⟨hv, h2⟩, rfl, rfl⟩
    · rw [List.map_map]
      exact (Any.nodup_keys hs).sublist ((List.filter_sublist ..).map _)
    · simp
  constructor
  · rw [Any.mulAssign_eq]
    have : Any.mulLog (Any.const x : Expr (Gen ι) S).terms a.terms
        = a.terms.flatMap fun p => Any.emits p.1 (ScalarOps.mul x p.2) := by
      simp [Any.mulLog, Any.const, hx]
    rw [this]
    exact key _ _ hg.sorted hg.canon
  · rw [Any.mulAssign_eq]
    have : Any.mulLog a.terms (Any.const x : Expr (Gen ι) S).terms
        = a.terms.flatMap fun p => Any.emits p.1 (ScalarOps.mul p.2 x) := by
      simp [Any.mulLog, Any.const, hx]
    rw [this]
    exact key (fun v => ScalarOps.mul v x) _ hg.sorted hg.canon

/-- **C68** Multiplying an expression by a scalar is the same as multiplying it by the constant expression, for any scalar
type, as long as no product of the scalar and a coefficient is negligible. -/
theorem C68_scalar_vs_constant_partial {M : Nat → ι → Prop} (hM : HalfAlone M) {a : Expr (Gen ι) S}
    (ha : Any.Reachable (Allowed M) a) (x : S) :
    ((∀ p ∈ a.terms, ScalarOps.isZero (ScalarOps.mul x p.2) = false) →
      Any.mulAssign (Any.const x) a = Any.smulPrefix x a) ∧
    ((∀ p ∈ a.terms, ScalarOps.isZero (ScalarOps.mul p.2 x) = false) →
      Any.mulAssign a (Any.const x) = Any.smulPostfix a x) := by
  have hg := Any.good_reachable (Any.monInv_canon (nfGen M hM)) (conjOK M).mem ha
  have hext : ∀ e e' : Expr (Gen ι) S, e.terms.Sorted → e'.terms.Sorted →
      (∀ k w, (k, w) ∈ e.terms ↔ (k, w) ∈ e'.terms) → e = e' := by
    intro e e' h1 h2 h
    refine Expr.ext (ext_find? h1 h2 fun k => Option.ext fun w => ?_)
    rw [find?_iff h1, find?_iff h2]; exact h k w
  have hsort : ∀ a b : Expr (Gen ι) S, (Any.mulAssign a b).terms.Sorted := by
    intro a b; rw [Any.mulAssign_eq, Any.storeAll_updAll]; exact sorted_updAll _ _ _ List.Pairwise.nil
  constructor
  · intro h
    by_cases hx : ScalarOps.isZero x = true
    · simp [Any.smulPrefix, Any.const, hx, Any.mulAssign]
    · have hx : ScalarOps.isZero x = false := by simpa using hx
      refine hext _ _ (hsort _ _) ?_ fun k w => ?_
      · simp only [Any.smulPrefix, hx, Bool.false_eq_true, if_false]; exact sorted_mapV _ hg.sorted
      · rw [(C68_constant_times hM ha x hx k w).1]
        simp only [Any.smulPrefix, hx, Bool.false_eq_true, if_false, List.mem_map, Prod.mk.injEq, Prod.exists]
        constructor
        · rintro ⟨v, hv, rfl, _⟩; exact ⟨k, v, hv, rfl, rfl⟩
        · rintro ⟨k', v, hv, rfl, rfl⟩; exact ⟨v, hv, rfl, fun _ => h _ hv⟩
  · intro h
    by_cases hx : ScalarOps.isZero x = true
    · simp only [Any.smulPostfix, Any.const, hx, if_true, Any.mulAssign, List.foldl_nil]
      congr 1
      induction a.terms with
      | nil => rfl
      | cons p t ih => simp
    · have hx : ScalarOps.isZero x = false := by simpa using hx
      refine hext _ _ (hsort _ _) ?_ fun k w => ?_
      · simp only [Any.smulPostfix, hx, Bool.false_eq_true, if_false]
        exact sorted_mapV (fun v => ScalarOps.mul v x) hg.sorted
      · rw [(C68_constant_times hM ha x hx k w).2]
        simp only [Any.smulPostfix, hx, Bool.false_eq_true, if_false, List.mem_map, Prod.mk.injEq, Prod.exists]
        constructor
        · rintro ⟨v, hv, rfl, _⟩; exact ⟨k, v, hv, rfl, rfl⟩
        · rintro ⟨k', v, hv, rfl, rfl⟩; exact ⟨v, hv, rfl, fun _ => h _ hv⟩

/-! ### C67 -/

/-- Hermitian conjugate of a fermionic or bosonic generator. -/
def dagger : Gen ι → Gen ι
  | .fermion d i => .fermion (!d) i
  | .boson d i => .boson (!d) i
  | g => g

/-- Hermitian conjugate of a product: the conjugated factors in the reverse order. -/
def daggerMon (m : List (Gen ι)) : List (Gen ι) := (m.map dagger).reverse

/-- All factors are fermionic operators, or all factors are bosonic operators. -/
def OneKind (m : List (Gen ι)) : Prop :=
  (∀ g ∈ m, ∃ d i, g = .fermion d i) ∨ (∀ g ∈ m, ∃ d i, g = .boson d i)

theorem dagger_dagger (g : Gen ι) : dagger (dagger g) = g := by cases g <;> simp [dagger]

theorem daggerMon_daggerMon (m : List (Gen ι)) : daggerMon (daggerMon m) = m := by
  simp [daggerMon, List.map_reverse, List.map_map, Function.comp_def, dagger_dagger]

theorem okPair_dagger_fermion (d e : Bool) (i j : ι) (h : OKPair (Gen.fermion d i) (Gen.fermion e j)) :
    OKPair (dagger (Gen.fermion e j)) (dagger (Gen.fermion d i)) := by
  simp only [OKPair, GenOps.gt, GenOps.simplifyProd, Gen.gtOp, Gen.greater, Gen.simplifyProd, Gen.eqOp, Gen.equal, dagger,
    Gen.algebraId] at h ⊢
  have e1 : (i = j) ↔ (j = i) := eq_comm
  cases d <;> cases e <;> simp_all

theorem okPair_dagger_boson (d e : Bool) (i j : ι) (h : OKPair (Gen.boson d i) (Gen.boson e j)) :
    OKPair (dagger (Gen.boson e j)) (dagger (Gen.boson d i)) := by
  simp only [OKPair, GenOps.gt, GenOps.simplifyProd, Gen.gtOp, Gen.greater, Gen.simplifyProd, Gen.eqOp, dagger, Gen.algebraId] at h ⊢
  cases d <;> cases e <;> simp_all [eq_comm]

theorem canon_daggerMon {P : Gen ι → Prop} {M : Nat → ι → Prop} {m : List (Gen ι)} (hc : CanonMon P m) (hk : OneKind m) :
    CanonMon (Allowed M) (daggerMon m) := by
  have hmem : ∀ g ∈ daggerMon m, (∃ d i, g = Gen.fermion d i) ∨ ∃ d i, g = Gen.boson d i := by
    intro g hg
    simp only [daggerMon, List.mem_reverse, List.mem_map] at hg
    obtain ⟨x, hx, rfl⟩ := hg
    rcases hk with h | h
    · obtain ⟨d, i, rfl⟩ := h x hx; exact .inl ⟨_, _, rfl⟩
    · obtain ⟨d, i, rfl⟩ := h x hx; exact .inr ⟨_, _, rfl⟩
  refine ⟨?_, ?_, ?_⟩
  · intro g hg
    rcases hmem g hg with ⟨d, i, rfl⟩ | ⟨d, i, rfl⟩ <;> trivial
  · rw [daggerMon, List.isChain_reverse, List.isChain_map]
    have := hc.chain
    clear hc hmem
    induction m with
    | nil => simp
    | cons a m ih =>
      cases m with
      | nil => simp
      | cons b m =>
        rw [List.isChain_cons_cons] at this ⊢
        refine ⟨?_, ih (hk.imp (fun h g hg => h g (by simp [hg])) (fun h g hg => h g (by simp [hg]))) this.2⟩
        rcases hk with h | h
        · obtain ⟨d, i, rfl⟩ := h a (by simp)
          obtain ⟨e, j, rfl⟩ := h b (by simp)
          exact okPair_dagger_fermion _ _ _ _ this.1
        · obtain ⟨d, i, rfl⟩ := h a (by simp)
          obtain ⟨e, j, rfl⟩ := h b (by simp)
          exact okPair_dagger_boson _ _ _ _ this.1
  · intro g hg p _ _
    rcases hmem g hg with ⟨d, i, rfl⟩ | ⟨d, i, rfl⟩ <;> rfl

theorem canon_prefix {P : Gen ι → Prop} {m n : List (Gen ι)} (h : CanonMon P (m ++ n)) : CanonMon P m := by
  refine ⟨fun g hg => h.mem g (by simp [hg]), (List.isChain_append.1 h.chain).1, fun g hg p hp hc => ?_⟩
  exact h.pow g (by simp [hg]) p hp (by rw [List.countP_append]; omega)

/-- The number 1 of the scalar type (`make_const(1)`). -/
def scalarOne : S := ScalarOps.makeConst (.integer 1)

theorem conj_contribution (h1 : ScalarOps.isZero (scalarOne : S) = false) (c : S)
    (hc1 : ScalarOps.mul c (scalarOne : S) = c) (hcz : ScalarOps.isZero c = false) (l w : List (Gen ι))
    (hl : ∀ g ∈ l, GenOps.conj g = ⟨.integer 0, [(dagger g, .integer 1)]⟩)
    (hcan : CanonMon (Allowed fun _ _ => False) (w ++ l.map dagger)) :
    l.foldl (fun e g => Any.mulAssign e (Any.ofLinFun (GenOps.conj g))) (⟨[(w, c)]⟩ : Expr (Gen ι) S)
      = ⟨[(w ++ l.map dagger, c)]⟩ := by
  induction l generalizing w with
  | nil => simp
  | cons g l ih =>
    have hN : NFGen (Allowed fun (_ : Nat) (_ : ι) => False) := nfGen _ (fun _ _ h => h.elim)
    have hcan' : CanonMon (Allowed fun _ _ => False) ((w ++ [dagger g]) ++ l.map dagger) := by simpa using hcan
    have hg : (Any.ofLinFun (GenOps.conj g) : Expr (Gen ι) S) = ⟨[([dagger g], scalarOne)]⟩ := by
      have h1' : ScalarOps.isZero (ScalarOps.makeConst (.integer 1) : S) = false := h1
      rw [hl g (by simp)]
      simp only [Any.ofLinFun, List.foldl_cons, List.foldl_nil, VarNumber.isZero, h1']
      simp only [decide_true, if_true, Bool.false_eq_true, if_false, Any.ofMonomial, h1']
      have : Any.normalize Any.store [dagger g] (ScalarOps.makeConst (.integer 1) : S) []
          = [([dagger g], ScalarOps.makeConst (.integer 1))] := by
        rw [Any.normalize_of_canon hN _ [dagger g] ⟨fun x hx => hcan.mem x (by
          simp only [List.mem_singleton] at hx; subst hx; simp), by simp, fun x hx p hp hcnt => by
            have := List.countP_le_length (p := GenOps.eq x) (l := [dagger g])
            simp only [List.length_singleton] at this; omega⟩ _ (by simp)]
        rfl
      rw [this]; rfl
    have hm : Any.mulAssign (⟨[(w, c)]⟩ : Expr (Gen ι) S) (Any.ofLinFun (GenOps.conj g)) = ⟨[(w ++ [dagger g], c)]⟩ := by
      rw [hg]
      simp only [Any.mulAssign, List.foldl_cons, List.foldl_nil, hc1]
      rw [Any.normalize_of_canon hN _ _ (canon_prefix hcan') _ (fun _ => hcz)]
      rfl
    rw [List.foldl_cons, hm, ih _ (fun x hx => hl x (by simp [hx])) hcan']
    simp

/-- **C67** Hermitian conjugate of a fermionic, bosonic expression for any scalar type in which `x * 1` is `x`: exactly
the conjugated monomials with the conjugated coefficients; provided no conjugated coefficient is negligible (finding F11:
otherwise the statement is false). -/
theorem C67_conj_partial {M : Nat → ι → Prop} (hM : HalfAlone M) {a : Expr (Gen ι) S}
    (ha : Any.Reachable (Allowed M) a) (hk : ∀ p ∈ a.terms, OneKind p.1)
    (h1 : ScalarOps.isZero (scalarOne : S) = false)
    (hmul : ∀ p ∈ a.terms, ScalarOps.mul (ScalarOps.conj p.2) (scalarOne : S) = ScalarOps.conj p.2)
    (hz : ∀ p ∈ a.terms, ScalarOps.isZero (ScalarOps.conj p.2) = false) (k : List (Gen ι)) (w : S) :
    (k, w) ∈ (Any.conj a).terms ↔ ∃ v, (daggerMon k, v) ∈ a.terms ∧ w = ScalarOps.conj v := by
  have hg := Any.good_reachable (Any.monInv_canon (nfGen M hM)) (conjOK M).mem ha
  have key : ∀ (l : Terms (Gen ι) S) (s : Expr (Gen ι) S × Expr (Gen ι) S), (∀ p ∈ l, p ∈ a.terms) →
      (l.foldl (fun (s : Expr (Gen ι) S × Expr (Gen ι) S) m =>
        let co := ScalarOps.conj m.2
        let contrib :=
          if ScalarOps.isZero co then s.2
          else m.1.reverse.foldl (fun e g => Any.mulAssign e (Any.ofLinFun (GenOps.conj g))) (Any.const co)
        (Any.addAssign s.1 contrib, contrib)) s).1.terms
      = Any.storeAll (l.map fun p => (daggerMon p.1, ScalarOps.conj p.2)) s.1.terms := by
    intro l
    induction l with
    | nil => intro s _; rfl
    | cons p l ih =>
      intro s hl
      have hp := hl p (by simp)
      have hcontrib : p.1.reverse.foldl (fun e g => Any.mulAssign e (Any.ofLinFun (GenOps.conj g)))
          (Any.const (ScalarOps.conj p.2)) = (⟨[(daggerMon p.1, ScalarOps.conj p.2)]⟩ : Expr (Gen ι) S) := by
        have hconst : (Any.const (ScalarOps.conj p.2) : Expr (Gen ι) S) = ⟨[([], ScalarOps.conj p.2)]⟩ := by
          simp [Any.const, hz p hp]
        have hcd := canon_daggerMon (M := fun _ _ => False) (hg.canon p hp) (hk p hp)
        rw [hconst, conj_contribution h1 _ (hmul p hp) (hz p hp)]
        · simp [daggerMon, List.map_reverse]
        · intro g hg'
          rcases hk p hp with h | h
          · obtain ⟨d, i, rfl⟩ := h g (by simpa using hg'); rfl
          · obtain ⟨d, i, rfl⟩ := h g (by simpa using hg'); rfl
        · simpa [daggerMon, List.map_reverse] using hcd
      rw [List.foldl_cons, ih _ (fun q hq => hl q (by simp [hq]))]
      simp only [hz p hp, Bool.false_eq_true, if_false, hcontrib, List.map_cons, Any.storeAll, List.foldl_cons]
      rfl
  have hterms : (Any.conj a).terms = Any.storeAll (a.terms.map fun p => (daggerMon p.1, ScalarOps.conj p.2)) [] := by
    rw [Any.conj, key a.terms _ (fun _ h => h)]
  rw [hterms, Any.mem_storeAll_fresh _ _ List.Pairwise.nil]
  · simp only [List.not_mem_nil, false_or, List.mem_map, Prod.mk.injEq, Prod.exists]
    constructor
    · rintro ⟨k', v, hv, rfl, rfl⟩; exact ⟨v, by rwa [daggerMon_daggerMon], rfl⟩
    · rintro ⟨v, hv, rfl⟩; exact ⟨_, v, hv, daggerMon_daggerMon k, rfl⟩
  · rw [List.map_map]
    have hn := Any.nodup_keys hg.sorted
    have : (fun p : List (Gen ι) × S => daggerMon p.1) = daggerMon ∘ Prod.fst := rfl
    rw [show (Prod.fst ∘ fun p : List (Gen ι) × S => (daggerMon p.1, ScalarOps.conj p.2)) = daggerMon ∘ Prod.fst from rfl,
      ← List.map_map]
    exact hn.map (fun x y h => by rw [← daggerMon_daggerMon x, h, daggerMon_daggerMon])
  · simp

/-! ### Examples and counterexamples with `double` coefficients -/

/-- `(c†_0 + 1e-8 c†_1) * 1e-8` with `double` coefficients: 1e-16 is below the tolerance 2.2e-14. -/
def tinyExpr : Expr (Gen Nat) (CType.El .double) :=
  Any.smulPostfix (Any.addAssign (Any.ofMonomial (1 : ℚ) [Gen.fermion true 0])
    (Any.ofMonomial (1 / 10 ^ 8 : ℚ) [Gen.fermion true 1])) (1 / 10 ^ 8 : ℚ)

theorem tinyExpr_reachable : Any.Reachable (Allowed fun _ _ => False) tinyExpr :=
  .smulPostfix _ (.add (.ofMonomial _ _ (by simp [Allowed])) (.ofMonomial _ _ (by simp [Allowed])))

/-- **F11** (C67) Without the proviso: the conjugate of `1e-8 c†_0 + 1e-16 c†_1` is computed as `2e-8 c_0`, because the
contribution of the previous monomial is added again for the negligible coefficient. -/
theorem C67_F11_stale_contribution :
    tinyExpr.terms = [([Gen.fermion true 0], (1 / 10 ^ 8 : ℚ)), ([Gen.fermion true 1], (1 / 10 ^ 16 : ℚ))] ∧
    (Any.conj tinyExpr).terms = [([Gen.fermion false 0], (2 / 10 ^ 8 : ℚ))] := by
  refine ⟨?_, ?_⟩ <;> decide +kernel

/-- **F20** (C68) Without the proviso: whether a negligible coefficient survives multiplication depends on how one
multiplies and on the number of generators in the monomial. For `e = 1e-8 c†_0 c_0 + 1e-8 c†_0`, `1e-8 * e` keeps both
monomials, `expression(1e-8) * e` keeps only `c†_0`. -/
theorem C68_F20_negligible_depends_on_length :
    let e : Expr (Gen Nat) (CType.El .double) :=
      Any.addAssign (Any.ofMonomial (1 / 10 ^ 8 : ℚ) [Gen.fermion true 0, Gen.fermion false 0])
        (Any.ofMonomial (1 / 10 ^ 8 : ℚ) [Gen.fermion true 0])
    (Any.smulPrefix (S := CType.El .double) (1 / 10 ^ 8 : ℚ) e).terms
      = [([Gen.fermion true 0], (1 / 10 ^ 16 : ℚ)), ([Gen.fermion true 0, Gen.fermion false 0], (1 / 10 ^ 16 : ℚ))] ∧
    (Any.mulAssign (S := CType.El .double) (Any.const (S := CType.El .double) (1 / 10 ^ 8 : ℚ)) e).terms = [([Gen.fermion true 0], (1 / 10 ^ 16 : ℚ))] := by
  refine ⟨?_, ?_⟩ <;> decide +kernel

/-- Non-vacuity of C67, C68: `e = 2 c†_0 c†_1 c_3 + 0.5 a†_1 a_2`, conjugated and multiplied by 3. -/
def twoKinds : Expr (Gen Nat) (CType.El .double) :=
  Any.addAssign (Any.ofMonomial (2 : ℚ) [Gen.fermion true 0, Gen.fermion true 1, Gen.fermion false 3])
    (Any.ofMonomial (1 / 2 : ℚ) [Gen.boson true 1, Gen.boson false 2])

theorem twoKinds_terms : twoKinds.terms = [([Gen.boson true 1, Gen.boson false 2], (1 / 2 : ℚ)),
    ([Gen.fermion true 0, Gen.fermion true 1, Gen.fermion false 3], (2 : ℚ))] := by decide +kernel

example : Any.Reachable (Allowed fun _ _ => False) twoKinds ∧ HalfAlone (fun _ (_ : Nat) => False) ∧
    (∀ p ∈ twoKinds.terms, OneKind p.1) ∧
    ScalarOps.isZero (scalarOne : CType.El .double) = false ∧
    (∀ p ∈ twoKinds.terms, ScalarOps.mul (ScalarOps.conj p.2) (scalarOne : CType.El .double) = ScalarOps.conj p.2) ∧
    (∀ p ∈ twoKinds.terms, ScalarOps.isZero (ScalarOps.conj p.2) = false) ∧
    (∀ p ∈ twoKinds.terms, ScalarOps.isZero (ScalarOps.mul (3 : ℚ) p.2 : CType.El .double) = false) ∧
    (Any.conj twoKinds).terms = [([Gen.boson true 2, Gen.boson false 1], (1 / 2 : ℚ)),
      ([Gen.fermion true 3, Gen.fermion false 1, Gen.fermion false 0], (2 : ℚ))] := by
  refine ⟨.add (.ofMonomial _ _ (by simp [Allowed])) (.ofMonomial _ _ (by simp [Allowed])), fun _ _ h => h.elim, ?_, ?_, ?_,
    ?_, ?_, ?_⟩
  · rw [twoKinds_terms]; simp [OneKind]
  · decide +kernel
  · rw [twoKinds_terms]; decide +kernel
  · rw [twoKinds_terms]; decide +kernel
  · rw [twoKinds_terms]; decide +kernel
  · decide +kernel

end LC
