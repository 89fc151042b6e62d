import Verif.Proof.Mapper
import Verif.Props.FockProducts
import Verif.Props.CompView
import Verif.Props.Relations
/-
C44, C45: basis mappers.
-/
set_option linter.unusedSectionVars false
namespace LC
open HilbertSpace Expr BasisMapper
variable {H : Type _} [HashImpl H Nat Nat]

/-- **C44** The mapper made from a list of basis states numbers exactly the states in the list from 0 to `size() - 1`;
if the list has no duplicates, a state is mapped to its position. -/
theorem C44_of_list (l : List Nat) : ∃ d, Numbers (ofList l : BasisMapper H).map d {n | n ∈ l} ∧
    (ofList l : BasisMapper H).size = d.length ∧ (l.Nodup → d = l) := by
  obtain ⟨_, d, h1, h2⟩ := emplaceAll_spec (H := H) l UMap.empty [] ∅ UMap.nodup_empty numbers_empty
  rw [List.nil_append, Set.empty_union] at h1
  exact ⟨d, h1, h1.2.2.1, h2⟩

/-- **C44** `inverse_map()` is the inverse of `map()`, for every mapper that numbers a set. -/
theorem C44_inverse (b : BasisMapper H) (hb : b.map.Nodup) (d : List Nat) (s : Set Nat) (h : Numbers b.map d s) :
    (∀ i n, b.inverseMap.find? i = some n ↔ b.map.find? n = some i) ∧ ∀ i, b.inverseMap.find? i = d[i]? := by
  have hmem : ∀ p, p ∈ b.map.items ↔ b.map.find? p.1 = some p.2 := fun p => (UMap.find?_iff hb p.1 p.2).symm
  have hnd : (b.map.items.map Prod.snd).Nodup := by
    have hk : (b.map.items.map Prod.fst).Nodup := hb
    rw [List.Nodup, List.pairwise_map] at hk ⊢
    refine List.Pairwise.imp_of_mem ?_ hk
    intro p q hp hq hne heq
    have e1 := (h.2.2.2 _ _).1 ((hmem p).1 hp)
    have e2 := (h.2.2.2 _ _).1 ((hmem q).1 hq)
    rw [heq, e2] at e1
    exact hne (Option.some.inj e1).symm
  have key : ∀ i n, b.inverseMap.find? i = some n ↔ b.map.find? n = some i := by
    intro i n
    have := (inverse_spec b.map.items (UMap.empty : UMap H Nat Nat) UMap.nodup_empty hnd (fun p _ => by simp [UMap.find?, UMap.empty])).2 i n
    rw [inverseMap, this, hmem]
    simp [UMap.find?, UMap.empty]
  refine ⟨key, fun i => ?_⟩
  ext n
  rw [key, h.2.2.2]

section
variable {V T : Type _} [AddCommMonoid T] [DecidableEq T] [StateVec V T] [LawfulSV V T]

/-- **C44** A view made by a mapper over a state vector with room for `size()` elements behaves as a state vector: its indices are
the mapped basis states, the amplitude of state number `i` is element `i` of the adapted vector, and accesses to other basis
states throw. -/
theorem C44_view (b : BasisMapper H) (hb : b.map.Nodup) (d : List Nat) (s : Set Nat) (h : Numbers b.map d s) (sv : V)
    (hsv : LawfulSV.inv sv) (hdom : ∀ i < b.size, i ∈ LawfulSV.dom sv) :
    LawfulSV.inv (b.makeView sv) ∧ LawfulSV.dom (b.makeView sv) = s ∧
      (∀ i n, d[i]? = some n → LawfulSV.amp (b.makeView sv) n = LawfulSV.amp sv i) ∧
      ∀ n, n ∉ s → ∀ a : T, StateVec.getElement (b.makeView sv) n = .error .outOfRange ∧
        StateVec.updateAdd (b.makeView sv) n a = .error .outOfRange := by
  obtain ⟨h1, h2, h3, h4⟩ := h
  have hmem : ∀ p, p ∈ b.map.items ↔ b.map.find? p.1 = some p.2 := fun p => (UMap.find?_iff hb p.1 p.2).symm
  have hg : ViewOf.Good (b.makeView sv) := by
    refine ⟨hsv, hb, ?_, ?_, ?_, fun _ => rfl⟩
    · intro p hp
      show MappedView.mapIndex _ p.1 = _
      have : (b.makeView sv).map.find? p.1 = some p.2 := (hmem p).1 hp
      rw [MappedView.mapIndex, this]
    · intro p hp q hq hpq
      have e1 := (h4 _ _).1 ((hmem p).1 hp)
      have e2 := (h4 _ _).1 ((hmem q).1 hq)
      rw [hpq, e2] at e1
      exact Prod.ext (Option.some.inj e1).symm hpq
    · intro p hp
      have e1 := (h4 _ _).1 ((hmem p).1 hp)
      refine hdom _ ?_
      rw [BasisMapper.size, h3]
      exact (List.getElem?_eq_some_iff.1 e1).1
  have hdm : ∀ n, n ∈ (ViewOf.states (b.makeView sv)).map Prod.fst ↔ n ∈ s := by
    intro n
    show n ∈ b.map.items.map Prod.fst ↔ _
    rw [← h2]
    constructor
    · intro hn
      obtain ⟨p, hp, rfl⟩ := List.mem_map.1 hn
      exact List.mem_of_getElem? ((h4 _ _).1 ((hmem p).1 hp))
    · intro hn
      obtain ⟨i, hi⟩ := List.mem_iff_getElem?.1 hn
      exact List.mem_map.2 ⟨(n, i), (hmem _).2 ((h4 n i).2 hi), rfl⟩
  refine ⟨hg, ?_, ?_, ?_⟩
  · ext n; exact hdm n
  · intro i n hi
    exact ViewOf.vamp_of_mem hg (p := (n, i)) ((hmem _).2 ((h4 n i).2 hi))
  · intro n hn a
    have : (b.makeView sv).mapIndex n = .error .outOfRange := by
      rw [MappedView.mapIndex]
      have : (b.makeView sv).map.find? n = none := by
        rw [Option.eq_none_iff_forall_not_mem]
        intro i hi
        exact hn ((h2 n).1 (List.mem_of_getElem? ((h4 n i).1 hi)))
      rw [this]
    constructor
    · simp only [StateVec.getElement, this]
    · simp only [StateVec.updateAdd, this]

end

section
variable {ι S H' : Type _} [LinearOrder ι] {hs : HilbertSpace ι} [CommRing S] [DecidableEq S] [ConstScalar S] [ScalarLaws S]
  [IsDomain S] [CharZero S] [Star S] [Algebra ℝ S] [HashImpl H' Nat S] {M : Nat → ι → Prop}

theorem apply_value_stores (hc : Constructed hs) (hpre : PredefinedSpaces hs) {e : Expr (Gen ι) S} {op : LOperator S}
    (hop : LOperator.make e hs = .ok op) (hact : ActsOn hs e) {st : SparseSV H' S} {ψ : Nat → S} (hst : Stores hs st ψ) :
    ∃ st', op.apply st = .ok st' ∧ Stores hs st' (opApply hs e ψ) := by
  have hz : StateVec.setZeros (ZerosLike.zerosLike st) = ZerosLike.zerosLike st := rfl
  obtain ⟨st', h1, h2⟩ := apply_stores hc hpre hop hact hst (dst := ZerosLike.zerosLike st) UMap.nodup_empty
  refine ⟨st', ?_, h2⟩
  rw [LOperator.applyTo, hz] at h1
  exact h1

/-- **C44** The mapper made from an operator numbers exactly the basis states contributing to `O|0>`. -/
theorem C44_of_operator (hM : HalfAlone M) (hc : Constructed hs) (hpre : PredefinedSpaces hs) (e : Expr (Gen ι) S)
    (he : Reachable (InSpace M hs) e) : ∃ op, LOperator.make e hs = .ok op ∧ ∃ b : BasisMapper H,
      ofOperator H' op hs.vecSize = .ok b ∧ b.map.Nodup ∧ ∃ d, Numbers b.map d {t | opApply hs e (vacAmp : Nat → S) t ≠ 0} := by
  obtain ⟨op, hop⟩ := make_ok hc hpre (reach_actsOn hM he)
  obtain ⟨st, h1, h2⟩ := apply_value_stores hc hpre hop (reach_actsOn hM he) (vacuum_stores (H' := H') (S := S) hc hs.vecSize)
  refine ⟨op, hop, _, by rw [ofOperator, h1], ?_⟩
  obtain ⟨h3, d, h4, _⟩ := emplaceAll_spec (H := H) (st.foreach.map Prod.fst) UMap.empty [] ∅ UMap.nodup_empty numbers_empty
  rw [List.nil_append, Set.empty_union] at h4
  have : {n | n ∈ st.foreach.map Prod.fst} = {t | opApply hs e (vacAmp : Nat → S) t ≠ 0} := by ext t; exact h2.mem_foreach t
  rw [this] at h4
  exact ⟨h3, d, h4⟩

/-! ### Lists of operators -/

theorem ops_of_reach (hM : HalfAlone M) (hc : Constructed hs) (hpre : PredefinedSpaces hs) {es : List (Expr (Gen ι) S)}
    (he : ∀ e ∈ es, Reachable (InSpace M hs) e) : ∃ ops, List.Forall₂ (Ops hs) es ops := by
  induction es with
  | nil => exact ⟨[], .nil⟩
  | cons e es ih =>
    obtain ⟨ops, ho⟩ := ih fun a ha => he a (List.mem_cons_of_mem _ ha)
    have hr := reach_actsOn hM (he e List.mem_cons_self)
    obtain ⟨op, hop⟩ := make_ok hc hpre hr
    exact ⟨op :: ops, .cons ⟨hop, hr⟩ ho⟩

/-- **C45** (partial: the factors stand in the order opposite to the documentation, finding F12; see `C45_commuting` for
the cases where that makes no difference.) For a non-empty list of operators and any `N` the mapper numbers exactly the
basis states contributing to `O_M^{n_M} … O_2^{n_2} O_1^{n_1}|0>` with `n_1 + … + n_M = N`. -/
theorem C45_compositions_partial (hM : HalfAlone M) (hc : Constructed hs) (hpre : PredefinedSpaces hs)
    (es : List (Expr (Gen ι) S)) (he : ∀ e ∈ es, Reachable (InSpace M hs) e) (hne : es ≠ []) (N : Nat) :
    ∃ ops, List.Forall₂ (fun e op => LOperator.make e hs = .ok op) es ops ∧ ∃ b : BasisMapper H,
      ofOperators H' ops hs.vecSize N = .ok b ∧ b.map.Nodup ∧ ∃ d, Numbers b.map d (composed hs es N vacAmp) := by
  obtain ⟨ops, ho⟩ := ops_of_reach hM hc hpre he
  refine ⟨ops, ho.imp fun _ _ h => h.make, ?_⟩
  have hlen : ops.length ≠ 0 := by rw [← ho.length_eq]; simpa using hne
  have henum : Enum (UMap.empty : UMap H Nat Nat) ∅ := ⟨UMap.nodup_empty, [], numbers_empty⟩
  by_cases hN : N = 0
  · subst hN
    refine ⟨⟨UMap.empty.emplace 0 0⟩, by rw [ofOperators, if_pos (Or.inl rfl)], ?_⟩
    have e1 := henum.emplaceAll [0]
    have : composed hs es 0 (vacAmp : Nat → S) = ∅ ∪ {n | n ∈ [0]} := by
      ext t
      rw [Set.empty_union, Set.mem_ofPred_eq, List.mem_singleton]
      constructor
      · rintro ⟨ns, h1, h2, h3⟩
        have hz : ∀ x ∈ ns, x = 0 := List.sum_eq_zero_iff.1 h2
        have : ∀ (es : List (Expr (Gen ι) S)) (ns : List Nat), (∀ x ∈ ns, x = 0) → ∀ ψ, powers hs (es.zip ns) ψ = ψ := by
          intro es
          induction es with
          | nil => intro _ _ _; rfl
          | cons e es ih =>
            intro ns hz ψ
            cases ns with
            | nil => rfl
            | cons n ns =>
              rw [List.zip_cons_cons, powers, hz n List.mem_cons_self]
              exact ih ns (fun x hx => hz x (List.mem_cons_of_mem _ hx)) _
        rw [this es ns hz, vacAmp] at h3
        by_contra h
        exact h3 (if_neg h)
      · rintro rfl
        exact composed_zero_self es _ _ (by simp [vacAmp])
    rw [this]
    exact e1
  · obtain ⟨m, h1, h2, d, h3⟩ := compositions_spec (H := H) hc hpre ho UMap.empty ∅ henum (vacuum H' S hs.vecSize) vacAmp
      (vacuum_stores hc _) N
    rw [Set.empty_union] at h3
    exact ⟨⟨m⟩, by rw [ofOperators, if_neg (by rintro (h | h) <;> contradiction), h1], h2, d, h3⟩

theorem powers_smul (l : List (Expr (Gen ι) S × Nat)) (x : S) (ψ : Nat → S) :
    powers hs l (fun k => x * ψ k) = fun k => x * powers hs l ψ k := by
  have one : ∀ (e : Expr (Gen ι) S) (ψ : Nat → S), opApply hs e (fun k => x * ψ k) = fun k => x * opApply hs e ψ k := by
    intro e ψ
    funext t
    have := opApply_linear (hs := hs) e x 0 ψ ψ (fun k => x * ψ k) (fun k => by simp) t
    simpa using this
  have pow : ∀ (e : Expr (Gen ι) S) (n : Nat) (ψ : Nat → S),
      (opApply hs e)^[n] (fun k => x * ψ k) = fun k => x * (opApply hs e)^[n] ψ k := by
    intro e n
    induction n with
    | zero => intro ψ; rfl
    | succ n ih => intro ψ; rw [Function.iterate_succ_apply, one, ih]; rfl
  induction l generalizing ψ with
  | nil => rfl
  | cons p l ih => obtain ⟨e, n⟩ := p; rw [powers, pow, ih]; rfl

theorem pow_commute {a b : Expr (Gen ι) S} (h : CommuteUpTo hs a b) (m n : Nat) : ∃ x : S, x ≠ 0 ∧ ∀ ψ : Nat → S,
    (opApply hs a)^[m] ((opApply hs b)^[n] ψ) = fun k => x * (opApply hs b)^[n] ((opApply hs a)^[m] ψ) k := by
  have sm : ∀ (e : Expr (Gen ι) S) (n : Nat) (x : S) (ψ : Nat → S),
      (opApply hs e)^[n] (fun k => x * ψ k) = fun k => x * (opApply hs e)^[n] ψ k :=
    fun e n x ψ => powers_smul [(e, n)] x ψ
  obtain ⟨x, hx, h⟩ := h
  have step : ∀ m, ∃ y : S, y ≠ 0 ∧ ∀ ψ : Nat → S,
      (opApply hs a)^[m] (opApply hs b ψ) = fun k => y * opApply hs b ((opApply hs a)^[m] ψ) k := by
    intro m
    induction m with
    | zero => exact ⟨1, one_ne_zero, fun ψ => by funext k; simp⟩
    | succ m ih =>
      obtain ⟨y, hy, ih⟩ := ih
      refine ⟨x * y, mul_ne_zero hx hy, fun ψ => ?_⟩
      rw [Function.iterate_succ_apply, h, sm, ih]
      funext k
      rw [mul_assoc, Function.iterate_succ_apply]
  obtain ⟨y, hy, h2⟩ := step m
  induction n with
  | zero => exact ⟨1, one_ne_zero, fun ψ => by funext k; simp⟩
  | succ n ih =>
    obtain ⟨z, hz, ih⟩ := ih
    refine ⟨z * y, mul_ne_zero hz hy, fun ψ => ?_⟩
    rw [Function.iterate_succ_apply, ih, h2, sm]
    funext k
    rw [mul_assoc, Function.iterate_succ_apply]

theorem powers_perm {l l' : List (Expr (Gen ι) S × Nat)} (hp : l.Perm l')
    (hcm : ∀ p ∈ l, ∀ q ∈ l, CommuteUpTo hs p.1 q.1) :
    ∃ x : S, x ≠ 0 ∧ ∀ ψ : Nat → S, powers hs l ψ = fun k => x * powers hs l' ψ k := by
  induction hp with
  | nil => exact ⟨1, one_ne_zero, fun ψ => by funext k; simp⟩
  | cons p _ ih =>
    obtain ⟨x, hx, h⟩ := ih fun a ha b hb => hcm a (List.mem_cons_of_mem _ ha) b (List.mem_cons_of_mem _ hb)
    exact ⟨x, hx, fun ψ => h _⟩
  | swap p q l =>
    obtain ⟨x, hx, h⟩ := pow_commute (hcm p (by simp) q (by simp)) p.2 q.2
    refine ⟨x, hx, fun ψ => ?_⟩
    rw [powers, powers, powers, powers, h, powers_smul]
  | trans h1 _ ih1 ih2 =>
    obtain ⟨x, hx, e1⟩ := ih1 hcm
    obtain ⟨y, hy, e2⟩ := ih2 fun a ha b hb => hcm a (h1.mem_iff.2 ha) b (h1.mem_iff.2 hb)
    refine ⟨x * y, mul_ne_zero hx hy, fun ψ => ?_⟩
    rw [e1, e2]
    funext k
    rw [mul_assoc]

theorem documented_eq (es : List (Expr (Gen ι) S)) (hcm : ∀ a ∈ es, ∀ b ∈ es, CommuteUpTo hs a b) (N : Nat) :
    documented hs es N = composed hs es N vacAmp := by
  ext t
  refine exists_congr fun ns => and_congr_right fun _ => and_congr_right fun _ => ?_
  obtain ⟨x, hx, h⟩ := powers_perm (hs := hs) (List.reverse_perm (es.zip ns)) fun p hp q hq =>
    hcm p.1 (List.of_mem_zip (List.mem_reverse.1 hp)).1 q.1 (List.of_mem_zip (List.mem_reverse.1 hq)).1
  rw [h]
  simp [hx]

/-- **C45** If the operators commute with each other up to non-zero factors, as creation operators do, the mapper numbers exactly
the documented states. -/
theorem C45_commuting (hM : HalfAlone M) (hc : Constructed hs) (hpre : PredefinedSpaces hs)
    (es : List (Expr (Gen ι) S)) (he : ∀ e ∈ es, Reachable (InSpace M hs) e) (hne : es ≠ [])
    (hcm : ∀ a ∈ es, ∀ b ∈ es, CommuteUpTo hs a b) (N : Nat) :
    ∃ ops, List.Forall₂ (fun e op => LOperator.make e hs = .ok op) es ops ∧ ∃ b : BasisMapper H,
      ofOperators H' ops hs.vecSize N = .ok b ∧ b.map.Nodup ∧ ∃ d, Numbers b.map d (documented hs es N) := by
  rw [documented_eq es hcm N]
  exact C45_compositions_partial hM hc hpre es he hne N

/-- The product of two operators on a space without bosonic modes. -/
theorem opApply_mul (hM : HalfAlone M) (hc : Constructed hs) (hpre : PredefinedSpaces hs)
    (hnb : ∀ es ∈ hs.elementarySpaces, es.algebraId ≠ -2)
    {a b : Expr (Gen ι) S} (ha : Reachable (InSpace M hs) a) (hb : Reachable (InSpace M hs) b) (ψ : Nat → S) :
    opApply hs (a * b) ψ = opApply hs a (opApply hs b ψ) := by
  have hst : ∀ k, StaysWithin hs b k := by
    intro k p _ n x _ i hi
    obtain ⟨f, nb, d, hl⟩ := loc_of_has hc hi
    obtain ⟨e, he, hkey, _, _⟩ := hl.mem
    rw [ESpace.key_eq_iff] at hkey
    exact absurd hkey.1 (hnb e (List.mem_map.2 ⟨_, he, rfl⟩))
  funext t
  unfold opApply
  by_cases ht : ValidState hs t
  · rw [if_pos ht, if_pos ht]
    have : ∀ s ∈ basisStates hs, opEl hs a t s • (if ValidState hs s then ∑ k ∈ basisStates hs, opEl hs b s k • ψ k else 0)
        = ∑ k ∈ basisStates hs, (opEl hs a t s * opEl hs b s k) • ψ k := by
      intro s hs'
      rw [if_pos (mem_basisStates.1 hs'), Finset.smul_sum]
      exact Finset.sum_congr rfl fun k _ => (mul_smul _ _ _).symm
    rw [Finset.sum_congr rfl this, Finset.sum_comm]
    refine Finset.sum_congr rfl fun k hk => ?_
    rw [← Finset.sum_smul, opEl_mul hM hc hpre ha hb ht (mem_basisStates.1 hk) (hst k)]
  · rw [if_neg ht, if_neg ht]

/-- **C45** In a space without bosonic modes it suffices that the products of the expressions agree up to non-zero factors. -/
theorem C45_commuting_expressions (hM : HalfAlone M) (hc : Constructed hs) (hpre : PredefinedSpaces hs)
    (hnb : ∀ es ∈ hs.elementarySpaces, es.algebraId ≠ -2)
    (es : List (Expr (Gen ι) S)) (he : ∀ e ∈ es, Reachable (InSpace M hs) e) (hne : es ≠ [])
    (hcm : ∀ a ∈ es, ∀ b ∈ es, ∃ x : S, x ≠ 0 ∧ (a * b).eqOp (x • (b * a)) = true) (N : Nat) :
    ∃ ops, List.Forall₂ (fun e op => LOperator.make e hs = .ok op) es ops ∧ ∃ b : BasisMapper H,
      ofOperators H' ops hs.vecSize N = .ok b ∧ b.map.Nodup ∧ ∃ d, Numbers b.map d (documented hs es N) := by
  refine C45_commuting hM hc hpre es he hne (fun a ha b hb => ?_) N
  obtain ⟨x, hx, h⟩ := hcm a ha b hb
  refine ⟨x, hx, fun ψ => ?_⟩
  rw [eqOp_iff] at h
  rw [← opApply_mul hM hc hpre hnb (he a ha) (he b hb), ← opApply_mul hM hc hpre hnb (he b hb) (he a ha), h]
  funext t
  rw [opApply_smul, smul_eq_mul]

open Factory

/-- **C45** In particular for any list of fermionic creation operators of a space made of fermions (and spins). -/
theorem C45_fermions (hM : HalfAlone M) (hc : Constructed hs) (hpre : PredefinedSpaces hs)
    (hnb : ∀ es ∈ hs.elementarySpaces, es.algebraId ≠ -2) (is : List ι) (hi : ∀ i ∈ is, hs.has (ESpace.fermion i) = true)
    (hne : is ≠ []) (N : Nat) :
    ∃ ops, List.Forall₂ (fun i op => LOperator.make (cDag i : Expr (Gen ι) S) hs = .ok op) is ops ∧ ∃ b : BasisMapper H,
      ofOperators H' ops hs.vecSize N = .ok b ∧ b.map.Nodup ∧
        ∃ d, Numbers b.map d (documented hs (is.map fun i => (cDag i : Expr (Gen ι) S)) N) := by
  have hwf : ∀ i j : ι, (cDag i * cDag j : Expr (Gen ι) S).WF := fun i j => wf2 _ _
  obtain ⟨ops, h1, h2⟩ := C45_commuting_expressions (H := H) (H' := H') hM hc hpre hnb (is.map fun i => (cDag i : Expr (Gen ι) S))
    (fun e he => by
      obtain ⟨i, hi', rfl⟩ := List.mem_map.1 he
      refine .ofMonomial _ _ ?_
      simp only [List.mem_singleton, forall_eq]
      exact ⟨trivial, hi i hi'⟩) (by simpa using hne)
    (fun a ha b hb => by
      obtain ⟨i, _, rfl⟩ := List.mem_map.1 ha
      obtain ⟨j, _, rfl⟩ := List.mem_map.1 hb
      refine ⟨-1, by simp, ?_⟩
      have := (C13_car (S := S) i j).2.2.1
      rw [eqOp_iff] at this ⊢
      refine ext_coeff (hwf i j) (wf_smulPrefix _ (hwf j i)) fun k => ?_
      have h1 := congrArg (fun e => e.coeff k) this
      simp only [coeff_add (hwf i j) (hwf j i), coeff_zero] at h1
      rw [show (-1 : S) • (cDag j * cDag i : Expr (Gen ι) S) = smulPrefix (-1) (cDag j * cDag i) from rfl, coeff_smulPrefix,
        neg_one_mul]
      exact eq_neg_of_add_eq_zero_left h1) N
  exact ⟨ops, List.forall₂_map_left_iff.1 h1, h2⟩

theorem annihilate_vac (i : ι) : opApply hs (c i : Expr (Gen ι) S) (vacAmp : Nat → S) = fun _ => 0 := by
  have hterms : (c i : Expr (Gen ι) S).terms = [([Gen.fermion false i], 1)] := ofMonomial_single_terms _
  funext t
  unfold opApply
  split
  · refine Finset.sum_eq_zero fun k _ => ?_
    by_cases hk : k = 0
    · subst hk
      have hm : matEl hs [Gen.fermion false i] t 0 = 0 := by
        unfold matEl
        have : conf hs 0 (.fermion i) = 0 := by
          unfold conf occ
          split <;> simp
        simp [monAct, genAct, this]
      rw [opEl, hterms]
      simp [hm]
    · simp [vacAmp, hk]
  · rfl

/-- **C45 (finding F12)** The order of the factors matters: for the operators `O_1 = c_i`, `O_2 = c†_i` and `N = 2` the documented set
contains the vacuum, `O_1 O_2|0> = |0>`, but the mapper is empty. -/
theorem C45_F12_operator_order (hM : HalfAlone M) (hc : Constructed hs) (hpre : PredefinedSpaces hs)
    (hnb : ∀ es ∈ hs.elementarySpaces, es.algebraId ≠ -2) (i : ι) (hi : hs.has (ESpace.fermion i) = true) :
    0 ∈ documented hs [(c i : Expr (Gen ι) S), cDag i] 2 ∧
    ∃ op1 op2, LOperator.make (c i : Expr (Gen ι) S) hs = .ok op1 ∧ LOperator.make (cDag i : Expr (Gen ι) S) hs = .ok op2 ∧
      ∃ b : BasisMapper H, ofOperators H' [op1, op2] hs.vecSize 2 = .ok b ∧ b.size = 0 := by
  have hc0 : Reachable (InSpace M hs) (c i : Expr (Gen ι) S) := by
    refine .ofMonomial _ _ ?_
    simp only [List.mem_singleton, forall_eq]
    exact ⟨trivial, hi⟩
  have hd0 : Reachable (InSpace M hs) (cDag i : Expr (Gen ι) S) := by
    refine .ofMonomial _ _ ?_
    simp only [List.mem_singleton, forall_eq]
    exact ⟨trivial, hi⟩
  have hdd : opApply hs (cDag i : Expr (Gen ι) S) (opApply hs (cDag i : Expr (Gen ι) S) (vacAmp : Nat → S)) = fun _ => 0 := by
    rw [← opApply_mul hM hc hpre hnb hd0 hd0]
    have h0 : (cDag i * cDag i : Expr (Gen ι) S) = 0 := by
      have := (C13_car (S := S) i i).2.2.1
      rw [eqOp_iff] at this
      refine ext_coeff (wf2 _ _) wf_zero fun k => ?_
      have h1 := congrArg (fun e => e.coeff k) this
      simp only [coeff_add (wf2 (S := S) _ _) (wf2 _ _), coeff_zero, cDag] at h1
      rw [coeff_zero]
      have h2 : (2 : S) ≠ 0 := two_ne_zero
      rw [← two_mul] at h1
      exact (mul_eq_zero.1 h1).resolve_left h2
    rw [h0]
    funext t
    simp [opApply, opEl, show (0 : Expr (Gen ι) S).terms = [] from rfl]
  constructor
  · refine ⟨[1, 1], rfl, rfl, ?_⟩
    show opApply hs (c i : Expr (Gen ι) S) (opApply hs (cDag i : Expr (Gen ι) S) (vacAmp : Nat → S)) 0 ≠ 0
    rw [← opApply_mul hM hc hpre hnb hc0 hd0]
    have h1 := opApply_add (hs := hs) (c i * cDag i : Expr (Gen ι) S) (cDag i * c i) (vacAmp : Nat → S) 0
    have h2 := (C13_car (S := S) i i).1
    rw [eqOp_iff] at h2
    rw [h2, if_pos rfl, opApply_mul hM hc hpre hnb hd0 hc0, annihilate_vac, opApply_zero, add_zero] at h1
    rw [← h1]
    have hv : ValidState hs 0 := (vacuum_stores (H' := H') (S := S) hc 0).valid 0 (by simp [vacAmp])
    rw [opApply_unit _ hv hv vacAmp fun j => rfl, opEl, show (const (1 : S) : Expr (Gen ι) S).terms = [([], 1)] by
      rw [const, if_neg one_ne_zero]]
    have : matEl hs ([] : List (Gen ι)) 0 0 = 1 := by
      unfold matEl
      exact if_pos ⟨rfl, fun _ _ => rfl⟩
    simp [this]
  · obtain ⟨ops, h1, b, h2, h3, d, h4⟩ := C45_compositions_partial (H := H) (H' := H') hM hc hpre
      [(c i : Expr (Gen ι) S), cDag i] (by
        simp only [List.mem_cons, List.not_mem_nil, or_false, forall_eq_or_imp, forall_eq]
        exact ⟨hc0, hd0⟩) (by simp) 2
    cases h1 with
    | cons a1 h1 =>
      cases h1 with
      | cons a2 h1 =>
        cases h1
        refine ⟨_, _, a1, a2, b, h2, ?_⟩
        have hempty : ∀ t, t ∉ composed hs [(c i : Expr (Gen ι) S), cDag i] 2 vacAmp := by
          rintro t ⟨ns, e1, e2, e3⟩
          obtain ⟨x, y, rfl⟩ : ∃ x y, ns = [x, y] := by
            match ns, e1 with
            | [x, y], _ => exact ⟨x, y, rfl⟩
          have hxy : x + y = 2 := by simpa using e2
          apply e3
          show (opApply hs (cDag i : Expr (Gen ι) S))^[y] ((opApply hs (c i : Expr (Gen ι) S))^[x] vacAmp) t = 0
          cases x with
          | zero =>
            obtain rfl : y = 2 := by omega
            exact congrFun hdd t
          | succ x =>
            rw [Function.iterate_succ_apply, annihilate_vac, Function.iterate_fixed (opApply_zero _),
              Function.iterate_fixed (opApply_zero _)]
        rw [BasisMapper.size, h4.2.2.1, List.length_eq_zero_iff, List.eq_nil_iff_forall_not_mem]
        intro t ht
        exact hempty t ((h4.2.1 t).1 ht)

/-- **C45** For an empty list of operators and `N > 0` the documented set is empty, but the mapper contains the vacuum state. -/
theorem C45_empty_list (N : Nat) (hN : N ≠ 0) : documented hs ([] : List (Expr (Gen ι) S)) N = ∅ ∧
    ∃ b : BasisMapper H, ofOperators H' ([] : List (LOperator S)) hs.vecSize N = .ok b ∧ b.size = 1 := by
  constructor
  · ext t
    simp only [Set.mem_empty_iff_false, iff_false]
    rintro ⟨ns, h1, h2, _⟩
    simp only [List.length_nil, List.length_eq_zero_iff] at h1
    subst h1
    simp at h2; omega
  · refine ⟨⟨UMap.empty.emplace 0 0⟩, by rw [ofOperators, if_pos (Or.inr (by rfl))], ?_⟩
    show (UMap.emplace UMap.empty 0 0).items.length = 1
    rw [items_perm_emplace (by simp [UMap.find?, UMap.empty])]
    rfl

open scoped Classical in
/-- The hypotheses of C44 and C45 are met by fermionic creation operators on three fermionic modes, and by the vacuum state. -/
example : ∃ hs : HilbertSpace Nat, Constructed hs ∧ PredefinedSpaces hs ∧ (∀ es ∈ hs.elementarySpaces, es.algebraId ≠ -2) ∧
    HalfAlone (fun n (_ : Nat) => n = 2) ∧ (∀ i ∈ [0, 1, 2], hs.has (ESpace.fermion i) = true) ∧
    Reachable (S := ℂ) (InSpace (fun n _ => n = 2) hs) (cDag 0 : Expr (Gen Nat) ℂ) := by
  obtain ⟨hs, hof, h1, h2, h3⟩ := smallSpace (l := [ESpace.fermion 0, ESpace.fermion 1, ESpace.fermion 2])
    (by simp only [List.mem_cons, List.not_mem_nil, or_false, forall_eq_or_imp, forall_eq]; exact ⟨wf_fermion _, wf_fermion _, wf_fermion _⟩)
    (by simp only [List.mem_cons, List.not_mem_nil, or_false, forall_eq_or_imp, forall_eq]
        exact ⟨⟨fun _ => ⟨_, rfl⟩, by simp [ESpace.fermion], by simp [ESpace.fermion]⟩,
          ⟨fun _ => ⟨_, rfl⟩, by simp [ESpace.fermion], by simp [ESpace.fermion]⟩,
          ⟨fun _ => ⟨_, rfl⟩, by simp [ESpace.fermion], by simp [ESpace.fermion]⟩⟩)
    (by decide +kernel)
  have facts : ((HilbertSpace.ofArgs [ESpace.fermion 0, ESpace.fermion 1, ESpace.fermion 2]).toOption.map fun hs : HilbertSpace Nat =>
    (hs.has (ESpace.fermion 0) && hs.has (ESpace.fermion 1) && hs.has (ESpace.fermion 2))) = some true := by decide +kernel
  rw [hof] at facts
  simp only [Except.toOption, Option.map_some, Option.some.injEq, Bool.and_eq_true] at facts
  refine ⟨hs, h1, h2, ?_, fun i n _ h => h, ?_, ?_⟩
  · rw [h3]
    simp [ESpace.fermion]
  · simp only [List.mem_cons, List.not_mem_nil, or_false, forall_eq_or_imp, forall_eq]
    exact ⟨facts.1.1, facts.1.2, facts.2⟩
  · refine .ofMonomial _ _ ?_
    simp only [List.mem_singleton, forall_eq]
    exact ⟨trivial, facts.1.1⟩

/-- An implementation of `std::unordered_map` that puts new elements in front. -/
local instance : HashImpl Unit Nat Nat where
  fresh := ()
  insert _ l p := ((), p :: l)
  erase _ _ _ := ()
  copy _ l := ((), l.reverse)
  insert_perm _ _ _ := .refl _
  copy_perm _ l := List.reverse_perm l

/-- A mapper made from a list with a repeated state, its inverse and a view. -/
example : ∃ b : BasisMapper Unit, b = ofList [5, 9, 5, 2] ∧ b.size = 3 ∧ b.map.find? 9 = some 1 ∧ b.map.find? 2 = some 2 ∧
    b.inverseMap.find? 2 = some 2 ∧ b.inverseMap.find? 0 = some 5 ∧
    StateVec.getElement (b.makeView (⟨[10, 20, 30]⟩ : DenseSV Int)) 9 = .ok 20 ∧
    StateVec.foreach (b.makeView (⟨[10, 0, 30]⟩ : DenseSV Int)) = .ok [(2, 30), (5, 10)] := by
  refine ⟨_, rfl, ?_⟩
  decide +kernel

end
end LC
