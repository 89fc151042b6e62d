import Verif.Proof.Faults
import Verif.Props.AnyScalar
import Verif.Props.IntScalar
import Verif.Props.Expression
import Verif.Proof.Laws
/-
C93: expressions after exceptions.
-/
set_option linter.unusedSectionVars false
set_option linter.unusedSimpArgs false
namespace LC
open Terms Flt Expr

section
variable {G S S' : Type _} [GenOps G] [LawfulGen G]

theorem sorted_take {b : Terms G S} (h : b.Sorted) (j : Nat) : Terms.Sorted (b.take j) := h.sublist (List.take_sublist j b)

theorem find?_take {b : Terms G S} (h : b.Sorted) (j : Nat) (k : List G) :
    Terms.find? k (b.take j) = none ∨ Terms.find? k (b.take j) = b.find? k := by
  cases hf : Terms.find? k (b.take j) with
  | none => exact Or.inl rfl
  | some v =>
    have := (find?_iff (sorted_take h j)).1 hf
    exact Or.inr ((find?_iff h).2 (List.mem_of_mem_take this)).symm

/-- Updates by an initial segment. -/
theorem find?_updAll_take (n : S' → S) (u : S → S' → Option S) {b : Terms G S'} (hb : b.Sorted) {a : Terms G S} (ha : a.Sorted)
    (j : Nat) (k : List G) :
    (updAll n u (b.take j) a).find? k = a.find? k ∨ (updAll n u (b.take j) a).find? k = (updAll n u b a).find? k := by
  rw [find?_updAll n u (sorted_take hb j) ha k, find?_updAll n u hb ha k]
  rcases find?_take hb j k with h | h
  · rw [h]; exact Or.inl rfl
  · rw [h]; exact Or.inr rfl

theorem between_of_find? {old new e : Expr G S} (ho : old.terms.Sorted) (hn : new.terms.Sorted) (he : e.terms.Sorted)
    (h : ∀ k, e.terms.find? k = old.terms.find? k ∨ e.terms.find? k = new.terms.find? k) : Between old new e := by
  refine ⟨he, fun k => ?_⟩
  rcases h k with h | h
  · left; intro w; rw [← find?_iff he, ← find?_iff ho, h]
  · right; intro w; rw [← find?_iff he, ← find?_iff hn, h]

theorem between_updAll (n : S' → S) (u : S → S' → Option S) {b : Terms G S'} (hb : b.Sorted) {a : Expr G S} (ha : a.terms.Sorted)
    (j : Nat) : Between a ⟨updAll n u b a.terms⟩ ⟨updAll n u (b.take j) a.terms⟩ := by
  have h1 : (⟨updAll n u b a.terms⟩ : Expr G S).terms.Sorted := sorted_updAll n u b ha
  have h2 : (⟨updAll n u (b.take j) a.terms⟩ : Expr G S).terms.Sorted := sorted_updAll n u (b.take j) ha
  exact between_of_find? ha h1 h2 fun l => find?_updAll_take n u hb ha j l

end

section
variable {G U : Type} {El : U → Type} [GenOps G] [LawfulGen G] [F : ScalarFamily U El] {s t r : U} {P : G → Prop}

theorem quiet_or (o : Nat → Bool) : (∀ n, o n = false) ∨ ∃ n, o n = true := by
  by_cases h : ∃ n, o n = true
  · exact Or.inr h
  · left; intro n
    cases hn : o n with
    | false => rfl
    | true => exact absurd ⟨n, hn⟩ h

/-- **C93** `a += b`, `a -= b`, interrupted by an exception at any point: for every monomial, `a` has either its old coefficient
or the one of the complete sum (difference), and the monomials of `a` are in increasing order without repetition. Without an
exception the result is the sum (difference); and nothing throws by itself. -/
theorem C93_add_sub {a : Expr G (El s)} {b : Expr G (El t)} (ha : MixedReachable P s a) (hb : MixedReachable P t b)
    (o : Nat → Bool) :
    (match runOn (Faults.addAssign (F.asg s t) b) o a with
      | .done e => e = Mixed.addAssign (F.asg s t) a b
      | .threw e => Between a (Mixed.addAssign (F.asg s t) a b) e ∧ ∃ n, o n = true) ∧
    (match runOn (Faults.subAssign (F.asg s t) b) o a with
      | .done e => e = Mixed.subAssign (F.asg s t) a b
      | .threw e => Between a (Mixed.subAssign (F.asg s t) a b) e ∧ ∃ n, o n = true) := by
  have hsa := ha.sortedTerms
  have hsb := hb.sortedTerms
  constructor
  · have h := Faults.addAssign_out (F.asg s t) b o 0 a
    rcases h.1 with ⟨n', e⟩ | ⟨n', k, hk, e⟩
    · simp only [runOn, e]
    · rcases quiet_or o with hq | hq
      · obtain ⟨n'', e''⟩ := h.2 hq
        rw [e''] at e; cases e
      simp only [runOn, e]
      refine ⟨?_, hq⟩
      rw [Mixed.addAssign_eq, Mixed.addAssign_eq]
      exact between_updAll _ _ hsb hsa k
  · have h := Faults.subAssign_out (F.asg s t) b o 0 a
    rcases h.1 with ⟨n', e⟩ | ⟨n', k, hk, e⟩
    · simp only [runOn, e]
    · rcases quiet_or o with hq | hq
      · obtain ⟨n'', e''⟩ := h.2 hq
        rw [e''] at e; cases e
      simp only [runOn, e]
      refine ⟨?_, hq⟩
      rw [Mixed.subAssign_eq, Mixed.subAssign_eq]
      exact between_updAll _ _ hsb hsa k

/-- **C93** `a *= b` for expressions, `a += x`, `a -= x` for scalars: if an exception is thrown at any point, `a` is unchanged. -/
theorem C93_strong (a : Expr G (El s)) (b : Expr G (El t)) (x : El t) (o : Nat → Bool) :
    (match runOn (Faults.mulAssign (F.asg s t) b) o a with
      | .done e => e = Mixed.mulAssign (F.asg s t) a b
      | .threw e => e = a ∧ ∃ n, o n = true) ∧
    (match runOn (Faults.addAssignScalar (F.asg s t) x) o a with
      | .done e => e = Mixed.addAssignScalar (F.asg s t) a x
      | .threw e => e = a ∧ ∃ n, o n = true) ∧
    (match runOn (Faults.subAssignScalar (F.asg s t) x) o a with
      | .done e => e = Mixed.subAssignScalar (F.asg s t) a x
      | .threw e => e = a ∧ ∃ n, o n = true) := by
  refine ⟨?_, ?_, ?_⟩
  · have h := Faults.mulAssign_out (F.asg s t) b o 0 a
    rcases h.1 with ⟨n', e⟩ | ⟨n', e⟩
    · simp only [runOn, e]
    · rcases quiet_or o with hq | hq
      · obtain ⟨n'', e''⟩ := h.2 hq
        rw [e''] at e; cases e
      simp only [runOn, e]
      exact ⟨trivial, hq⟩
  · have h := Faults.addAssignScalar_atomic (G := G) (F.asg s t) x
    rcases h.out o 0 a.terms with ⟨n', e⟩ | ⟨n', e⟩
    · simp only [runOn, e]
    · rcases quiet_or o with hq | hq
      · obtain ⟨n'', e''⟩ := h.quiet o 0 a.terms hq
        rw [e''] at e; cases e
      simp only [runOn, e]
      exact ⟨trivial, hq⟩
  · have h := Faults.subAssignScalar_atomic (G := G) (F.asg s t) x
    rcases h.out o 0 a.terms with ⟨n', e⟩ | ⟨n', e⟩
    · simp only [runOn, e]
    · rcases quiet_or o with hq | hq
      · obtain ⟨n'', e''⟩ := h.quiet o 0 a.terms hq
        rw [e''] at e; cases e
      simp only [runOn, e]
      exact ⟨trivial, hq⟩


theorem keys_scaled {S S' : Type _} [ScalarOps S] [ScalarOps S'] (mulAsg : S → S' → S) (x : S') (j : Nat) (a : Terms G S) :
    (Faults.scaled mulAsg x j a).map Prod.fst = a.map Prod.fst := by
  rw [Faults.scaled, List.map_append, List.map_map]
  conv_rhs => rw [← List.take_append_drop j a, List.map_append]
  rfl

theorem between_scaled {S S' : Type _} [ScalarOps S] [ScalarOps S'] (mulAsg : S → S' → S) (x : S') (j : Nat) {a : Terms G S} (ha : a.Sorted) :
    Between ⟨a⟩ ⟨a.map fun p => (p.1, mulAsg p.2 x)⟩ ⟨Faults.scaled mulAsg x j a⟩ := by
  have srt : ∀ b : Terms G S, b.map Prod.fst = a.map Prod.fst → b.Sorted := by
    intro b hb
    have h : (a.map Prod.fst).Pairwise (fun k₁ k₂ => monLt k₁ k₂ = true) := by rw [List.pairwise_map]; exact ha
    rw [← hb, List.pairwise_map] at h
    exact h
  have h1 := srt _ (keys_scaled mulAsg x j a)
  have h2 : Terms.Sorted (a.map fun p => (p.1, mulAsg p.2 x)) := srt _ (by simp [Function.comp_def])
  refine between_of_find? (e := ⟨Faults.scaled mulAsg x j a⟩) ha h2 h1 fun l => ?_
  show Terms.find? l (Faults.scaled mulAsg x j a) = a.find? l ∨ Terms.find? l (Faults.scaled mulAsg x j a) = Terms.find? l (a.map _)
  cases hf : a.find? l with
  | none =>
    left
    refine find?_none_of_not_mem fun p hp e => ?_
    have hm : p.1 ∈ a.map Prod.fst := by rw [← keys_scaled mulAsg x j a]; exact List.mem_map_of_mem hp
    obtain ⟨q, hq, e'⟩ := List.mem_map.1 hm
    rw [(find?_iff ha (k := l) (v := q.2)).2 (by rw [← e, ← e']; exact hq)] at hf
    cases hf
  | some v =>
    have hv := (find?_iff ha).1 hf
    rw [← List.take_append_drop j a] at hv
    rcases List.mem_append.1 hv with hv | hv
    · right
      rw [(find?_iff h1 (v := mulAsg v x)).2 (List.mem_append_left _ (List.mem_map.2 ⟨_, hv, rfl⟩)),
        (find?_iff h2 (v := mulAsg v x)).2 (List.mem_map.2 ⟨_, List.mem_of_mem_take hv, rfl⟩)]
    · left
      rw [(find?_iff h1 (v := v)).2 (List.mem_append_right _ hv)]

/-- **C93** `a *= x` interrupted by an exception: every coefficient is either multiplied or not; `a = b` with a conversion of the
scalar type: the old value of `a` is lost, and every monomial of `b` has been copied or not. -/
theorem C93_scale_convert {a : Expr G (El s)} {b : Expr G (El t)} (ha : MixedReachable P s a) (hb : MixedReachable P t b)
    (x : El t) (o : Nat → Bool) :
    (match runOn (Faults.smulAssign (F.asg s t).mulAsg x) o a with
      | .done e => e = Mixed.smulAssign (F.asg s t).mulAsg a x
      | .threw e => Between a (Mixed.smulAssign (F.asg s t).mulAsg a x) e ∧ ∃ n, o n = true) ∧
    (match runOn (Faults.assignConv (F.asg s t).conv b) o a with
      | .done e => e = Mixed.convert (F.asg s t).conv b
      | .threw e => Between ⟨[]⟩ (Mixed.convert (F.asg s t).conv b) e ∧ ∃ n, o n = true) := by
  have hsa := ha.sortedTerms
  have hsb := hb.sortedTerms
  constructor
  · have h := Faults.smulAssign_out (G := G) (F.asg s t).mulAsg x o 0 a
    rcases h.1 with ⟨n', e⟩ | ⟨n', k, hk, hx, e⟩
    · simp only [runOn, e]
    · rcases quiet_or o with hq | hq
      · obtain ⟨n'', e''⟩ := h.2 hq
        rw [e''] at e; cases e
      simp only [runOn, e]
      refine ⟨?_, hq⟩
      rw [Mixed.smulAssign, hx]
      exact between_scaled _ x k hsa
  · have h := Faults.assignConv_out (F.asg s t).conv b o 0 a
    rcases h.1 with ⟨n', e⟩ | ⟨n', k, hk, e⟩
    · simp only [runOn, e]
    · rcases quiet_or o with hq | hq
      · obtain ⟨n'', e''⟩ := h.2 hq
        rw [e''] at e; cases e
      simp only [runOn, e]
      refine ⟨?_, hq⟩
      have hk := sorted_take hsb k
      refine between_of_find? List.Pairwise.nil (Mixed.sorted_convert _ hsb) (Mixed.sorted_convert (a := ⟨b.terms.take k⟩) _ hk) fun l => ?_
      show (Mixed.convert (F.asg s t).conv ⟨b.terms.take k⟩).terms.find? l = _ ∨ (Mixed.convert (F.asg s t).conv ⟨b.terms.take k⟩).terms.find? l = _
      rw [Mixed.find?_convert _ hsb, Mixed.find?_convert (a := ⟨b.terms.take k⟩) _ hk]
      rcases find?_take hsb k l with h | h
      · left; show (Terms.find? l (b.terms.take k)).map _ = _; rw [h]; rfl
      · right; show (Terms.find? l (b.terms.take k)).map _ = _; rw [h]

end

section
variable {ι S : Type} [LinearOrder ι] [CommRing S] [DecidableEq S] [ConstScalar S] [ScalarLaws S] [IsDomain S]
  [CharZero S] [Star S] [ScalarOps S] {P : Gen ι → Prop} {a b : Expr (Gen ι) S}

theorem mem_transform (ha : Reachable P a) (f : List (Gen ι) → S → S) (q : List (Gen ι) × S) :
    q ∈ (a.transform f).terms ↔ (∃ p ∈ a.terms, (p.1, f p.1 p.2) = q) ∧ q.2 ≠ 0 := by
  rw [Laws.transform_spec f ha.wfG, List.mem_filter, List.mem_map]
  simp

/-- An initial segment of an expression can be built without exceptions. -/
theorem reachable_take (ha : Reachable P a) (j : Nat) : Reachable P (⟨a.terms.take j⟩ : Expr (Gen ι) S) := by
  classical
  have hw := ha.wfG
  have e : (⟨a.terms.take j⟩ : Expr (Gen ι) S) = a.transform fun m c => if (m, c) ∈ a.terms.take j then c else 0 := by
    refine Expr.ext (eq_of_mem_iff (sorted_take hw.1 j) (wf_transform hw _).1 fun q => ?_)
    rw [mem_transform ha]
    constructor
    · intro hq
      have hq' := List.mem_of_mem_take hq
      refine ⟨⟨q, hq', ?_⟩, hw.2 q hq'⟩
      simp [hq]
    · rintro ⟨⟨p, hp, rfl⟩, h0⟩
      by_cases h : p ∈ a.terms.take j
      · simp [h]
      · simp [h] at h0
  rw [e]
  exact .transform _ ha

/-- An expression some of whose coefficients are multiplied can be built without exceptions. -/
theorem reachable_scaled (ha : Reachable P a) {x : S} (hx : x ≠ 0) (j : Nat) :
    Reachable P (⟨Faults.scaled (· * ·) x j a.terms⟩ : Expr (Gen ι) S) := by
  classical
  have hw := ha.wfG
  have hs := (between_scaled (· * ·) x j hw.1).increasing
  have e : (⟨Faults.scaled (· * ·) x j a.terms⟩ : Expr (Gen ι) S)
      = a.transform fun m c => if (m, c) ∈ a.terms.take j then c * x else c := by
    refine Expr.ext (eq_of_mem_iff hs (wf_transform hw _).1 fun q => ?_)
    rw [mem_transform ha]
    have disj : ∀ p ∈ a.terms.drop j, p ∉ a.terms.take j := by
      intro p hp hp'
      have hlt : ∀ p ∈ a.terms.take j, ∀ q ∈ a.terms.drop j, monLt p.1 q.1 = true := by
        have h := hw.1
        rw [← List.take_append_drop j a.terms] at h
        exact (List.pairwise_append.1 h).2.2
      have := hlt p hp' p hp
      simp [monLt_irrefl] at this
    constructor
    · intro hq
      rcases List.mem_append.1 hq with hq | hq
      · obtain ⟨p, hp, rfl⟩ := List.mem_map.1 hq
        have hp' := List.mem_of_mem_take hp
        exact ⟨⟨p, hp', by simp [hp]⟩, mul_ne_zero (hw.2 p hp') hx⟩
      · have hq' := List.mem_of_mem_drop hq
        exact ⟨⟨q, hq', by simp [disj q hq]⟩, hw.2 q hq'⟩
    · rintro ⟨⟨p, hp, rfl⟩, h0⟩
      by_cases h : p ∈ a.terms.take j
      · refine List.mem_append_left _ (List.mem_map.2 ⟨p, h, ?_⟩)
        simp [h]
      · refine List.mem_append_right _ ?_
        rw [← List.take_append_drop j a.terms] at hp
        rcases List.mem_append.1 hp with hp | hp
        · exact absurd hp h
        · simpa [h] using hp
  rw [e]
  exact .transform _ ha

theorem same_add (hE : ExactScalar S) (a b : Expr (Gen ι) S) : Mixed.addAssign (sameType S) a b = a + b :=
  Any.addAssign_exact hE a b
theorem same_sub (hE : ExactScalar S) (a b : Expr (Gen ι) S) : Mixed.subAssign (sameType S) a b = a - b :=
  Any.subAssign_exact hE a b
theorem same_mul (hE : ExactScalar S) (a b : Expr (Gen ι) S) : Mixed.mulAssign (sameType S) a b = a * b :=
  Any.mulAssign_exact hE a b

/-- **C93** A program may go on after exceptions. Let a program change its expression variables by any finite sequence of
`+=`, `-=`, `*=` (with expressions and scalars) and assignments, and let exceptions be thrown at any points of any of these
statements; the program catches them and goes on with the variables as they are. Then every variable always holds an expression that
can be computed without any exceptions: all other theorems about expressions apply to it. -/
theorem C93_history (hE : ExactScalar S) (prog : List (Cmd (Gen ι) S × (Nat → Bool))) (hna : ∀ c ∈ prog, c.1.NoAlias)
    (hset : ∀ c ∈ prog, ∀ i e, c.1 = .set i e → Reachable P e)
    (v : Nat → Expr (Gen ι) S) (hv : ∀ i, Reachable P (v i)) (i : Nat) :
    Reachable P ((prog.foldl (fun v c => c.1.exec c.2 v) v) i) := by
  induction prog generalizing v with
  | nil => exact hv i
  | cons c prog ih =>
    refine ih (fun d hd => hna d (by simp [hd])) (fun d hd => hset d (by simp [hd])) _ ?_
    obtain ⟨c, o⟩ := c
    have up : ∀ (k : Nat) (e : Expr (Gen ι) S), Reachable P e → ∀ i, Reachable P (Function.update v k e i) := by
      intro k e he i
      by_cases h : i = k
      · subst h; simpa using he
      · simpa [Function.update_of_ne h] using hv i
    intro i
    cases c with
    | addTo k l =>
      refine up k _ ?_ i
      rcases (Faults.addAssign_out (sameType S) (v l) o 0 (v k)).1 with ⟨n', e⟩ | ⟨n', j, -, e⟩
      · simp only [runOn, e, Outcome.value, same_add hE]
        exact .add (hv k) (hv l)
      · simp only [runOn, e, Outcome.value, same_add hE]
        exact .add (hv k) (reachable_take (hv l) j)
    | subFrom k l =>
      refine up k _ ?_ i
      rcases (Faults.subAssign_out (sameType S) (v l) o 0 (v k)).1 with ⟨n', e⟩ | ⟨n', j, -, e⟩
      · simp only [runOn, e, Outcome.value, same_sub hE]
        exact .sub (hv k) (hv l)
      · simp only [runOn, e, Outcome.value, same_sub hE]
        exact .sub (hv k) (reachable_take (hv l) j)
    | mulBy k l =>
      refine up k _ ?_ i
      rcases (Faults.mulAssign_out (sameType S) (v l) o 0 (v k)).1 with ⟨n', e⟩ | ⟨n', e⟩
      · simp only [runOn, e, Outcome.value, same_mul hE]
        exact .mul (hv k) (hv l)
      · simp only [runOn, e, Outcome.value]
        exact hv k
    | scale k x =>
      refine up k _ ?_ i
      have hm : (ScalarOps.mul : S → S → S) = (· * ·) := by funext x y; exact hE.mul x y
      rcases (Faults.smulAssign_out (ScalarOps.mul : S → S → S) x o 0 (v k)).1 with ⟨n', e⟩ | ⟨n', j, -, hx, e⟩
      · simp only [runOn, e, Outcome.value]
        have : Mixed.smulAssign ScalarOps.mul (v k) x = (v k).smulAssign x := by
          rw [hm]
          simp only [Mixed.smulAssign, Expr.smulAssign, Any.x_isZero hE, decide_eq_true_eq]
        rw [this]
        exact .smulAssign x (hv k)
      · simp only [runOn, e, Outcome.value]
        rw [hm]
        refine reachable_scaled (hv k) ?_ j
        rintro rfl
        rw [Any.x_isZero hE] at hx
        simp at hx
    | plus k x =>
      refine up k _ ?_ i
      rcases (Faults.addAssignScalar_atomic (G := Gen ι) (sameType S) x).out o 0 (v k).terms with ⟨n', e⟩ | ⟨n', e⟩
      · simp only [runOn, e, Outcome.value]
        have : Mixed.addAssignScalar (sameType S) (v k) x = (v k).addAssignScalar x := Any.addAssignScalar_exact hE x (v k)
        exact this ▸ .addAssignScalar x (hv k)
      · simp only [runOn, e, Outcome.value]
        exact hv k
    | minus k x =>
      refine up k _ ?_ i
      rcases (Faults.subAssignScalar_atomic (G := Gen ι) (sameType S) x).out o 0 (v k).terms with ⟨n', e⟩ | ⟨n', e⟩
      · simp only [runOn, e, Outcome.value]
        have : Mixed.subAssignScalar (sameType S) (v k) x = (v k).subScalar x := Any.subScalar_exact hE x (v k)
        exact this ▸ .subScalar x (hv k)
      · simp only [runOn, e, Outcome.value]
        exact hv k
    | set k e => exact up k e (hset (.set k e, o) (by simp) k e rfl) i

end

/-- An interrupted `e += f` with `e = 2 c†_1 c_2 + 1/2`, `f = c†_1 c_2 - 1/2 + c†_3`: the exception is thrown when the node of
`c†_3` is allocated; the sum is then complete except for the coefficient of `c†_1 c_2`. -/
example : (match runOn (Faults.addAssign (sameType ℚ) (Factory.cDag 1 * Factory.c 2 + Expr.const (-1/2) + Factory.cDag 3 : Expr (Gen Nat) ℚ))
      (fun n => n == 4) sample with
    | .done _ => none
    | .threw e => some e.terms) =
    some [([.fermion true 3], 1), ([.fermion true 1, .fermion false 2], 2)] := by decide +kernel

/-- Without exceptions. -/
example : (match runOn (Faults.addAssign (sameType ℚ) (Factory.cDag 1 * Factory.c 2 + Expr.const (-1/2) + Factory.cDag 3 : Expr (Gen Nat) ℚ))
      (fun _ => false) sample with
    | .done e => some e.terms
    | .threw _ => none) =
    some [([.fermion true 3], 1), ([.fermion true 1, .fermion false 2], 3)] := by decide +kernel

/-- The hypotheses of `C93_history` are met. -/
example (i : Nat) := C93_history (P := fun _ : Gen Nat => True) exactRat
  [(.addTo 0 1, fun n => n == 4), (.mulBy 1 0, fun n => n == 2), (.scale 1 3, fun n => n == 1), (.minus 0 (1/2), fun _ => false)]
  (by simp [Cmd.NoAlias]) (by simp)
  (fun _ => sample) (fun _ => sample_reachable) i

end LC
