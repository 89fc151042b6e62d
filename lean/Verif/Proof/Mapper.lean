import Verif.Proof.Views
import Verif.Proof.LOpApply
import Verif.Proof.LOpReach
import Verif.Spec.Mapper
/-
Basis mappers.
-/
set_option linter.unusedSectionVars false
namespace LC
namespace BasisMapper
variable {H : Type _} [HashImpl H Nat Nat]

theorem items_perm_emplace {m : UMap H Nat Nat} {k v : Nat} (h : m.find? k = none) :
    (m.emplace k v).items.length = m.items.length + 1 := by
  unfold UMap.emplace
  rw [h]
  exact (HashImpl.insert_perm m.h m.items (k, v)).length_eq

/-- Inserting states with consecutive numbers. -/
theorem emplaceAll_spec (l : List Nat) (m : UMap H Nat Nat) (d : List Nat) (s : Set Nat) (hm : m.Nodup) (h : Numbers m d s) :
    (emplaceAll m l).Nodup ∧ ∃ d', Numbers (emplaceAll m l) (d ++ d') (s ∪ {n | n ∈ l}) ∧ ((d ++ l).Nodup → d' = l) := by
  induction l generalizing m d s with
  | nil =>
    refine ⟨hm, [], ?_, fun _ => rfl⟩
    simpa [emplaceAll] using h
  | cons n l ih =>
    obtain ⟨h1, h2, h3, h4⟩ := h
    obtain ⟨e1, e2⟩ := UMap.emplace_spec hm n m.items.length
    have key : ∃ d1, Numbers (m.emplace n m.items.length) (d ++ d1) (s ∪ {n}) ∧ (n ∉ d → d1 = [n]) := by
      cases hf : m.find? n with
      | some i =>
        have hin : n ∈ d := List.mem_of_getElem? ((h4 n i).1 hf)
        refine ⟨[], ?_, fun hn => absurd hin hn⟩
        rw [List.append_nil]
        have : m.emplace n m.items.length = m := by unfold UMap.emplace; rw [hf]
        rw [this]
        refine ⟨h1, fun k => ?_, h3, h4⟩
        rw [h2]
        constructor
        · exact Or.inl
        · rintro (hk | hk)
          · exact hk
          · rw [hk]; exact (h2 n).1 hin
      | none =>
        have hout : n ∉ d := by
          intro hin
          obtain ⟨i, hi⟩ := List.mem_iff_getElem?.1 hin
          rw [(h4 n i).2 hi] at hf; cases hf
        refine ⟨[n], ⟨?_, fun k => ?_, ?_, fun k i => ?_⟩, fun _ => rfl⟩
        · rw [List.nodup_append]
          exact ⟨h1, by simp, by rintro a ha b hb; rw [List.mem_singleton] at hb; subst hb; rintro rfl; exact hout ha⟩
        · rw [List.mem_append, h2, List.mem_singleton]; rfl
        · rw [items_perm_emplace hf, h3]; simp
        · rw [e2, hf, h3, List.getElem?_append]
          by_cases hk : k = n
          · subst hk
            simp only [and_self, if_true, Option.some.injEq]
            constructor
            · rintro rfl; simp
            · intro hi
              split at hi
              · exact absurd (List.mem_of_getElem? hi) hout
              · next hlt =>
                have : i - d.length < 1 := (List.getElem?_eq_some_iff.1 hi).1
                omega
          · simp only [hk, false_and, if_false, h4]
            constructor
            · intro hi; rw [if_pos (List.getElem?_eq_some_iff.1 hi).1]; exact hi
            · intro hi
              split at hi
              · exact hi
              · have := List.mem_of_getElem? hi
                rw [List.mem_singleton] at this; exact absurd this hk
    obtain ⟨d1, k1, k2⟩ := key
    obtain ⟨r1, d2, r2, r3⟩ := ih (m.emplace n m.items.length) (d ++ d1) (s ∪ {n}) e1 k1
    refine ⟨r1, d1 ++ d2, ?_, fun hnd => ?_⟩
    · rw [← List.append_assoc]
      have : s ∪ {k | k ∈ n :: l} = (s ∪ {n}) ∪ {k | k ∈ l} := by
        ext k
        simp only [Set.mem_union, Set.mem_ofPred_eq, List.mem_cons, Set.mem_singleton_iff, or_assoc]
      rw [this]; exact r2
    · have hn : n ∉ d := by
        intro hin
        rw [List.nodup_append] at hnd
        exact hnd.2.2 n hin n List.mem_cons_self rfl
      rw [k2 hn] at r3 ⊢
      rw [r3 (by simpa using hnd)]; rfl

theorem numbers_empty : Numbers (UMap.empty : UMap H Nat Nat) [] ∅ := by
  refine ⟨List.nodup_nil, by simp, rfl, fun n i => ?_⟩
  simp [UMap.find?, UMap.empty]

/-- The inverse map. -/
theorem inverse_spec (l : List (Nat × Nat)) (m : UMap H Nat Nat) (hm : m.Nodup) (hl : (l.map Prod.snd).Nodup)
    (hd : ∀ p ∈ l, m.find? p.2 = none) :
    (l.foldl (fun m p => m.emplace p.2 p.1) m).Nodup ∧ ∀ i n, (l.foldl (fun m p => m.emplace p.2 p.1) m).find? i = some n ↔
      (n, i) ∈ l ∨ m.find? i = some n := by
  induction l generalizing m with
  | nil => exact ⟨hm, by simp⟩
  | cons p l ih =>
    rw [List.map_cons, List.nodup_cons] at hl
    have hp := hd p List.mem_cons_self
    obtain ⟨e1, e2⟩ := UMap.emplace_spec hm p.2 p.1
    obtain ⟨r1, r2⟩ := ih (m.emplace p.2 p.1) e1 hl.2 (fun q hq => by
      rw [e2, if_neg]
      · exact hd q (List.mem_cons_of_mem _ hq)
      · rintro ⟨h, _⟩
        exact hl.1 (h ▸ List.mem_map_of_mem hq))
    refine ⟨r1, fun i n => ?_⟩
    rw [List.foldl_cons, r2, e2, List.mem_cons]
    by_cases hi : i = p.2
    · subst hi
      rw [if_pos ⟨rfl, hp⟩, hp]
      simp only [Option.some.injEq, Prod.ext_iff, and_true, reduceCtorEq, or_false]
      tauto
    · rw [if_neg (fun h => hi h.1)]
      have : (n, i) ≠ p := fun h => hi (by rw [← h])
      tauto

/-! ### Mappers made from operators -/

variable {ι S H' : Type _} [LinearOrder ι] {hs : HilbertSpace ι} [CommRing S] [DecidableEq S] [ConstScalar S] [ScalarLaws S]
  [IsDomain S] [CharZero S] [Star S] [Algebra ℝ S] [HashImpl H' Nat S]

/-- A sparse vector that represents `ψ` and stores no zeros. -/
structure Stores (hs : HilbertSpace ι) (st : SparseSV H' S) (ψ : Nat → S) : Prop where
  nodup : st.data.Nodup
  nozero : ∀ n, st.data.find? n ≠ some 0
  amp : ∀ n, st.getElement n = ψ n
  valid : ∀ n, ψ n ≠ 0 → ValidState hs n

theorem Stores.mem_foreach {st : SparseSV H' S} {ψ : Nat → S} (h : Stores hs st ψ) (n : Nat) :
    n ∈ st.foreach.map Prod.fst ↔ ψ n ≠ 0 := by
  rw [← h.amp, SparseSV.getElement_eq]
  have h1 := UMap.find?_none (m := st.data) n
  have h2 := h.nozero n
  cases hf : st.data.find? n with
  | none => rw [hf] at h1; simp only [true_iff] at h1; simpa [SparseSV.foreach] using h1
  | some a =>
    rw [hf] at h1 h2
    simp only [reduceCtorEq, false_iff, not_not] at h1
    simp only [ne_eq, Option.some.injEq] at h2
    exact ⟨fun _ => by simpa using h2, fun _ => h1⟩

theorem Stores.copy {st : SparseSV H' S} {ψ : Nat → S} (h : Stores hs st ψ) : Stores hs st.copy ψ := by
  obtain ⟨h1, h2⟩ := UMap.copy_spec h.nodup
  refine ⟨h1, fun n => ?_, fun n => ?_, h.valid⟩
  · show st.data.copy.find? n ≠ _
    rw [h2]; exact h.nozero n
  · rw [← h.amp, SparseSV.getElement_eq, SparseSV.getElement_eq]
    show (st.data.copy.find? n).getD 0 = _
    rw [h2]

theorem Stores.nNonzeros {st : SparseSV H' S} {ψ : Nat → S} (h : Stores hs st ψ) : st.nNonzeros = 0 ↔ ∀ n, ψ n = 0 := by
  have h1 : ∀ n, n ∈ st.foreach.map Prod.fst ↔ ψ n ≠ 0 := h.mem_foreach
  show st.foreach.length = 0 ↔ _
  rw [List.length_eq_zero_iff]
  constructor
  · intro e n
    by_contra hn
    have := (h1 n).2 hn
    rw [e] at this; cases this
  · intro e
    rw [List.eq_nil_iff_forall_not_mem]
    intro p hp
    exact (h1 p.1).1 (List.mem_map_of_mem hp) (e _)

theorem opApply_valid (e : Expr (Gen ι) S) (ψ : Nat → S) (t : Nat) (h : opApply hs e ψ t ≠ 0) : ValidState hs t := by
  by_contra hn
  rw [opApply, if_neg hn] at h
  exact h rfl

theorem opApply_zero (e : Expr (Gen ι) S) : opApply hs e (fun _ => (0 : S)) = fun _ => 0 := by
  funext t
  simp [opApply]

/-- Applying an operator to a sparse vector. -/
theorem apply_stores (hc : Constructed hs) (hpre : PredefinedSpaces hs) {e : Expr (Gen ι) S} {op : LOperator S}
    (hop : LOperator.make e hs = .ok op) (hact : ActsOn hs e) {st dst : SparseSV H' S} {ψ : Nat → S} (hst : Stores hs st ψ)
    (hdst : dst.data.Nodup) :
    ∃ st', op.applyTo st dst = .ok st' ∧ Stores hs st' (opApply hs e ψ) := by
  have hz : LawfulSV.inv (StateVec.setZeros dst) := (LawfulSV.zero dst hdst).1
  obtain ⟨w, e1, e2, e3, e4⟩ := actImpl_spec hc hpre hop (fun p hp => (hact p hp).1) st (StateVec.setZeros dst) hst.nodup
    hz (fun k hk => hst.valid k (by
      rw [← hst.mem_foreach]
      have : st.data.find? k ≠ none := hk
      rw [ne_eq, UMap.find?_none, not_not] at this
      exact this)) (fun _ _ _ _ t _ _ => Set.mem_univ t)
  refine ⟨w, e1, e2, ?_, fun n => ?_, fun n hn => opApply_valid e ψ n hn⟩
  · have key := applyAll_rel (S := S) (T := S) (W := SparseSV H' S)
      (fun v v' => (v.data.Nodup ∧ ∀ n, v.data.find? n ≠ some 0) → v'.data.Nodup ∧ ∀ n, v'.data.find? n ≠ some 0)
      (fun v h => h) (fun u v w h1 h2 h => h2 (h1 h)) (by
        intro v n a v' hu hv
        cases hu
        obtain ⟨h1, h2⟩ := SparseSV.updateAdd_spec hv.1 n a
        refine ⟨h1, fun k => ?_⟩
        rw [h2]
        split
        · split
          · simp
          · next h0 => simpa using h0
        · exact hv.2 k)
    rw [LOperator.actImpl] at e1
    cases hf : StateVec.foreach st with
    | error e => rw [hf] at e1; cases e1
    | ok l =>
      rw [hf] at e1
      refine (key _ _ _ _ e1 ⟨hz, fun n => ?_⟩).2
      simp [StateVec.setZeros, SparseSV.setZeros, UMap.find?]
  · have := e4 n
    rw [(LawfulSV.zero dst hdst).2.2, zero_add] at this
    have hfun : (LawfulSV.amp st : Nat → S) = ψ := funext hst.amp
    rw [hfun] at this
    exact this

theorem vacuum_stores (hc : Constructed hs) (size : Nat) : Stores hs (vacuum H' S size) vacAmp := by
  obtain ⟨h1, h2⟩ := UMap.set_spec (H := H') (UMap.nodup_empty (H := H') (K := Nat) (V := S)) 0 1
  have hf : ∀ n, (vacuum H' S size).data.find? n = if n = 0 then some 1 else none := by
    intro n
    show ((UMap.empty : UMap H' Nat S).set 0 1).find? n = _
    rw [h2]
    split <;> simp [UMap.find?, UMap.empty]
  refine ⟨h1, fun n => ?_, fun n => ?_, fun n hn => ?_⟩
  · rw [hf]; split <;> simp
  · rw [SparseSV.getElement_eq, hf, vacAmp]
    split <;> simp
  · have : n = 0 := by by_contra h; exact hn (by simp [vacAmp, h])
    subst this
    refine ⟨Nat.two_pow_pos _, fun p hp => ?_⟩
    obtain ⟨l, hf, rfl⟩ := hc.canon
    rw [HilbertSpace.canon_spaces] at hp
    have : p.1 ∈ l := by
      have := List.mem_map_of_mem (f := Prod.fst) hp
      rw [HilbertSpace.layout_fst] at this
      exact this
    simpa using (hf.wf _ this).dim_pos

/-- Operators made from expressions. -/
structure Ops (hs : HilbertSpace ι) (e : Expr (Gen ι) S) (op : LOperator S) : Prop where
  make : LOperator.make e hs = .ok op
  acts : ActsOn hs e

theorem powers_zero (l : List (Expr (Gen ι) S × Nat)) : powers hs l (fun _ => (0 : S)) = fun _ => 0 := by
  induction l with
  | nil => rfl
  | cons p l ih =>
    obtain ⟨e, n⟩ := p
    rw [powers]
    have : (opApply hs e)^[n] (fun _ => (0 : S)) = fun _ => 0 := Function.iterate_fixed (opApply_zero e) n
    rw [this, ih]

/-- States reached with at least one factor of the first operator. -/
def loopSet (hs : HilbertSpace ι) (e : Expr (Gen ι) S) (es : List (Expr (Gen ι) S)) (n : Nat) (ψ : Nat → S) : Set Nat :=
  {t | ∃ j ns, 1 ≤ j ∧ ns.length = es.length ∧ j + ns.sum = n ∧ powers hs (es.zip ns) ((opApply hs e)^[j] ψ) t ≠ 0}

theorem composed_cons (e : Expr (Gen ι) S) (es : List (Expr (Gen ι) S)) (n : Nat) (ψ : Nat → S) :
    composed hs (e :: es) n ψ = composed hs es n ψ ∪ loopSet hs e es n ψ := by
  ext t
  constructor
  · rintro ⟨ns, h1, h2, h3⟩
    cases ns with
    | nil => simp at h1
    | cons j ns =>
      simp only [List.length_cons, Nat.add_right_cancel_iff] at h1
      rw [List.sum_cons] at h2
      rw [List.zip_cons_cons, powers] at h3
      cases j with
      | zero => exact Or.inl ⟨ns, h1, by omega, h3⟩
      | succ j => exact Or.inr ⟨j + 1, ns, by omega, h1, h2, h3⟩
  · rintro (⟨ns, h1, h2, h3⟩ | ⟨j, ns, h0, h1, h2, h3⟩)
    · exact ⟨0 :: ns, by simp [h1], by simp [h2], by rw [List.zip_cons_cons, powers]; exact h3⟩
    · exact ⟨j :: ns, by simp [h1], by simp [h2], by rw [List.zip_cons_cons, powers]; exact h3⟩

theorem loopSet_zero (e : Expr (Gen ι) S) (es : List (Expr (Gen ι) S)) (ψ : Nat → S) : loopSet hs e es 0 ψ = ∅ := by
  ext t
  simp only [Set.mem_empty_iff_false, iff_false]
  rintro ⟨j, ns, h0, _, h2, _⟩
  omega

theorem loopSet_succ (e : Expr (Gen ι) S) (es : List (Expr (Gen ι) S)) (n : Nat) (ψ : Nat → S) :
    loopSet hs e es (n + 1) ψ = composed hs es n (opApply hs e ψ) ∪ loopSet hs e es n (opApply hs e ψ) := by
  ext t
  constructor
  · rintro ⟨j, ns, h0, h1, h2, h3⟩
    obtain ⟨j, rfl⟩ : ∃ i, j = i + 1 := ⟨j - 1, by omega⟩
    rw [Function.iterate_succ_apply] at h3
    cases j with
    | zero => exact Or.inl ⟨ns, h1, by omega, h3⟩
    | succ j => exact Or.inr ⟨j + 1, ns, by omega, h1, by omega, h3⟩
  · rintro (⟨ns, h1, h2, h3⟩ | ⟨j, ns, h0, h1, h2, h3⟩)
    · exact ⟨1, ns, le_rfl, h1, by omega, h3⟩
    · exact ⟨j + 1, ns, by omega, h1, by omega, by rw [Function.iterate_succ_apply]; exact h3⟩

theorem composed_nil (n : Nat) (ψ : Nat → S) : composed hs ([] : List (Expr (Gen ι) S)) n ψ = if n = 0 then {t | ψ t ≠ 0} else ∅ := by
  ext t
  split
  · next hn =>
    constructor
    · rintro ⟨ns, h1, _, h3⟩
      simpa [powers] using h3
    · intro h; exact ⟨[], rfl, by simp [hn], by simpa [powers] using h⟩
  · next hn =>
    simp only [Set.mem_empty_iff_false, iff_false]
    rintro ⟨ns, h1, h2, _⟩
    simp only [List.length_nil, List.length_eq_zero_iff] at h1
    subst h1
    simp at h2; omega

theorem composed_zero_self (es : List (Expr (Gen ι) S)) (ψ : Nat → S) (t : Nat) (h : ψ t ≠ 0) : t ∈ composed hs es 0 ψ := by
  refine ⟨List.replicate es.length 0, by simp, by simp, ?_⟩
  have : powers hs (es.zip (List.replicate es.length 0)) ψ = ψ := by
    induction es with
    | nil => rfl
    | cons e es ih => rw [List.length_cons, List.replicate_succ, List.zip_cons_cons, powers]; exact ih
  rw [this]; exact h

/-- A map with consecutive numbers. -/
def Enum (m : UMap H Nat Nat) (s : Set Nat) : Prop := m.Nodup ∧ ∃ d, Numbers m d s

theorem Enum.emplaceAll {m : UMap H Nat Nat} {s : Set Nat} (h : Enum m s) (l : List Nat) : Enum (emplaceAll m l) (s ∪ {n | n ∈ l}) := by
  obtain ⟨h1, d, h2⟩ := h
  obtain ⟨h3, d', h4, _⟩ := emplaceAll_spec l m d s h1 h2
  exact ⟨h3, _, h4⟩

/-- The recursion over the operators. -/
theorem compositions_spec (hc : Constructed hs) (hpre : PredefinedSpaces hs) {es : List (Expr (Gen ι) S)} {ops : List (LOperator S)}
    (ho : List.Forall₂ (Ops hs) es ops) (map : UMap H Nat Nat) (s : Set Nat) (hm : Enum map s) (st : SparseSV H' S) (ψ : Nat → S)
    (hst : Stores hs st ψ) (n : Nat) :
    ∃ map', compositions map st ops n = .ok map' ∧ Enum map' (s ∪ composed hs es n ψ) := by
  induction ho generalizing map s st ψ n with
  | nil =>
    rw [compositions, composed_nil]
    refine ⟨_, rfl, ?_⟩
    split
    · have := hm.emplaceAll (st.foreach.map Prod.fst)
      have e : {n | n ∈ st.foreach.map Prod.fst} = {t | ψ t ≠ 0} := by ext t; exact hst.mem_foreach t
      rw [e] at this; exact this
    · rw [Set.union_empty]; exact hm
  | @cons e op es ops ho1 ho2 ih =>
    -- the loop
    have loop : ∀ (n : Nat) (map : UMap H Nat Nat) (s : Set Nat) (fromSt toSt : SparseSV H' S) (ψ : Nat → S), Enum map s →
        Stores hs fromSt ψ → toSt.data.Nodup →
        ∃ map', compositionsLoop map op ops fromSt toSt n = .ok map' ∧ Enum map' (s ∪ loopSet hs e es n ψ) := by
      intro n
      induction n with
      | zero =>
        intro map s fromSt toSt ψ hm _ _
        rw [compositionsLoop, loopSet_zero, Set.union_empty]
        exact ⟨_, rfl, hm⟩
      | succ n ihn =>
        intro map s fromSt toSt ψ hm hf ht
        obtain ⟨st', a1, a2⟩ := apply_stores hc hpre ho1.make ho1.acts hf ht
        rw [compositionsLoop, a1]
        simp only
        by_cases h0 : st'.nNonzeros = 0
        · rw [if_pos h0]
          refine ⟨_, rfl, ?_⟩
          have hz : opApply hs e ψ = fun _ => 0 := funext (a2.nNonzeros.1 h0)
          have : loopSet hs e es (n + 1) ψ = ∅ := by
            ext t
            simp only [Set.mem_empty_iff_false, iff_false]
            rintro ⟨j, ns, b0, b1, b2, b3⟩
            obtain ⟨j, rfl⟩ : ∃ i, j = i + 1 := ⟨j - 1, by omega⟩
            rw [Function.iterate_succ_apply, hz, Function.iterate_fixed (opApply_zero e), powers_zero] at b3
            exact b3 rfl
          rw [this, Set.union_empty]; exact hm
        · rw [if_neg h0]
          obtain ⟨map1, c1, c2⟩ := ih map s hm st' _ a2 n
          rw [c1]
          simp only
          obtain ⟨map2, d1, d2⟩ := ihn map1 _ st'.copy st' _ c2 a2.copy a2.nodup
          refine ⟨map2, d1, ?_⟩
          rw [loopSet_succ, ← Set.union_assoc]; exact d2
    rw [compositions]
    have hm' : ∃ s', Enum (if n = 0 then emplaceAll map (st.foreach.map Prod.fst) else map) s' ∧
        s' ∪ composed hs es n ψ = s ∪ composed hs es n ψ := by
      split
      · next h0 =>
        refine ⟨_, hm.emplaceAll _, ?_⟩
        ext t
        simp only [Set.mem_union, Set.mem_ofPred_eq]
        constructor
        · rintro ((h | h) | h)
          · exact Or.inl h
          · right; rw [h0]; exact composed_zero_self es ψ t ((hst.mem_foreach t).1 h)
          · exact Or.inr h
        · rintro (h | h)
          · exact Or.inl (Or.inl h)
          · exact Or.inr h
      · exact ⟨s, hm, rfl⟩
    obtain ⟨s', h1, h2⟩ := hm'
    obtain ⟨map1, c1, c2⟩ := ih _ s' h1 st ψ hst n
    rw [c1]
    simp only
    obtain ⟨map2, d1, d2⟩ := loop n map1 _ st.copy st.zerosLike ψ c2 hst.copy UMap.nodup_empty
    refine ⟨map2, d1, ?_⟩
    rw [composed_cons, ← Set.union_assoc, ← h2]; exact d2

end BasisMapper
end LC
