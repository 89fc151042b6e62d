import Verif.Proof.HSForeach
import Verif.Proof.HSAlgebra
/-
C26–C29, C31, C32, C59: Hilbert spaces. `Constructed`, `ValidState` and `ESpace.Wf` are in Spec/HilbertSpace.lean.
-/
set_option linter.unusedSectionVars false
set_option linter.unusedSimpArgs false
namespace LC
open HilbertSpace
variable {ι : Type _} [LinearOrder ι]

/-- **C26** Bit ranges of the elementary spaces: the `i`-th space starts right after the bits of the spaces before it (the
first one at bit 0), has `n_bits()` bits, `bit_range()` finds this range, and all ranges together make up
`total_n_bits() ≤ 63` bits. -/
theorem C26_bit_ranges (hs : HilbertSpace ι) (h : Constructed hs) :
    (∀ i es, hs.elementarySpaces[i]? = some es →
      hs.bitRange es = .ok ⟨(((hs.elementarySpaces.take i).map ESpace.nBits).sum : Nat),
        (((hs.elementarySpaces.take i).map ESpace.nBits).sum : Nat) + (es.nBits : Int) - 1⟩) ∧
    hs.totalNBits = (hs.elementarySpaces.map ESpace.nBits).sum ∧ hs.totalNBits ≤ 63 ∧
    hs.dim = (hs.elementarySpaces.map ESpace.dim).prod ∧ hs.dim ≤ hs.vecSize := by
  obtain ⟨l, hf, rfl⟩ := h.canon
  have hel : (canon l).elementarySpaces = l := by
    unfold elementarySpaces; rw [canon_spaces, layout_fst]
  rw [hel]
  refine ⟨?_, canon_total l, ?_, rfl, ?_⟩
  · intro i es hi
    obtain ⟨hil, rfl⟩ := List.getElem?_eq_some_iff.1 hi
    have hm : (l[i], (⟨((0 + bitSum (l.take i) : Nat) : Int), ((0 + bitSum (l.take i) : Nat) : Int) + l[i].nBits - 1⟩ : BitRange))
        ∈ layout 0 l := by
      rw [mem_layout]
      exact ⟨l.take i, l.drop (i + 1), by simp, rfl⟩
    have hsort : SortedES ((canon l).spaces.map (·.1)) := by rw [canon_spaces, layout_fst]; exact hf.sorted
    have := findSpace_of_mem (es := l[i]) hsort (by rw [canon_spaces]; exact hm) rfl
    unfold bitRange
    rw [this]
    simp only [Nat.zero_add]
    rfl
  · rw [canon_total]; have := hf.bits; omega
  · unfold vecSize
    have hb := hf.bits
    rw [canon_dim, canon_total, Int.toNat_natCast, pow2_eq (by omega)]
    exact dimProd_le l hf.wf

/-- **C26** Bit ranges of the algebras: an algebra has a range iff it has an elementary space, and then the bits of that
range are exactly the bits of the ranges of its elementary spaces. -/
theorem C26_algebra_ranges (hs : HilbertSpace ι) (h : Constructed hs) (a : Int) :
    (hs.hasAlgebra a = true ↔ ∃ es ∈ hs.elementarySpaces, es.algebraId = a) ∧
    (hs.hasAlgebra a = true → ∃ r, hs.algebraBitRange a = .ok r ∧
      ∀ b : Int, r.first ≤ b ∧ b ≤ r.second ↔
        ∃ es ∈ hs.elementarySpaces, es.algebraId = a ∧ ∃ q, hs.bitRange es = .ok q ∧ q.first ≤ b ∧ b ≤ q.second) ∧
    (hs.hasAlgebra a = false → hs.algebraBitRange a = .error .noAlgebra) := by
  have hC26 := C26_bit_ranges hs h
  obtain ⟨l, hf, rfl⟩ := h.canon
  have hel : (canon l).elementarySpaces = l := by
    unfold elementarySpaces; rw [canon_spaces, layout_fst]
  rw [hel] at hC26 ⊢
  obtain ⟨_, hlook⟩ := algOf_spec l hf.sorted
  have hl : (canon l).algRanges = algOf (layout 0 l) [] := rfl
  have hiff : (canon l).hasAlgebra a = true ↔ ∃ es ∈ l, es.algebraId = a := by
    unfold hasAlgebra
    rw [hl, hlook]
    by_cases hex : ∃ es ∈ l, es.algebraId = a
    · rw [if_pos hex]; simpa using hex
    · rw [if_neg hex]; simpa using hex
  refine ⟨hiff, fun hA => ?_, fun hA => ?_⟩
  · have hex := hiff.1 hA
    refine ⟨⟨bitsBelow a l, (bitsUpTo a l : Int) - 1⟩, ?_, fun b => ?_⟩
    · unfold algebraBitRange
      rw [hl, hlook, if_pos hex]
    · have hrange : ∀ pre es post, l = pre ++ es :: post → (canon l).bitRange es
          = .ok ⟨(bitSum pre : Nat), (bitSum pre : Nat) + (es.nBits : Int) - 1⟩ := by
        intro pre es post e
        have := hC26.1 pre.length es (by rw [e]; simp)
        rw [this, e, List.take_left]
        rfl
      simp only
      constructor
      · rintro ⟨h1, h2⟩
        obtain ⟨n, rfl⟩ : ∃ n : Nat, b = n := ⟨b.toNat, by omega⟩
        obtain ⟨pre, es, post, e1, e2, e3, e4⟩ := bits_covered hf.sorted a n (by omega) (by omega)
        exact ⟨es, by rw [e1]; simp, e2, _, hrange pre es post e1, by simp only; omega, by simp only; omega⟩
      · rintro ⟨es, hes, rfl, q, hq, h1, h2⟩
        obtain ⟨pre, post, e⟩ := List.append_of_mem hes
        rw [hrange pre es post e] at hq
        cases hq
        have := bits_position hf.sorted e
        simp only at h1 h2
        omega
  · unfold algebraBitRange
    have : ¬ ∃ es ∈ l, es.algebraId = a := fun hc => by rw [hiff.2 hc] at hA; cases hA
    rw [hl, hlook, if_neg this]

/-- **C26** When construction succeeds: pairwise different elementary spaces needing at most 63 bits. -/
theorem C26_construction_succeeds_iff (m : List (ESpace ι)) (hm : ∀ es ∈ m, es.Wf) :
    ((∃ hs, HilbertSpace.ofArgs m = .ok hs) ↔ m.Pairwise (fun a b => a.eqOp b = false) ∧ (m.map ESpace.nBits).sum ≤ 63) ∧
    ((∃ hs, HilbertSpace.ofPtrs m = .ok hs) ↔ m.Pairwise (fun a b => a.eqOp b = false) ∧ (m.map ESpace.nBits).sum ≤ 63) := by
  have hacc : Acceptable m ↔ m.Pairwise (fun a b => a.eqOp b = false) ∧ (m.map ESpace.nBits).sum ≤ 63 := by
    unfold Acceptable
    rw [List.Nodup, List.pairwise_map]
    have : (m.Pairwise fun a b => a.key ≠ b.key) ↔ m.Pairwise (fun a b => a.eqOp b = false) := by
      constructor
      · intro h; refine h.imp fun {a b} hab => ?_
        by_contra hc
        exact hab ((ESpace.eqOp_iff a b).1 (by simpa using hc))
      · intro h; refine h.imp fun {a b} hab => ?_
        intro hc
        rw [(ESpace.eqOp_iff a b).2 hc] at hab; cases hab
    rw [this]; rfl
  rw [← hacc]
  have h1 := ofArgs_spec m hm
  have h2 := ofPtrs_spec m hm
  constructor
  · constructor
    · rintro ⟨hs, h⟩
      by_contra hc
      obtain ⟨e, he⟩ := h1.2 hc
      rw [h] at he; cases he
    · intro h; obtain ⟨l, _, _, e⟩ := h1.1 h; exact ⟨_, e⟩
  · constructor
    · rintro ⟨hs, h⟩
      by_contra hc
      obtain ⟨e, he⟩ := h2.2 hc
      rw [h] at he; cases he
    · intro h; obtain ⟨l, _, _, e⟩ := h2.1 h; exact ⟨_, e⟩

theorem wf_fermion (i : ι) : (ESpace.fermion i).Wf := ⟨Nat.two_pos, (show 1 = Nat.clog 2 2 by decide +kernel)⟩
theorem wf_boson (d : Nat) (hd : 0 < d) (i : ι) : (ESpace.boson d i).Wf := ⟨hd, rfl⟩
theorem wf_spin (m : Nat) (hm : 0 < m) (i : ι) : (ESpace.spin m i).Wf := ⟨hm, rfl⟩

/-- A mixed Hilbert space meets the hypotheses. -/
example : ∃ hs, HilbertSpace.ofArgs [ESpace.spin 3 (0 : Nat), ESpace.fermion 1, ESpace.boson 5 0, ESpace.fermion 0] = .ok hs ∧
    Constructed hs ∧ hs.algebraBitRange (-3) = .ok ⟨0, 1⟩ ∧ hs.totalNBits = 7 ∧ hs.dim = 60 := by
  refine ⟨_, rfl, Constructed.ofArgs (l := [ESpace.spin 3 (0 : Nat), ESpace.fermion 1, ESpace.boson 5 0, ESpace.fermion 0]) ?_ rfl,
    by decide +kernel, by decide +kernel, by decide +kernel⟩
  intro es hes
  simp only [List.mem_cons, List.not_mem_nil, or_false] at hes
  rcases hes with rfl | rfl | rfl | rfl
  · exact wf_spin 3 (by decide) 0
  · exact wf_fermion 1
  · exact wf_boson 5 (by decide) 0
  · exact wf_fermion 0

/-- **C27** `foreach(hs, f)` calls `f` on the valid basis state indices, in increasing order, each once, and makes `dim()`
calls (for spaces without the sparse algorithm always, otherwise for dimensions below 2^31, see F4). -/
theorem C27_foreach (hs : HilbertSpace ι) (h : Constructed hs) (hsmall : hs.foreachAlg.isSome → hs.dim < 2 ^ 31) :
    hs.foreach = (List.range hs.vecSize).filter (fun s => decide (ValidState hs s)) ∧ hs.foreach.length = hs.dim := by
  obtain ⟨l, hf, rfl⟩ := h.canon
  have hb := hf.bits
  have e : (canon l).vecSize = 2 ^ bitSum l := by
    unfold vecSize
    rw [canon_total, Int.toNat_natCast, pow2_eq (by omega)]
  rw [foreach_canon l hf hsmall]
  refine ⟨by rw [enc_list l hf, e], by simp [canon_dim]⟩

/-- **C27** Hence the number of valid basis states is `dim()`, whatever the dimension. -/
theorem C27_dim_counts_states (hs : HilbertSpace ι) (h : Constructed hs) :
    ((List.range hs.vecSize).filter (fun s => decide (ValidState hs s))).length = hs.dim := by
  obtain ⟨l, hf, rfl⟩ := h.canon
  have hb := hf.bits
  have e : (canon l).vecSize = 2 ^ bitSum l := by
    unfold vecSize
    rw [canon_total, Int.toNat_natCast, pow2_eq (by omega)]
  rw [e, ← enc_list l hf]
  simp [canon_dim]

/-- Two spaces that need the sparse algorithm. -/
def sparseExample : List (ESpace Nat) := [ESpace.boson 3 0, ESpace.boson 3 1]

example : ∃ hs, HilbertSpace.ofArgs sparseExample = .ok hs ∧ hs.foreachAlg.isSome ∧ hs.dim < 2 ^ 31 ∧
    hs.foreach = [0, 1, 2, 4, 5, 6, 8, 9, 10] := by
  refine ⟨_, rfl, by decide +kernel, by decide +kernel, by decide +kernel⟩

/-- **C27 (finding F4)** The number of states is accumulated in an `int`: for two bosonic modes of dimensions 3 and 3·2^32
the iteration visits no state at all although `dim()` is 9·2^32. -/
theorem C27_F4_int_overflow : ∃ hs : HilbertSpace Nat, Constructed hs ∧ hs.dim = 9 * 2 ^ 32 ∧ hs.foreach = [] := by
  refine ⟨_, Constructed.ofArgs (l := [ESpace.boson 3 0, ESpace.boson (3 * 2 ^ 32) 1]) ?_ rfl, ?_, ?_⟩
  · intro es hes
    simp only [List.mem_cons, List.not_mem_nil, or_false] at hes
    rcases hes with rfl | rfl
    · exact wf_boson _ (by decide) _
    · exact wf_boson _ (by decide) _
  · decide +kernel
  · decide +kernel

/-- **C28** The result of a construction does not depend on the order of the elementary spaces, nor on whether they are
passed as arguments, as a vector of pointers, or added one by one to a space constructed from the first ones. -/
theorem C28_order_independent (m m' : List (ESpace ι)) (hm : ∀ es ∈ m, es.Wf) (hp : m.Perm m') (hs : HilbertSpace ι)
    (h : HilbertSpace.ofArgs m = .ok hs) :
    HilbertSpace.ofArgs m' = .ok hs ∧ HilbertSpace.ofPtrs m' = .ok hs ∧ HilbertSpace.ofPtrs m = .ok hs := by
  have hm' : ∀ es ∈ m', es.Wf := fun es he => hm es (hp.symm.subset he)
  have ha : Acceptable m := by
    by_contra hc
    obtain ⟨e, he⟩ := (ofArgs_spec m hm).2 hc
    rw [h] at he; cases he
  obtain ⟨l, hl, hf, e⟩ := (ofArgs_spec m hm).1 ha
  rw [h] at e; cases e
  obtain ⟨l1, hl1, hf1, e1⟩ := (ofArgs_spec m' hm').1 ((acceptable_perm hp).1 ha)
  obtain ⟨l2, hl2, hf2, e2⟩ := (ofPtrs_spec m' hm').1 ((acceptable_perm hp).1 ha)
  obtain ⟨l3, hl3, hf3, e3⟩ := (ofPtrs_spec m hm).1 ha
  have u1 : l1 = l := sortedES_perm_unique hf1.sorted hf.sorted (hl1.trans (hp.symm.trans hl.symm))
  have u2 : l2 = l := sortedES_perm_unique hf2.sorted hf.sorted (hl2.trans (hp.symm.trans hl.symm))
  have u3 : l3 = l := sortedES_perm_unique hf3.sorted hf.sorted (hl3.trans hl.symm)
  rw [e1, e2, e3, u1, u2, u3]
  exact ⟨rfl, rfl, rfl⟩

/-- **C28** Adding a space to a Hilbert space gives the same result as constructing it from all spaces at once; a space that
is already present is rejected and nothing changes. -/
theorem C28_add (m : List (ESpace ι)) (es : ESpace ι) (hm : ∀ e ∈ m, e.Wf) (hes : es.Wf) (hs : HilbertSpace ι)
    (h : HilbertSpace.ofArgs m = .ok hs) :
    (∀ hs', hs.add es = (hs', none) → HilbertSpace.ofArgs (es :: m) = .ok hs') ∧
    ((∃ k ∈ m, k.eqOp es = true) → hs.add es = (hs, some .exists_)) := by
  have ha : Acceptable m := by
    by_contra hc
    obtain ⟨e, he⟩ := (ofArgs_spec m hm).2 hc
    rw [h] at he; cases he
  obtain ⟨l, hl, hf, e⟩ := (ofArgs_spec m hm).1 ha
  rw [h] at e; cases e
  rcases add_canon hf es hes with ⟨_, hadd⟩ | ⟨hne, l', hp, hsort, hadd⟩
  · refine ⟨fun hs' h' => ?_, fun _ => hadd⟩
    rw [hadd] at h'; simp at h'
  · refine ⟨fun hs' h' => ?_, ?_⟩
    · split at hadd
      · obtain ⟨_, hadd⟩ := hadd
        rw [hadd] at h'; simp at h'
      · next hb =>
        rw [hadd] at h'
        simp at h'
        subst h'
        have hpm : l'.Perm (es :: m) := hp.trans (hl.cons es)
        have ha' : Acceptable (es :: m) := by
          rw [← acceptable_perm hpm]
          exact ⟨hsort.nodup, by rw [bitSum_perm hp]; omega⟩
        obtain ⟨l2, hl2, hf2, e2⟩ := (ofArgs_spec (es :: m) (by
          intro x hx; rcases List.mem_cons.1 hx with rfl | hx
          · exact hes
          · exact hm x hx)).1 ha'
        rw [e2, sortedES_perm_unique hf2.sorted hsort (hl2.trans hpm.symm)]
    · rintro ⟨k, hk, hke⟩
      exact (hne k (hl.symm.subset hk) ((ESpace.eqOp_iff k es).1 hke)).elim

example : (HilbertSpace.ofArgs [ESpace.fermion (1 : Nat), ESpace.spin 3 0, ESpace.fermion 0])
    = HilbertSpace.ofPtrs [ESpace.spin 3 (0 : Nat), ESpace.fermion 0, ESpace.fermion 1] := by decide +kernel

/-- **C29** (partial: the queries about algebras are excluded, see F1) A copy of a Hilbert space and the target of a copy
assignment answer all other queries like the source. -/
theorem C29_copy_partial (target hs : HilbertSpace ι) (es : ESpace ι) (c : HilbertSpace ι)
    (hc : c = hs.copy ∨ c = target.copyAssign hs) :
    c.dim = hs.dim ∧ c.vecSize = hs.vecSize ∧ c.totalNBits = hs.totalNBits ∧ c.isSparse = hs.isSparse ∧
    c.foreach = hs.foreach ∧ c.elementarySpaces = hs.elementarySpaces ∧ c.size = hs.size ∧ c.has es = hs.has es ∧
    c.index es = hs.index es ∧ c.dimOf es = hs.dimOf es ∧ c.bitRange es = hs.bitRange es ∧
    (∀ n, c.basisStateIndex es n = hs.basisStateIndex es n) ∧ (∀ k, c.eqOp k = hs.eqOp k) := by
  rcases hc with rfl | rfl <;> exact ⟨rfl, rfl, rfl, rfl, rfl, rfl, rfl, rfl, rfl, rfl, rfl, fun _ => rfl, fun _ => rfl⟩

/-- **C29 (finding F1)** A copy has no algebra at all: for every constructed Hilbert space that contains an elementary space
with algebra ID `a` the copy denies having that algebra, and `algebra_bit_range` throws. -/
theorem C29_F1_copy_loses_algebras (hs : HilbertSpace ι) (h : Constructed hs) (es : ESpace ι)
    (hes : es ∈ hs.elementarySpaces) :
    hs.hasAlgebra es.algebraId = true ∧ hs.copy.hasAlgebra es.algebraId = false ∧
    (∃ r, hs.algebraBitRange es.algebraId = .ok r) ∧ hs.copy.algebraBitRange es.algebraId = .error .noAlgebra := by
  obtain ⟨h1, h2, _⟩ := C26_algebra_ranges hs h es.algebraId
  have h3 := h1.2 ⟨es, hes, rfl⟩
  obtain ⟨r, hr, _⟩ := h2 h3
  exact ⟨h3, rfl, ⟨r, hr⟩, rfl⟩

/-- **C29 (finding F1)** After copy assignment the target reports its own old algebra ranges. -/
theorem C29_F1_assignment_keeps_old_ranges : ∃ a b : HilbertSpace Nat, Constructed a ∧ Constructed b ∧
    (a.copyAssign b).hasAlgebra (-3) = true ∧ b.hasAlgebra (-3) = false := by
  refine ⟨_, _, Constructed.ofArgs (l := [ESpace.fermion 0]) ?_ rfl, Constructed.ofArgs (l := [ESpace.spin 2 0]) ?_ rfl,
    by decide +kernel, by decide +kernel⟩
  · intro es hes; simp at hes; subst hes; exact wf_fermion 0
  · intro es hes; simp at hes; subst hes; exact wf_spin 2 (by decide) 0

/-- **C31** (partial: `hilbert_space_too_big` is excluded, see F16) An `add()` that throws `elementary_space_exists` leaves
the object unchanged. -/
theorem C31_failed_add_partial (hs hs' : HilbertSpace ι) (es : ESpace ι) (h : hs.add es = (hs', some .exists_)) :
    hs' = hs := by
  unfold HilbertSpace.add at h
  split at h
  · simp at h; exact h.symm
  · split at h
    · next hr =>
      rw [recompute_eq] at hr
      simp only [Prod.mk.injEq] at hr h
      have h2 := hr.2
      rw [h.2] at h2
      split at h2 <;> simp at h2
    · simp at h

/-- **C31 (finding F16)** An `add()` that throws `hilbert_space_too_big` has already inserted the space: afterwards
`has()` is true and `total_n_bits()` exceeds 63, while `dim()` is still the old dimension. -/
theorem C31_F16_too_big_add : ∃ hs hs' : HilbertSpace Nat, ∃ n, Constructed hs ∧
    hs.add (ESpace.boson (2 ^ 40) 1) = (hs', some (.tooBig n)) ∧ hs.has (ESpace.boson (2 ^ 40) 1) = false ∧
    hs'.has (ESpace.boson (2 ^ 40) 1) = true ∧ hs'.totalNBits = 80 ∧ hs'.dim = hs.dim := by
  refine ⟨_, _, _, Constructed.ofArgs (l := [ESpace.boson (2 ^ 40) 0]) ?_ rfl, rfl, ?_, ?_, ?_, ?_⟩
  · intro es hes; simp at hes; subst hes; exact wf_boson _ (by decide) _
  · decide +kernel
  · decide +kernel
  · decide +kernel
  · rfl

/-- **C31** When `add()` throws: exactly if the space is present or more than 63 bits would be needed. -/
theorem C31_add_throws_iff (hs : HilbertSpace ι) (h : Constructed hs) (es : ESpace ι) (hes : es.Wf) :
    ((hs.add es).2 = some .exists_ ↔ ∃ k ∈ hs.elementarySpaces, k.eqOp es = true) ∧
    ((hs.add es).2 = none ↔ (∀ k ∈ hs.elementarySpaces, k.eqOp es = false) ∧ hs.totalNBits + es.nBits ≤ 63) := by
  obtain ⟨l, hf, rfl⟩ := h.canon
  have hel : (canon l).elementarySpaces = l := by
    unfold elementarySpaces; rw [canon_spaces, layout_fst]
  rw [hel, canon_total]
  rcases add_canon hf es hes with ⟨⟨k, hk, hke⟩, hadd⟩ | ⟨hne, l', hp, hsort, hadd⟩
  · rw [hadd]
    simp only [true_iff, reduceCtorEq, false_iff, not_and]
    refine ⟨⟨k, hk, (ESpace.eqOp_iff k es).2 hke⟩, fun hc => ?_⟩
    have := hc k hk
    rw [(ESpace.eqOp_iff k es).2 hke] at this; cases this
  · have hno : ∀ k ∈ l, k.eqOp es = false := fun k hk => by
      by_contra hc
      exact hne k hk ((ESpace.eqOp_iff k es).1 (by simpa using hc))
    have hno' : ¬ ∃ k ∈ l, k.eqOp es = true := by
      rintro ⟨k, hk, hc⟩; rw [hno k hk] at hc; cases hc
    rw [bitSum_cons] at hadd
    split at hadd
    · next hb =>
      obtain ⟨hs', hadd⟩ := hadd
      rw [hadd]
      simp only [Option.some.injEq, reduceCtorEq, false_iff, hno', not_false_eq_true, true_and, not_and]
      intro _; omega
    · next hb =>
      rw [hadd]
      simp only [reduceCtorEq, false_iff, hno', not_false_eq_true, true_and, true_iff]
      exact ⟨hno, by omega⟩

/-- **C32** (partial: only spaces that do not need the sparse algorithm, see F5) Nested iterations over such a Hilbert space
do not disturb the outer one. -/
theorem C32_nested_foreach_partial (hs : HilbertSpace ι) (h : hs.foreachAlg = none) (nested : Nat → Bool) :
    hs.foreachNested nested = hs.foreach := by
  unfold HilbertSpace.foreachNested HilbertSpace.foreach
  rw [h]

/-- **C32 (finding F5)** With two bosonic modes of dimension 3, an inner iteration over the same space in every call of the
outer functor makes the outer iteration visit 0,…,8 instead of the nine valid states; 3 and 7 are not valid. -/
theorem C32_F5_nested_foreach_disturbed : ∃ hs : HilbertSpace Nat, Constructed hs ∧
    hs.foreach = [0, 1, 2, 4, 5, 6, 8, 9, 10] ∧ hs.foreachNested (fun _ => true) = [0, 1, 2, 3, 4, 5, 6, 7, 8] ∧
    ¬ ValidState hs 3 := by
  refine ⟨_, Constructed.ofArgs (l := sparseExample) ?_ rfl, by decide +kernel, by decide +kernel, by decide +kernel⟩
  intro es hes
  simp only [sparseExample, List.mem_cons, List.not_mem_nil, or_false] at hes
  rcases hes with rfl | rfl <;> exact wf_boson _ (by decide) _

/-- **C59** (partial: bosonic spaces are excluded, see F18) Hilbert spaces of fermions and spins that compare equal are
identical in every respect. -/
theorem C59_equal_spaces_partial (a b : HilbertSpace ι) (ha : Constructed a) (hb : Constructed b)
    (hA : ∀ es ∈ a.elementarySpaces, (∃ i, es = ESpace.fermion i) ∨ ∃ m i, es = ESpace.spin m i)
    (hB : ∀ es ∈ b.elementarySpaces, (∃ i, es = ESpace.fermion i) ∨ ∃ m i, es = ESpace.spin m i)
    (h : a.eqOp b = true) : a = b := by
  obtain ⟨l, hl, rfl⟩ := ha.canon
  obtain ⟨m, hm, rfl⟩ := hb.canon
  have hel : ∀ l : List (ESpace ι), (canon l).elementarySpaces = l := fun l => by
    unfold elementarySpaces; rw [canon_spaces, layout_fst]
  rw [hel] at hA hB
  suffices l = m by rw [this]
  unfold HilbertSpace.eqOp at h
  rw [Bool.and_eq_true, beq_iff_eq, canon_spaces, canon_spaces] at h
  obtain ⟨h1, h2⟩ := h
  have h1' : l.length = m.length := by
    have e1 := congrArg List.length (layout_fst 0 l)
    have e2 := congrArg List.length (layout_fst 0 m)
    rw [List.length_map] at e1 e2
    omega
  apply List.ext_getElem h1'
  intro i hi hi'
  rw [List.all_eq_true] at h2
  have q1 : (layout 0 l).length = l.length := by simpa using congrArg List.length (layout_fst 0 l)
  have q2 : (layout 0 m).length = m.length := by simpa using congrArg List.length (layout_fst 0 m)
  have h3 := h2 _ (List.getElem_mem (n := i) (by rw [List.length_zipWith, ← h1, q1, Nat.min_self]; exact hi))
  rw [List.getElem_zipWith] at h3
  simp only [id] at h3
  have hfst : ∀ (l : List (ESpace ι)) (i : Nat) (hi : i < l.length) (h' : i < (layout 0 l).length), ((layout 0 l)[i]).1 = l[i] := by
    intro l i hi h'
    have := layout_fst 0 l
    have e : ((layout 0 l).map (·.1))[i]'(by rw [List.length_map]; exact h') = l[i] := by simp only [this]
    rw [List.getElem_map] at e
    exact e
  rw [Bool.and_eq_true, hfst l i hi, hfst m i hi', ESpace.eqOp_iff, ESpace.key_eq_iff] at h3
  obtain ⟨⟨k1, k2, k3⟩, _⟩ := h3
  rcases hA l[i] (List.getElem_mem _) with ⟨x, hx⟩ | ⟨n, x, hx⟩ <;> rcases hB m[i] (List.getElem_mem _) with ⟨y, hy⟩ | ⟨n', y, hy⟩
  · rw [hx, hy] at k3 ⊢; simp only [ESpace.fermion] at k3; rw [k3]
  · rw [hx, hy] at k1; simp [ESpace.fermion, ESpace.spin] at k1
  · rw [hx, hy] at k1; simp [ESpace.fermion, ESpace.spin] at k1
  · rw [hx, hy] at k2 k3 ⊢; simp only [ESpace.spin] at k2 k3; rw [k2, k3]

/-- **C59 (finding F18)** Bosonic spaces are compared without their dimensions: modes truncated to 3 and to 4 states compare
equal although the Hilbert spaces have different dimensions. -/
theorem C59_F18_boson_dimension_ignored : ∃ a b : HilbertSpace Nat, Constructed a ∧ Constructed b ∧ a.eqOp b = true ∧
    a.dim = 3 ∧ b.dim = 4 := by
  refine ⟨_, _, Constructed.ofArgs (l := [ESpace.boson 3 0]) ?_ rfl, Constructed.ofArgs (l := [ESpace.boson 4 0]) ?_ rfl,
    by decide +kernel, by decide +kernel, by decide +kernel⟩
  · intro es hes; simp at hes; subst hes; exact wf_boson _ (by decide) _
  · intro es hes; simp at hes; subst hes; exact wf_boson _ (by decide) _

end LC
