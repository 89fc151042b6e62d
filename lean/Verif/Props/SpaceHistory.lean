import Verif.Proof.SpaceHistory
import Verif.Props.HilbertSpace
/-
C89: histories of Hilbert space variables. `SpaceOp.expectAll`, `SameAnswers` and `Buildable` are in Spec/SpaceHistory.lean.
-/
set_option linter.unusedSectionVars false
namespace LC
open HilbertSpace
variable {ι : Type _} [LinearOrder ι]

/-- **C89** (partial: nothing is said about self-assigned and moved-from objects, findings F37 and F38, about objects whose
`add()` has thrown `hilbert_space_too_big`, F16, and about the algebra queries of copies, F1) For every program that creates,
extends, copies, assigns, moves and destroys Hilbert space variables: a variable that the user expects to be the product of
some elementary spaces answers every question like a space built from these elementary spaces in one go (in any order). -/
theorem C89_history_partial (ops : List (SpaceOp ι)) (hops : ∀ op ∈ ops, op.Wf) (v : Nat) (l : List (ESpace ι)) (alg : Bool)
    (hv : SpaceOp.expectAll ops v = .product l alg) :
    ∃ hs ref, SpaceOp.runAll ops v = some hs ∧ HilbertSpace.ofArgs l = .ok ref ∧ SameAnswers hs ref alg := by
  have h := holds_all ops hops v
  rw [hv] at h
  obtain ⟨m, a, h1, h2, h3, h4⟩ := h
  have hl : ∀ es ∈ l, es.Wf := fun es he => h2.wf es (h1.symm.subset he)
  have hacc : Acceptable l := (acceptable_perm h1).1 ⟨h2.sorted.nodup, h2.bits⟩
  obtain ⟨m', p1, p2, p3⟩ := (ofArgs_spec l hl).1 hacc
  have : m' = m := sortedES_perm_unique p2.sorted h2.sorted (p1.trans h1.symm)
  subst this
  exact ⟨_, _, h3, p3, sameAnswers_canon m' a alg h4⟩

/-- **C89** A variable is alive exactly if the user expects it to be: constructors fail exactly on lists with repeated spaces
or more than 63 bits, and no other operation creates or destroys an object. -/
theorem C89_alive (ops : List (SpaceOp ι)) (hops : ∀ op ∈ ops, op.Wf) (v : Nat) :
    SpaceOp.runAll ops v = none ↔ SpaceOp.expectAll ops v = .dead := (dead_iff (holds_all ops hops v)).symm

/-- **C89** After every history, `add()` on a variable expected to be a product throws `elementary_space_exists` exactly if the
space is one of the factors, and succeeds exactly if it is not and at most 63 bits are needed then; this also holds for
copies and moved objects. -/
theorem C89_add_outcome (ops : List (SpaceOp ι)) (hops : ∀ op ∈ ops, op.Wf) (v : Nat) (l : List (ESpace ι)) (alg : Bool)
    (hv : SpaceOp.expectAll ops v = .product l alg) (es : ESpace ι) (hes : es.Wf) :
    (SpaceOp.addOutcome (SpaceOp.runAll ops) v es = some .exists_ ↔ ∃ k ∈ l, k.eqOp es = true) ∧
    (SpaceOp.addOutcome (SpaceOp.runAll ops) v es = none ↔
      (∀ k ∈ l, k.eqOp es = false) ∧ es.nBits + (l.map ESpace.nBits).sum ≤ 63) := by
  have h := holds_all ops hops v
  rw [hv] at h
  obtain ⟨m, a, h1, h2, h3, h4⟩ := h
  have hmem : ∀ (p : ESpace ι → Prop), (∃ k ∈ l, p k) ↔ ∃ k ∈ m, p k := fun p => by
    constructor
    · rintro ⟨k, hk, hp⟩; exact ⟨k, h1.symm.subset hk, hp⟩
    · rintro ⟨k, hk, hp⟩; exact ⟨k, h1.subset hk, hp⟩
  have hall : (∀ k ∈ l, k.eqOp es = false) ↔ ∀ k ∈ m, k.eqOp es = false :=
    ⟨fun h k hk => h k (h1.subset hk), fun h k hk => h k (h1.symm.subset hk)⟩
  have hbits : (l.map ESpace.nBits).sum = bitSum m := (bitSum_perm h1).symm
  have hout : SpaceOp.addOutcome (SpaceOp.runAll ops) v es = ((canon m).add es).2 := by
    unfold SpaceOp.addOutcome
    rw [h3]
    simp only [Option.bind_some, add_withAlg]
    split
    · next hn =>
      unfold HilbertSpace.add
      cases he : emplaceSpace es (canon m).spaces with
      | none => rfl
      | some sp => rw [he] at hn; simp at hn
    · rfl
  rw [hout, hmem, hall, hbits]
  have hel : (canon m).elementarySpaces = m := by unfold elementarySpaces; rw [canon_spaces, layout_fst]
  have hc : Constructed (canon m) := by
    obtain ⟨m', p1, p2, p3⟩ := (ofArgs_spec m h2.wf).1 ⟨h2.sorted.nodup, h2.bits⟩
    have : m' = m := sortedES_perm_unique p2.sorted h2.sorted p1
    subst this
    exact Constructed.ofArgs h2.wf p3
  have key := C31_add_throws_iff (canon m) hc es hes
  rw [hel, canon_total] at key
  refine ⟨key.1, key.2.trans (and_congr Iff.rfl ?_)⟩
  constructor <;> intro h <;> push_cast at * <;> omega

/-- The hypotheses of `C89_history_partial` are met: two spaces, a copy that is extended, an assignment over a moved-from
variable. -/
example : ∃ ops : List (SpaceOp Nat), (∀ op ∈ ops, op.Wf) ∧
    SpaceOp.expectAll ops 0 = .product [ESpace.spin 3 1, ESpace.fermion 0] false ∧
    SpaceOp.expectAll ops 1 = .product [ESpace.spin 3 1, ESpace.fermion 0] true ∧
    SpaceOp.expectAll ops 2 = .product [ESpace.fermion 0] true ∧
    SpaceOp.expectAll ops 3 = .dead := by
  refine ⟨[.construct 0 [ESpace.fermion 0], .copy 1 0, .add 1 (ESpace.spin 3 1), .add 1 (ESpace.spin 3 1), .move 2 0, .assign 0 1,
    .construct 3 [ESpace.fermion 0, ESpace.fermion 0]], ?_, by decide +kernel, by decide +kernel, by decide +kernel,
    by decide +kernel⟩
  intro op hop
  simp only [List.mem_cons, List.not_mem_nil, or_false] at hop
  rcases hop with rfl | rfl | rfl | rfl | rfl | rfl | rfl <;> simp only [SpaceOp.Wf]
  · intro es he; simp at he; subst he; exact wf_fermion 0
  · exact wf_spin 3 (by decide) 1
  · exact wf_spin 3 (by decide) 1
  · intro es he; simp at he; subst he; exact wf_fermion 0

/-- **C89 (finding F37)** Self-assignment `v = v` destroys the value: whatever product `v` is, afterwards it has no elementary
spaces at all and denies having any of its factors, while `dim()` and `total_n_bits()` are those of the old product. -/
theorem C89_F37_self_assignment (ops : List (SpaceOp ι)) (hops : ∀ op ∈ ops, op.Wf) (v : Nat) (l : List (ESpace ι)) (alg : Bool)
    (hv : SpaceOp.expectAll ops v = .product l alg) :
    ∃ hs hs', SpaceOp.runAll ops v = some hs ∧ SpaceOp.runAll (ops ++ [.assign v v]) v = some hs' ∧
      hs.size = l.length ∧ (∀ es ∈ l, hs.has es = true) ∧
      hs'.size = 0 ∧ (∀ es, hs'.has es = false) ∧ hs'.dim = hs.dim ∧ hs'.totalNBits = hs.totalNBits ∧
      (l ≠ [] → hs'.eqOp hs = false) := by
  have h := holds_all ops hops v
  rw [hv] at h
  obtain ⟨m, a, h1, h2, h3, h4⟩ := h
  refine ⟨_, { ({ canon m with algRanges := a } : HilbertSpace ι) with spaces := [] }, h3, ?_, ?_, ?_, rfl, fun _ => rfl, rfl, rfl, ?_⟩
  · unfold SpaceOp.runAll
    rw [List.foldl_append]
    show SpaceOp.run (SpaceOp.runAll ops) (.assign v v) v = _
    simp only [SpaceOp.run, h3, Option.isSome_some, Bool.and_self, if_true]
    rw [copyAssignOp_self _ h3, SpaceMem.put_same]
  · show (layout 0 m).length = l.length
    rw [← h1.length_eq]
    conv_rhs => rw [← layout_fst 0 m]
    simp
  · intro es he
    have hm : es ∈ (canon m).elementarySpaces := by
      unfold elementarySpaces; rw [canon_spaces, layout_fst]; exact h1.symm.subset he
    show (findSpace es (canon m).spaces).isSome = true
    have hsort : SortedES ((canon m).spaces.map (·.1)) := by rw [canon_spaces, layout_fst]; exact h2.sorted
    obtain ⟨p, hp, hpe⟩ := List.mem_map.1 hm
    have := findSpace_of_mem hsort hp (es := es) (by rw [hpe])
    rw [this]; rfl
  · intro hne
    have hlen : (layout 0 m).length ≠ 0 := by
      have : (layout 0 m).length = l.length := by
        rw [← h1.length_eq]; conv_rhs => rw [← layout_fst 0 m]
        simp
      rw [this]; simpa using hne
    show ((([] : List (ESpace ι × BitRange)).length == (layout 0 m).length) && _) = false
    simp [hlen.symm]

/-- **C89 (finding F38)** A moved-from space looks empty (`size() = 0`) but keeps `dim()` and `total_n_bits()`; spaces added to
it get the right bit ranges, but `dim()` is the old dimension times the new one, so `foreach()` runs beyond the end. Here a
spin-1/2 is added to a variable from which a three-level spin was moved. -/
theorem C89_F38_moved_from_add : ∃ (ops : List (SpaceOp Nat)) (a b : HilbertSpace Nat), (∀ op ∈ ops, op.Wf) ∧
    SpaceOp.runAll ops 0 = some a ∧ SpaceOp.runAll (ops ++ [.add 0 (ESpace.spin 2 0)]) 0 = some b ∧
    a.size = 0 ∧ a.dim = 3 ∧ a.totalNBits = 2 ∧ a.isSparse = true ∧
    b.elementarySpaces = [ESpace.spin 2 0] ∧ b.dim = 6 ∧ b.vecSize = 2 ∧ b.foreach = [0, 1, 2, 3, 4, 5] := by
  refine ⟨[.construct 0 [ESpace.spin 3 0], .move 1 0], _, _, ?_, rfl, rfl, by decide +kernel, by decide +kernel,
    by decide +kernel, by decide +kernel, by decide +kernel, by decide +kernel, by decide +kernel, by decide +kernel⟩
  intro op hop
  simp only [List.mem_cons, List.not_mem_nil, or_false] at hop
  rcases hop with rfl | rfl <;> simp only [SpaceOp.Wf]
  intro es he; simp at he; subst he; exact wf_spin 3 (by decide) 0

end LC
