import Verif.Proof.StateVec
/-
C42: sparse state vectors.
-/
set_option linter.unusedSectionVars false
namespace LC
variable {H T : Type _} [HashImpl H Nat T] [AddCommMonoid T] [DecidableEq T]

/-- The operations on a sparse state vector. -/
inductive SVOp (T : Type _) where
  | updateAdd (n : Nat) (x : T)
  /-- `sv[n] = x` -/
  | set (n : Nat) (x : T)
  | setZeros
  | prune
  | pruneIf (p : T → Bool)
  | copy

/-- Run one operation of the code. -/
def SVOp.run (sv : SparseSV H T) : SVOp T → SparseSV H T
  | .updateAdd n x => sv.updateAdd n x
  | .set n x => sv.set n x
  | .setZeros => sv.setZeros
  | .prune => sv.prune
  | .pruneIf p => sv.pruneIf p
  | .copy => sv.copy

/-- What the operation means for the amplitudes. -/
def SVOp.meaning (ψ : Nat → T) : SVOp T → Nat → T
  | .updateAdd n x => fun k => if k = n then ψ k + x else ψ k
  | .set n x => fun k => if k = n then x else ψ k
  | .setZeros => fun _ => 0
  | .prune => ψ
  | .pruneIf p => fun k => if p (ψ k) then 0 else ψ k
  | .copy => ψ

/-- The operation does not store a zero through `operator[]`. -/
def SVOp.NonzeroSet : SVOp T → Prop
  | .set _ x => x ≠ 0
  | _ => True

/-- No zero is stored. -/
def SparseSV.Clean (sv : SparseSV H T) : Prop := ∀ p ∈ sv.data.items, p.2 ≠ 0

theorem clean_iff {sv : SparseSV H T} (h : sv.data.Nodup) : sv.Clean ↔ ∀ k, sv.data.find? k ≠ some 0 := by
  constructor
  · intro hc k hk
    exact hc _ ((UMap.find?_iff h _ _).1 hk) rfl
  · rintro hc ⟨k, x⟩ hp h0
    have h0' : x = 0 := h0
    subst h0'
    exact hc k ((UMap.find?_iff h _ _).2 hp)

theorem SVOp.run_spec {sv : SparseSV H T} (h : sv.data.Nodup) (op : SVOp T) :
    (op.run sv).data.Nodup ∧ (∀ k, (op.run sv).getElement k = op.meaning sv.getElement k) ∧
      (sv.Clean → op.NonzeroSet → (op.run sv).Clean) ∧ (op.run sv).size = sv.size := by
  cases op with
  | updateAdd n x =>
    obtain ⟨h1, h2⟩ := SparseSV.updateAdd_spec h n x
    refine ⟨h1, fun k => ?_, fun hc _ => ?_, ?_⟩
    · simp only [run, meaning, SparseSV.getElement_updateAdd h]
      split <;> simp
    · rw [clean_iff h] at hc
      simp only [run]
      rw [clean_iff h1]
      intro k
      rw [h2]
      split
      · split
        · simp
        · next h0 => simpa using h0
      · exact hc k
    · simp only [run, SparseSV.updateAdd]
      split
      · split <;> rfl
      · split <;> rfl
  | set n x =>
    obtain ⟨h1, h2⟩ := UMap.set_spec h n x
    refine ⟨h1, fun k => ?_, fun hc hx => ?_, rfl⟩
    · simp only [run, meaning, SparseSV.getElement_eq]
      simp only [SparseSV.set, h2]
      split <;> rfl
    · rw [clean_iff h] at hc
      simp only [run]
      rw [clean_iff h1]
      intro k
      simp only [SparseSV.set, h2]
      split
      · have hx' : x ≠ 0 := hx
        simpa using hx'
      · exact hc k
  | setZeros =>
    refine ⟨by simp [run, SparseSV.setZeros, UMap.Nodup], fun k => rfl, fun _ _ => ?_, rfl⟩
    intro p hp; simp [run, SparseSV.setZeros] at hp
  | prune =>
    obtain ⟨h1, h2⟩ := UMap.eraseIf_spec h fun a : T => decide (a = 0)
    refine ⟨h1, fun k => ?_, fun hc _ p hp => ?_, rfl⟩
    · simp only [run, meaning, SparseSV.getElement_eq]
      simp only [SparseSV.prune, SparseSV.pruneIf, h2]
      cases sv.data.find? k with
      | none => rfl
      | some a => by_cases ha : a = 0 <;> simp [Option.filter, ha]
    · exact hc p (List.mem_filter.1 hp).1
  | pruneIf q =>
    obtain ⟨h1, h2⟩ := UMap.eraseIf_spec h q
    refine ⟨h1, fun k => ?_, fun hc _ p hp => ?_, rfl⟩
    · simp only [run, meaning, SparseSV.getElement_eq]
      simp only [SparseSV.pruneIf, h2]
      cases sv.data.find? k with
      | none => simp [Option.filter]
      | some a => by_cases ha : q a <;> simp [Option.filter, ha]
    · exact hc p (List.mem_filter.1 hp).1
  | copy =>
    obtain ⟨h1, h2⟩ := UMap.copy_spec h
    refine ⟨h1, fun k => ?_, fun hc _ => ?_, rfl⟩
    · simp only [run, meaning, SparseSV.getElement_eq]
      simp only [SparseSV.copy, h2]
    · rw [clean_iff h] at hc
      simp only [run]
      rw [clean_iff h1]
      intro k
      simp only [SparseSV.copy, h2]; exact hc k

theorem SVOp.runs_spec (ops : List (SVOp T)) {sv : SparseSV H T} (h : sv.data.Nodup) :
    (ops.foldl SVOp.run sv).data.Nodup ∧ (∀ k, (ops.foldl SVOp.run sv).getElement k = ops.foldl SVOp.meaning sv.getElement k) ∧
      (sv.Clean → (∀ op ∈ ops, op.NonzeroSet) → (ops.foldl SVOp.run sv).Clean) := by
  induction ops generalizing sv with
  | nil => exact ⟨h, fun k => rfl, fun hc _ => hc⟩
  | cons op ops ih =>
    obtain ⟨h1, h2, h3, _⟩ := op.run_spec h
    obtain ⟨g1, g2, g3⟩ := ih h1
    refine ⟨g1, fun k => ?_, fun hc hn => g3 (h3 hc (hn op (by simp))) fun o ho => hn o (by simp [ho])⟩
    rw [List.foldl_cons, g2, List.foldl_cons, show (op.run sv).getElement = op.meaning sv.getElement from funext h2]

/-- **C42** After any history of operations on a new vector, whatever the iteration order of the hash table, `get_element(n)`
is the accumulated amplitude; and if no zero has been written through `operator[]`, or the zeros have been removed with
`prune()`, `foreach` visits exactly the indices with non-zero amplitudes, each once, with their amplitudes, and
`n_nonzeros()` is their number. -/
theorem C42_sparse_refines_amplitudes (size : Nat) (ops : List (SVOp T)) :
    let sv : SparseSV H T := ops.foldl SVOp.run (SparseSV.make size)
    let ψ : Nat → T := ops.foldl SVOp.meaning fun _ => 0
    (∀ n, sv.getElement n = ψ n) ∧
    (((∀ op ∈ ops, op.NonzeroSet) ∨ ∃ ops', ops = ops' ++ [.prune]) →
      (sv.foreach.map Prod.fst).Nodup ∧ (∀ n a, (n, a) ∈ sv.foreach ↔ ψ n = a ∧ a ≠ 0) ∧
      sv.nNonzeros = Set.ncard {n | ψ n ≠ 0}) := by
  intro sv ψ
  have h0 : (SparseSV.make size : SparseSV H T).data.Nodup := UMap.nodup_empty
  have c0 : (SparseSV.make size : SparseSV H T).Clean := by intro p hp; simp [SparseSV.make, UMap.empty] at hp
  obtain ⟨h1, h2, h3⟩ := SVOp.runs_spec ops h0
  have e0 : (SparseSV.make size : SparseSV H T).getElement = fun _ => 0 := rfl
  have hget : ∀ n, sv.getElement n = ψ n := by intro n; rw [h2, e0]
  refine ⟨hget, fun hcl => ?_⟩
  have hclean : sv.Clean := by
    rcases hcl with hn | ⟨ops', rfl⟩
    · exact h3 c0 hn
    · intro p hp
      simp only [sv, List.foldl_append, List.foldl_cons, List.foldl_nil, SVOp.run, SparseSV.prune, SparseSV.pruneIf,
        UMap.eraseIf, List.mem_filter] at hp
      simpa using hp.2
  have hmem : ∀ n a, (n, a) ∈ sv.foreach ↔ ψ n = a ∧ a ≠ 0 := by
    intro n a
    rw [← hget, SparseSV.getElement_eq]
    constructor
    · intro hp
      exact ⟨by rw [(UMap.find?_iff h1 n a).2 hp]; rfl, hclean _ hp⟩
    · rintro ⟨he, ha⟩
      apply (UMap.find?_iff h1 n a).1
      cases hf : sv.data.find? n with
      | none => rw [hf] at he; exact absurd he.symm ha
      | some b => rw [hf] at he; simpa using he
  refine ⟨h1, hmem, ?_⟩
  have : {n | ψ n ≠ 0} = ((sv.foreach.map Prod.fst).toFinset : Set Nat) := by
    ext n
    rw [Set.mem_ofPred_eq, Finset.mem_coe, List.mem_toFinset, List.mem_map]
    constructor
    · intro h; exact ⟨(n, ψ n), (hmem _ _).2 ⟨rfl, h⟩, rfl⟩
    · rintro ⟨⟨n', a⟩, hp, rfl⟩
      obtain ⟨h, h'⟩ := (hmem _ _).1 hp
      rw [h]; exact h'
  rw [this, Set.ncard_coe_finset, List.toFinset_card_of_nodup (show (sv.foreach.map Prod.fst).Nodup from h1), List.length_map]
  rfl

/-- An implementation that inserts at the front, and one that inserts at the back: the assumptions on hash tables can be met
in several ways. -/
@[reducible] def frontHash (K V : Type _) : HashImpl Unit K V where
  fresh := ()
  insert _ l p := ((), p :: l)
  erase _ _ _ := ()
  copy _ l := ((), l.reverse)
  insert_perm _ _ _ := List.Perm.refl _
  copy_perm _ l := List.reverse_perm l

/-- The hypotheses are met by a history that accumulates, cancels and overwrites. -/
example : letI := frontHash Nat ℤ
    (([.updateAdd 3 5, .updateAdd 7 1, .updateAdd 3 (-5), .set 2 4, .copy, .updateAdd 2 1] : List (SVOp ℤ)).foldl SVOp.run
      (SparseSV.make 8 : SparseSV Unit ℤ)).foreach = [(7, 1), (2, 5)] := by decide +kernel

end LC
