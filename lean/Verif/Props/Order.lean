import Verif.Spec.TotalOrder
import Verif.Proof.Order
import Verif.Proof.DynIndices
/-
C01, C02, C03: comparison operators are strict total orders.
-/
namespace LC

theorem strictTotalOps_of {α : Type _} {eq lt gt : α → α → Bool} (he : ∀ a b, eq a b = true ↔ a = b)
    (hi : ∀ a, lt a a = false) (ht : ∀ a b c, lt a b = true → lt b c = true → lt a c = true)
    (htri : ∀ a b, lt a b = true ∨ a = b ∨ lt b a = true) (hg : ∀ a b, gt a b = lt b a) :
    StrictTotalOps eq lt gt where
  eq_iff := he
  trans := ht
  converse := hg
  exactly_one a b := by
    have asym : ∀ a b, lt a b = true → lt b a = false := fun a b h => by
      cases h' : lt b a with
      | false => rfl
      | true => have := ht _ _ _ h h'; rw [hi] at this; exact this.symm
    have hne : ∀ a b, lt a b = true → eq a b = false := fun a b h => by
      cases h' : eq a b with
      | false => rfl
      | true => rw [he] at h'; subst h'; rw [hi] at h; exact h.symm
    have hne' : ∀ a b, lt b a = true → eq a b = false := fun a b h => by
      cases h' : eq a b with
      | false => rfl
      | true => rw [he] at h'; subst h'; rw [hi] at h; exact h.symm
    rw [hg]
    rcases htri a b with h | h | h
    · exact Or.inl ⟨h, hne _ _ h, asym _ _ h⟩
    · subst h; exact Or.inr (Or.inl ⟨hi a, (he a a).2 rfl, hi a⟩)
    · exact Or.inr (Or.inr ⟨asym _ _ h, hne' _ _ h, h⟩)

/-- **C01** `==`, `<`, `>` of generators are a strict total order and `==` is equality of algebra, indices and kind. -/
theorem C01_generator_order {ι : Type _} [LinearOrder ι] :
    StrictTotalOps (Gen.eqOp (ι := ι)) Gen.ltOp Gen.gtOp :=
  strictTotalOps_of Gen.eqOp_iff Gen.ltOp_irrefl Gen.ltOp_trans Gen.ltOp_tri Gen.gtOp_eq

/-- **C01** (documented layout of the order) fermions precede bosons precede spins; among fermions and among bosons
creation operators precede annihilation operators, creation operators are ordered by increasing and annihilation
operators by decreasing index; spins are ordered by multiplicity, then index, then `S_+ < S_- < S_z`. -/
theorem C01_generator_order_layout {ι : Type _} [LinearOrder ι] :
    (∀ d (i : ι) e j, Gen.ltOp (.fermion d i) (.boson e j) = true) ∧
    (∀ d (i : ι) n c j, Gen.ltOp (.fermion d i) (.spin n c j) = true) ∧
    (∀ d (i : ι) n c j, Gen.ltOp (.boson d i) (.spin n c j) = true) ∧
    (∀ (i j : ι), Gen.ltOp (.fermion true i) (.fermion false j) = true) ∧
    (∀ (i j : ι), Gen.ltOp (.boson true i) (.boson false j) = true) ∧
    (∀ (i j : ι), Gen.ltOp (.fermion true i) (.fermion true j) = true ↔ i < j) ∧
    (∀ (i j : ι), Gen.ltOp (.fermion false i) (.fermion false j) = true ↔ j < i) ∧
    (∀ (i j : ι), Gen.ltOp (.boson true i) (.boson true j) = true ↔ i < j) ∧
    (∀ (i j : ι), Gen.ltOp (.boson false i) (.boson false j) = true ↔ j < i) ∧
    (∀ m c (i : ι) n e j, m < n → Gen.ltOp (.spin m c i) (.spin n e j) = true) ∧
    (∀ m c (i : ι) e j, i < j → Gen.ltOp (.spin m c i) (.spin m e j) = true) ∧
    (∀ m (i : ι), Gen.ltOp (.spin m .plus i) (.spin m .minus i) = true ∧
      Gen.ltOp (.spin m .minus i) (.spin m .z i) = true) := by
  refine ⟨?_, ?_, ?_, ?_, ?_, ?_, ?_, ?_, ?_, ?_, ?_, ?_⟩ <;> intros <;>
    simp [Gen.ltOp, Gen.less, Gen.algebraId, SpinComp.toNat]
  · rename_i h; simp [h, h.ne]
  · rename_i h; simp [h, h.ne]

example : Gen.ltOp (.fermion true (1 : Nat)) (.fermion true 2) = true ∧
    Gen.gtOp (.fermion false (1 : Nat)) (.fermion false 2) = true ∧
    Gen.ltOp (.spin 2 .z (5 : Nat)) (.spin 3 .plus 1) = true := by decide

/-- **C02** `==`, `<`, `>` of monomials are a strict total order (for every generator family whose own comparison
is one, in particular the predefined algebras). -/
theorem C02_monomial_order {G : Type _} [GenOps G]
    (hG : StrictTotalOps (GenOps.eq (G := G)) GenOps.lt GenOps.gt) :
    StrictTotalOps (monEq (G := G)) monLt monGt := by
  have : LawfulGen G := {
    eq_iff := hG.eq_iff
    lt_irrefl := fun a => by
      rcases hG.exactly_one a a with h | h | h
      · simp [(hG.eq_iff a a).2 rfl] at h
      · exact h.1
      · exact h.1
    lt_trans := hG.trans
    lt_tri := fun a b => by
      rcases hG.exactly_one a b with h | h | h
      · exact Or.inl h.1
      · exact Or.inr (Or.inl ((hG.eq_iff a b).1 h.2.1))
      · exact Or.inr (Or.inr ((hG.converse a b) ▸ h.2.2))
    gt_iff := hG.converse }
  exact strictTotalOps_of monEq_iff monLt_irrefl (fun _ _ _ => monLt_trans) monLt_tri monGt_eq

/-- **C02** for the predefined algebras. -/
theorem C02_monomial_order_predefined {ι : Type _} [LinearOrder ι] :
    StrictTotalOps (monEq (G := Gen ι)) monLt monGt := C02_monomial_order C01_generator_order

/-- **C02** shorter monomials precede longer ones. -/
theorem C02_shorter_first {G : Type _} [GenOps G] (a b : List G) (h : a.length < b.length) :
    monLt a b = true ∧ monLt b a = false := by
  have h1 : a.length ≠ b.length := by omega
  simp [monLt, h1, h1.symm]; omega

example : monLt [Gen.fermion true (1 : Nat), .fermion false 3] [.fermion true 1, .fermion false 2] = true := by decide

/-- **C03** `==`, `<`, `>` of dynamic index sequences are a strict total order. -/
theorem C03_dyn_indices_order {α β : Type _} [LinearOrder α] [LinearOrder β] :
    StrictTotalOps (DynIndices.eqOp (α := α) (β := β)) DynIndices.ltOp DynIndices.gtOp :=
  strictTotalOps_of DynIndices.eqOp_iff DynIndices.ltOp_irrefl (fun _ _ _ => DynIndices.ltOp_trans)
    DynIndices.ltOp_tri DynIndices.gtOp_eq

/-- **C03** the order is: length first, then lexicographic, integers before strings. -/
theorem C03_dyn_indices_layout {α β : Type _} [LinearOrder α] [LinearOrder β] :
    (∀ u v : List (DynIndex α β), u.length < v.length → DynIndices.ltOp ⟨u⟩ ⟨v⟩ = true) ∧
    (∀ (p u v : List (DynIndex α β)) a b, u.length = v.length → DynIndex.ltOp a b = true →
      DynIndices.ltOp ⟨p ++ a :: u⟩ ⟨p ++ b :: v⟩ = true) ∧
    (∀ (i : α) (s : β), DynIndex.ltOp (.int i) (.str s) = true) ∧
    (∀ (i j : α), DynIndex.ltOp (β := β) (.int i) (.int j) = true ↔ i < j) ∧
    (∀ (s t : β), DynIndex.ltOp (α := α) (.str s) (.str t) = true ↔ s < t) := by
  refine ⟨?_, ?_, fun _ _ => rfl, by simp [DynIndex.ltOp], by simp [DynIndex.ltOp]⟩
  · intro u v h
    simp only [DynIndices.ltOp]
    rw [if_pos (by omega)]; simpa using h
  · intro p u v a b h hab
    simp only [DynIndices.ltOp]
    rw [if_neg (by simp [h])]
    induction p with
    | nil => simp [DynIndices.vecLt, hab]
    | cons q p ih => simpa [DynIndices.vecLt, DynIndex.lt_irrefl] using ih

/-- **C03** hence the generator order (C01) also covers generators carrying dynamic index sequences. -/
theorem C03_generators_with_dyn_indices {α β : Type _} [LinearOrder α] [LinearOrder β] :
    StrictTotalOps (Gen.eqOp (ι := DynIndices α β)) Gen.ltOp Gen.gtOp := C01_generator_order

example : DynIndices.ltOp (α := Int) (β := Nat) ⟨[.int 3, .str 1]⟩ ⟨[.int 3, .str 2]⟩ = true := by decide

/-- **C01** index tuples: `std::tuple` compares lexicographically, so tuples of totally ordered indices are totally
ordered (`tupleLt` is the strict lexicographic order). -/
theorem C01_tuple_order {α β : Type _} [LinearOrder α] [LinearOrder β] :
    StrictTotalOps (fun t u : α × β => decide (t.1 = u.1) && decide (t.2 = u.2))
      (tupleLt (fun a b => decide (a < b)) (fun a b => decide (a < b)))
      (fun t u => tupleLt (fun a b => decide (a < b)) (fun a b => decide (a < b)) u t) := by
  refine strictTotalOps_of ?_ ?_ ?_ ?_ (fun _ _ => rfl)
  · rintro ⟨a, b⟩ ⟨c, d⟩; simp
  · rintro ⟨a, b⟩; simp [tupleLt]
  · rintro ⟨a, b⟩ ⟨c, d⟩ ⟨e, f⟩; simp only [tupleLt, Bool.or_eq_true, Bool.and_eq_true, Bool.not_eq_true', decide_eq_true_eq,
      decide_eq_false_iff_not, not_lt]
    rintro (h | ⟨h, h1⟩) (h' | ⟨h', h1'⟩)
    · left; order
    · left; order
    · left; order
    · right; exact ⟨by order, by order⟩
  · rintro ⟨a, b⟩ ⟨c, d⟩; simp only [tupleLt, Bool.or_eq_true, Bool.and_eq_true, Bool.not_eq_true', decide_eq_true_eq,
      decide_eq_false_iff_not, not_lt, Prod.mk.injEq]
    rcases lt_trichotomy a c with h | h | h
    · simp [h]
    · subst h
      rcases lt_trichotomy b d with h | h | h <;> simp [h]
    · simp [h]

end LC
