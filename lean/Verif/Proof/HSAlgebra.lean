import Verif.Proof.HSBuild
/-
Bit ranges of the algebras.
-/
set_option linter.unusedSectionVars false
set_option linter.unusedSimpArgs false
namespace LC
variable {ι : Type _} [LinearOrder ι]
namespace HilbertSpace

/-- Sorted keys. -/
def SortedAlg (alg : List (Int × BitRange)) : Prop := alg.Pairwise fun p q => p.1 < q.1

/-- Widening of a range. -/
def widen (q r : BitRange) : BitRange :=
  ⟨if r.first < q.first then r.first else q.first, if r.second > q.second then r.second else q.second⟩

theorem lookup_none_of_lt {alg : List (Int × BitRange)} {a : Int} (h : ∀ p ∈ alg, a < p.1) : alg.lookup a = none := by
  rw [List.lookup_eq_none_iff]
  intro p hp
  have := h p hp
  simp; omega

theorem updateAlg_keys (a : Int) (r : BitRange) (alg : List (Int × BitRange)) :
    ∀ p ∈ updateAlg a r alg, p.1 = a ∨ ∃ q ∈ alg, q.1 = p.1 := by
  induction alg with
  | nil => simp [updateAlg]
  | cons q t ih =>
    obtain ⟨k, q⟩ := q
    intro p hp
    rw [updateAlg] at hp
    split at hp
    · rcases List.mem_cons.1 hp with rfl | hp
      · exact Or.inr ⟨_, List.mem_cons_self, rfl⟩
      · rcases ih p hp with h | ⟨q, hq, h⟩
        · exact Or.inl h
        · exact Or.inr ⟨q, List.mem_cons_of_mem _ hq, h⟩
    · split at hp
      · rcases List.mem_cons.1 hp with rfl | hp
        · exact Or.inl rfl
        · exact Or.inr ⟨p, hp, rfl⟩
      · rcases List.mem_cons.1 hp with rfl | hp
        · exact Or.inr ⟨_, List.mem_cons_self, rfl⟩
        · exact Or.inr ⟨p, List.mem_cons_of_mem _ hp, rfl⟩

theorem updateAlg_sorted {alg : List (Int × BitRange)} (h : SortedAlg alg) (a : Int) (r : BitRange) :
    SortedAlg (updateAlg a r alg) := by
  induction alg with
  | nil => simp [updateAlg, SortedAlg]
  | cons q t ih =>
    obtain ⟨k, q⟩ := q
    simp only [SortedAlg, List.pairwise_cons] at h
    rw [updateAlg]
    split
    · next h1 =>
      refine List.pairwise_cons.2 ⟨fun p hp => ?_, ih h.2⟩
      rcases updateAlg_keys a r t p hp with e | ⟨q', hq', e⟩
      · simp only; omega
      · rw [← e]; exact h.1 q' hq'
    · split
      · next h1 h2 =>
        refine List.pairwise_cons.2 ⟨fun p hp => ?_, List.pairwise_cons.2 h⟩
        rcases List.mem_cons.1 hp with rfl | hp
        · exact h2
        · exact lt_trans h2 (h.1 p hp)
      · exact List.pairwise_cons.2 ⟨h.1, h.2⟩

theorem lookup_updateAlg {alg : List (Int × BitRange)} (h : SortedAlg alg) (a b : Int) (r : BitRange) :
    (updateAlg a r alg).lookup b = if b = a then some (((alg.lookup a).map (widen · r)).getD r) else alg.lookup b := by
  induction alg with
  | nil =>
    simp only [updateAlg, List.lookup_nil, Option.map_none, Option.getD_none, List.lookup_cons]
    by_cases hb : b = a
    · simp [hb]
    · have : (b == a) = false := by simpa using hb
      simp [this, hb]
  | cons q t ih =>
    obtain ⟨k, q⟩ := q
    simp only [SortedAlg, List.pairwise_cons] at h
    rw [updateAlg]
    split
    · next h1 =>
      rw [List.lookup_cons, List.lookup_cons (a := a), List.lookup_cons (a := b), ih h.2]
      have e1 : (a == k) = false := by simp; omega
      rw [e1]
      by_cases hb : b = a
      · subst hb; rw [e1]
      · simp [hb]
    · split
      · next h1 h2 =>
        have hn : (((k, q) :: t).lookup a) = none := by
          apply lookup_none_of_lt
          intro p hp
          rcases List.mem_cons.1 hp with rfl | hp
          · exact h2
          · exact lt_trans h2 (h.1 p hp)
        rw [hn, List.lookup_cons]
        by_cases hb : b = a
        · simp [hb]
        · have : (b == a) = false := by simpa using hb
          simp [this, hb]
      · next h1 h2 =>
        have e : k = a := by omega
        subst e
        rw [List.lookup_cons, List.lookup_cons (a := k), List.lookup_cons (a := b)]
        by_cases hb : b = k
        · subst hb; simp [widen]
        · have : (b == k) = false := by simpa using hb
          simp [this, hb]

/-- Bits taken by the spaces with algebra ID below / up to `a`. -/
def bitsBelow (a : Int) (l : List (ESpace ι)) : Nat := bitSum (l.filter fun es => decide (es.algebraId < a))
def bitsUpTo (a : Int) (l : List (ESpace ι)) : Nat := bitSum (l.filter fun es => decide (es.algebraId ≤ a))

theorem bitsBelow_le (a : Int) (l : List (ESpace ι)) : bitsBelow a l ≤ bitSum l := by
  unfold bitsBelow
  exact (List.filter_sublist.map _).sum_le_sum (by simp)

theorem layout_append (b : Nat) (l m : List (ESpace ι)) : layout b (l ++ m) = layout b l ++ layout (b + bitSum l) m := by
  induction l generalizing b with
  | nil => simp [layout]
  | cons es l ih => simp [layout, ih, Nat.add_assoc]

theorem algebraId_le_of_key {x y : ESpace ι} (h : x.key < y.key) : x.algebraId ≤ y.algebraId := by
  unfold ESpace.key at h
  rw [Prod.Lex.lt_iff] at h
  simp only [ofLex_toLex] at h
  rcases h with h | ⟨h, _⟩
  · exact h.le
  · exact h.le

theorem algOf_spec (l : List (ESpace ι)) (h : SortedES l) :
    SortedAlg (algOf (layout 0 l) []) ∧ ∀ a, (algOf (layout 0 l) []).lookup a =
      if ∃ es ∈ l, es.algebraId = a then some ⟨bitsBelow a l, (bitsUpTo a l : Int) - 1⟩ else none := by
  induction l using List.reverseRecOn with
  | nil => simp [layout, algOf, SortedAlg]
  | append_singleton l es ih =>
    have hl : SortedES l := (List.pairwise_append.1 h).1
    have hes : ∀ x ∈ l, x.algebraId ≤ es.algebraId := fun x hx =>
      algebraId_le_of_key ((List.pairwise_append.1 h).2.2 x hx es (by simp))
    obtain ⟨h1, h2⟩ := ih hl
    have e : algOf (layout 0 (l ++ [es])) [] =
        updateAlg es.algebraId ⟨(bitSum l : Nat), ((bitSum l : Nat) : Int) + es.nBits - 1⟩ (algOf (layout 0 l) []) := by
      rw [layout_append, algOf, List.foldl_append]
      simp [layout, algOf]
    rw [e]
    refine ⟨updateAlg_sorted h1 _ _, fun a => ?_⟩
    rw [lookup_updateAlg h1]
    by_cases ha : a = es.algebraId
    · subst ha
      rw [if_pos rfl, if_pos ⟨es, by simp, rfl⟩]
      have hup : bitsUpTo es.algebraId (l ++ [es]) = bitSum l + es.nBits := by
        unfold bitsUpTo
        have : (l ++ [es]).filter (fun x => decide (x.algebraId ≤ es.algebraId)) = l ++ [es] := by
          apply List.filter_eq_self.2
          intro x hx
          rcases List.mem_append.1 hx with hx | hx
          · simpa using hes x hx
          · simp at hx; subst hx; simp
        rw [this]; simp
      have hbelow : bitsBelow es.algebraId (l ++ [es]) = bitsBelow es.algebraId l := by
        unfold bitsBelow
        rw [List.filter_append]; simp
      rw [hup, hbelow, h2]
      congr 1
      by_cases hex : ∃ x ∈ l, x.algebraId = es.algebraId
      · rw [if_pos hex]
        simp only [Option.map_some, Option.getD_some, widen]
        have hle := bitsBelow_le es.algebraId l
        have hup' : bitsUpTo es.algebraId l = bitSum l := by
          unfold bitsUpTo
          rw [List.filter_eq_self.2]
          intro x hx; simpa using hes x hx
        rw [if_neg (by omega), hup']
        congr 1
        split <;> push_cast <;> omega
      · rw [if_neg hex]
        simp only [Option.map_none, Option.getD_none]
        have : bitsBelow es.algebraId l = bitSum l := by
          unfold bitsBelow
          rw [List.filter_eq_self.2]
          intro x hx
          have h3 := hes x hx
          have h4 : x.algebraId ≠ es.algebraId := fun hc => hex ⟨x, hx, hc⟩
          simp; omega
        rw [this]
        congr 1
    · rw [if_neg ha, h2]
      have hex : (∃ x ∈ l ++ [es], x.algebraId = a) ↔ ∃ x ∈ l, x.algebraId = a := by
        constructor
        · rintro ⟨x, hx, rfl⟩
          rcases List.mem_append.1 hx with hx | hx
          · exact ⟨x, hx, rfl⟩
          · simp at hx; subst hx; exact (ha rfl).elim
        · rintro ⟨x, hx, rfl⟩; exact ⟨x, by simp [hx], rfl⟩
      simp only [hex]
      split
      · next hx =>
        obtain ⟨x, hx, rfl⟩ := hx
        have hlt : x.algebraId < es.algebraId := lt_of_le_of_ne (hes x hx) ha
        have e1 : bitsBelow x.algebraId (l ++ [es]) = bitsBelow x.algebraId l := by
          unfold bitsBelow
          rw [List.filter_append, List.filter_cons_of_neg (by simp; omega)]; simp
        have e2 : bitsUpTo x.algebraId (l ++ [es]) = bitsUpTo x.algebraId l := by
          unfold bitsUpTo
          rw [List.filter_append, List.filter_cons_of_neg (by simp; omega)]; simp
        rw [e1, e2]
      · rfl

/-- Position of a space of algebra `a` in a sorted list. -/
theorem bits_position {l pre post : List (ESpace ι)} {es : ESpace ι} (h : SortedES l) (hl : l = pre ++ es :: post) :
    bitsBelow es.algebraId l ≤ bitSum pre ∧ bitSum pre + es.nBits ≤ bitsUpTo es.algebraId l := by
  subst hl
  obtain ⟨h1, h2, h3⟩ := List.pairwise_append.1 h
  rw [List.pairwise_cons] at h2
  constructor
  · unfold bitsBelow
    rw [List.filter_append]
    have : (es :: post).filter (fun x => decide (x.algebraId < es.algebraId)) = [] := by
      apply List.filter_eq_nil_iff.2
      intro x hx
      rcases List.mem_cons.1 hx with rfl | hx
      · simp
      · have := algebraId_le_of_key (h2.1 x hx)
        simp; omega
    rw [this, List.append_nil]
    exact (List.filter_sublist.map _).sum_le_sum (by simp)
  · unfold bitsUpTo
    rw [List.filter_append, bitSum_append, List.filter_cons_of_pos (by simp), bitSum_cons]
    have : pre.filter (fun x => decide (x.algebraId ≤ es.algebraId)) = pre := by
      apply List.filter_eq_self.2
      intro x hx
      have := algebraId_le_of_key (h3 x hx es (by simp))
      simpa using this
    rw [this]; omega

/-- Every bit of the algebra's range belongs to one of its spaces. -/
theorem bits_covered {l : List (ESpace ι)} (h : SortedES l) (a : Int) (b : Nat) (h1 : bitsBelow a l ≤ b)
    (h2 : b < bitsUpTo a l) : ∃ pre es post, l = pre ++ es :: post ∧ es.algebraId = a ∧ bitSum pre ≤ b ∧
      b < bitSum pre + es.nBits := by
  induction l using List.reverseRecOn with
  | nil => simp [bitsUpTo] at h2
  | append_singleton l es ih =>
    have hl : SortedES l := (List.pairwise_append.1 h).1
    have hes : ∀ x ∈ l, x.algebraId ≤ es.algebraId := fun x hx =>
      algebraId_le_of_key ((List.pairwise_append.1 h).2.2 x hx es (by simp))
    have hb1 : bitsBelow a l ≤ b := by
      refine le_trans ?_ h1
      unfold bitsBelow
      rw [List.filter_append, bitSum_append]; omega
    by_cases hb2 : b < bitsUpTo a l
    · obtain ⟨pre, x, post, e1, e2, e3, e4⟩ := ih hl hb1 hb2
      exact ⟨pre, x, post ++ [es], by rw [e1]; simp, e2, e3, e4⟩
    · have hle : es.algebraId ≤ a := by
        by_contra hc
        unfold bitsUpTo at h2 hb2
        rw [List.filter_append, List.filter_cons_of_neg (by simp; omega)] at h2
        simp at h2 hb2; omega
      have hup : bitsUpTo a l = bitSum l := by
        unfold bitsUpTo
        rw [List.filter_eq_self.2]
        intro x hx; have := hes x hx; simp; omega
      have hup2 : bitsUpTo a (l ++ [es]) = bitSum l + es.nBits := by
        unfold bitsUpTo
        rw [List.filter_append, List.filter_cons_of_pos (by simpa using hle), bitSum_append]
        unfold bitsUpTo at hup
        rw [hup]; simp
      have heq : es.algebraId = a := by
        by_contra hc
        have : bitsBelow a (l ++ [es]) = bitSum l + es.nBits := by
          unfold bitsBelow
          rw [List.filter_eq_self.2]
          · simp
          · intro x hx
            rcases List.mem_append.1 hx with hx | hx
            · have := hes x hx; simp; omega
            · simp at hx; subst hx; simp; omega
        omega
      refine ⟨l, es, [], by simp, heq, by omega, by omega⟩

end HilbertSpace
end LC
