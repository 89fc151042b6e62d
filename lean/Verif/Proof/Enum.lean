import Verif.Model.SectorView
import Verif.Props.Ranking
import Verif.Proof.FermionBits
/-
Lists that enumerate a set of words in the order of a rank, and their products.
-/
set_option linter.unusedSimpArgs false
namespace LC

/-- The list contains exactly the words with `P`, each at the position `rk`. -/
def Enumerates (l : List Nat) (P : Nat → Prop) (rk : Nat → Nat) : Prop := ∀ i s, l[i]? = some s ↔ P s ∧ rk s = i

namespace Enumerates
variable {l l' : List Nat} {P P' : Nat → Prop} {rk rk' : Nat → Nat}

theorem mem (h : Enumerates l P rk) (s : Nat) : s ∈ l ↔ P s := by
  rw [List.mem_iff_getElem?]
  constructor
  · rintro ⟨i, hi⟩; exact ((h i s).1 hi).1
  · intro hs; exact ⟨rk s, (h _ s).2 ⟨hs, rfl⟩⟩

theorem rk_lt (h : Enumerates l P rk) {s : Nat} (hs : P s) : rk s < l.length :=
  (List.getElem?_eq_some_iff.1 ((h _ s).2 ⟨hs, rfl⟩)).1

theorem nodup (h : Enumerates l P rk) : l.Nodup := by
  rw [List.nodup_iff_getElem?_ne_getElem?]
  intro i j hij hj he
  have hi : i < l.length := by omega
  have e1 := ((h i l[i]).1 (by simp)).2
  have e2 := ((h j l[j]).1 (by simp)).2
  have : l[i] = l[j] := by simpa [hi, hj] using he
  rw [this] at e1
  omega

theorem congr (h : Enumerates l P rk) (hP : ∀ s, P s ↔ P' s) (hr : ∀ s, P s → rk s = rk' s) : Enumerates l P' rk' := by
  intro i s
  rw [h i s, ← hP s]
  constructor
  · rintro ⟨a, b⟩; exact ⟨a, (hr s a).symm.trans b⟩
  · rintro ⟨a, b⟩; exact ⟨a, (hr s a).trans b⟩

end Enumerates

theorem flatMap_uniform_getElem? {α β : Type _} (l : List α) (f : α → List β) (B : Nat) (hB : 0 < B) (hf : ∀ a ∈ l, (f a).length = B)
    (i : Nat) : (l.flatMap f)[i]? = (l[i / B]?).bind fun a => (f a)[i % B]? := by
  induction l generalizing i with
  | nil => simp
  | cons a l ih =>
    rw [List.flatMap_cons]
    have ha := hf a List.mem_cons_self
    by_cases hi : i < B
    · rw [List.getElem?_append_left (by omega), Nat.div_eq_of_lt hi, Nat.mod_eq_of_lt hi]; simp
    · rw [List.getElem?_append_right (by omega), ha, ih fun b hb => hf b (List.mem_cons_of_mem _ hb)]
      have e : i / B = (i - B) / B + 1 := by
        conv_lhs => rw [show i = i - B + B by omega]
        rw [Nat.add_div_right _ hB]
      rw [e, List.getElem?_cons_succ]
      congr 1
      funext b
      conv_rhs => rw [show i = i - B + B by omega]
      rw [Nat.add_mod_right]

/-- The product of two enumerations; `π₁`, `π₂` are the projections of the combined words. -/
theorem Enumerates.prod {l₁ l₂ : List Nat} {P₁ P₂ P : Nat → Prop} {r₁ r₂ : Nat → Nat} (h₁ : Enumerates l₁ P₁ r₁)
    (h₂ : Enumerates l₂ P₂ r₂) (op : Nat → Nat → Nat) (π₁ π₂ : Nat → Nat)
    (hop : ∀ a b, P₁ a → P₂ b → P (op a b) ∧ π₁ (op a b) = a ∧ π₂ (op a b) = b)
    (hP : ∀ s, P s → P₁ (π₁ s) ∧ P₂ (π₂ s) ∧ op (π₁ s) (π₂ s) = s) :
    Enumerates (l₁.flatMap fun a => l₂.map fun b => op a b) P (fun s => r₁ (π₁ s) * l₂.length + r₂ (π₂ s)) := by
  intro i s
  by_cases h0 : l₂ = []
  · subst h0
    simp only [List.map_nil, List.flatMap_nil, List.getElem?_nil]
    refine ⟨fun h => by simp at h, fun ⟨hs, _⟩ => ?_⟩
    have hlt := h₂.rk_lt (hP s hs).2.1
    simp at hlt
  · have hpos : 0 < l₂.length := List.length_pos_of_ne_nil h0
    rw [flatMap_uniform_getElem? _ _ l₂.length hpos (fun a _ => by simp)]
    constructor
    · intro h
      obtain ⟨a, ha, hb⟩ := Option.bind_eq_some_iff.1 h
      rw [List.getElem?_map, Option.map_eq_some_iff] at hb
      obtain ⟨b, hb, rfl⟩ := hb
      obtain ⟨pa, ra⟩ := (h₁ _ _).1 ha
      obtain ⟨pb, rb⟩ := (h₂ _ _).1 hb
      obtain ⟨q1, q2, q3⟩ := hop a b pa pb
      refine ⟨q1, ?_⟩
      simp only [q2, q3, ra, rb]
      exact Nat.div_add_mod' i l₂.length
    · rintro ⟨hs, rfl⟩
      obtain ⟨p1, p2, e⟩ := hP s hs
      have hlt := h₂.rk_lt p2
      have e1 : (r₁ (π₁ s) * l₂.length + r₂ (π₂ s)) / l₂.length = r₁ (π₁ s) := by
        rw [Nat.mul_comm, Nat.mul_add_div hpos, Nat.div_eq_of_lt hlt, Nat.add_zero]
      have e2 : (r₁ (π₁ s) * l₂.length + r₂ (π₂ s)) % l₂.length = r₂ (π₂ s) := by
        rw [Nat.mul_comm, Nat.mul_add_mod, Nat.mod_eq_of_lt hlt]
      rw [e1, e2, (h₁ _ _).2 ⟨p1, rfl⟩, Option.bind_some, List.getElem?_map, (h₂ _ _).2 ⟨p2, rfl⟩, Option.map_some, e]

/-! ### Bits under a mask -/

theorem bitCount_extract (v m : Nat) (hm : m < W64) : bitCount (extractBits v m) = bitCount (v &&& m) := by
  have h1 : bitPositions (v &&& m) = (bitPositions m).filter (v.testBit ·) := by
    unfold bitPositions
    rw [List.filter_filter]
    apply List.filter_congr
    intro j _
    rw [Nat.testBit_and]
  have h2 : ∀ n, (bitPositions m).length ≤ n → (List.range n).filter ((extractBits v m).testBit ·) =
      (List.range (bitPositions m).length).filter ((extractBits v m).testBit ·) := by
    intro n hn
    obtain ⟨d, rfl⟩ := Nat.exists_eq_add_of_le hn
    rw [List.range_add, List.filter_append]
    have hnil : ((List.range d).map fun x => (bitPositions m).length + x).filter ((extractBits v m).testBit ·) = [] := by
     apply List.filter_eq_nil_iff.2
     intro j hj
     obtain ⟨x, _, rfl⟩ := List.mem_map.1 hj
     rw [extractBits_testBit _ _ hm, List.getElem?_eq_none (by omega)]
     simp
    rw [hnil, List.append_nil]
  unfold bitCount
  rw [h1, bitPositions, h2 64 (bitPositions_length_le m)]
  generalize he : extractBits v m = e
  have hb : ∀ j, e.testBit j = (match (bitPositions m)[j]? with | some p => v.testBit p | none => false) := by
    intro j; rw [← he]; exact extractBits_testBit v m hm j
  generalize bitPositions m = l at hb ⊢
  clear he h1 h2
  induction l using List.reverseRecOn with
  | nil => simp
  | append_singleton l p ih =>
    rw [List.length_append, List.length_singleton, List.range_succ, List.filter_append, List.filter_append, List.length_append,
      List.length_append]
    have hcongr : (List.range l.length).filter (e.testBit ·) = (List.range l.length).filter (fun j => match l[j]? with
      | some p => v.testBit p | none => false) := by
      apply List.filter_congr
      intro j hj
      rw [hb j, List.getElem?_append_left (List.mem_range.1 hj)]
    have hrec : ((List.range l.length).filter (fun j => match l[j]? with
      | some p => v.testBit p | none => false)).length = (l.filter (v.testBit ·)).length := by
      have : ∀ l : List Nat, ((List.range l.length).filter (fun j => match l[j]? with
        | some p => v.testBit p | none => false)).length = (l.filter (v.testBit ·)).length := by
        intro l
        induction l with
        | nil => simp
        | cons q l ih =>
          rw [List.length_cons, List.range_succ_eq_map, List.filter_cons, List.filter_cons, List.filter_map]
          simp only [List.getElem?_cons_zero]
          have hc : ((fun j => match (q :: l)[j]? with | some p => v.testBit p | none => false) ∘ Nat.succ) =
              fun j => match l[j]? with | some p => v.testBit p | none => false := by
            funext j; simp
          rw [hc]
          split <;> simp [ih]
      exact this l
    rw [hcongr, hrec]
    congr 1
    have := hb l.length
    simp only [List.getElem?_append_right (le_refl l.length), Nat.sub_self, List.getElem?_cons_zero] at this
    simp only [List.filter_cons, List.filter_nil, this]
    cases v.testBit p <;> simp

theorem bitCount_mask_of_sub {b m : Nat} (h : b &&& m = b) (hm : m < W64) : b < W64 := by
  rw [← h]
  exact Nat.and_le_right.trans_lt hm

/-- The rank of a word within a sector. -/
def combRk (p : SectorParams) (x : Nat) : Nat := ((CombRanking.make p).rank x).getD 0

theorem combRk_eq (p : SectorParams) (h : p.Valid) {x : Nat} (hx : InSector p.M p.N x) : (CombRanking.make p).rank x = some (combRk p x) := by
  obtain ⟨r, hr, _⟩ := (C47_combination_ranking p h).1 x hx
  rw [combRk, hr]; rfl

/-- Whether `binomial` is exact for the size of the sector (F9). -/
def SectorParams.Exact (p : SectorParams) : Prop := p.M ≤ 62 ∨ p.N ≤ 28 ∨ 35 ≤ p.N

/-- The states of a sector in the order of unranking. -/
theorem unranked_enum (p : SectorParams) (h : p.Valid) (hM : p.Exact) :
    ∃ l g', UnrankGen.drain W64 (UnrankGen.make p) = some (l, g') ∧ l.length = Nat.choose p.M p.N ∧
      Enumerates l (InSector p.M p.N) (combRk p) := by
  obtain ⟨_, l, g', h1, _, h3, h4, h5, h6⟩ := C48_unranking p h hM W64 (UnrankGen.make p) (Or.inl rfl) (choose_lt_W64 h.1).le
  refine ⟨l, g', h1, h3, fun i s => ⟨fun hi => ?_, ?_⟩⟩
  · refine ⟨(h5 s).1 (List.mem_of_getElem? hi), ?_⟩
    rw [combRk, h6 i s hi]; rfl
  · rintro ⟨hs, rfl⟩
    obtain ⟨j, hj⟩ := List.mem_iff_getElem?.1 ((h5 s).2 hs)
    have := h6 j s hj
    rw [combRk, this]; exact hj

theorem init_make (p : SectorParams) : (UnrankGen.make p).init = UnrankGen.make p := rfl

/-- The words under a mask with a given number of set bits. -/
def InMask (m N b : Nat) : Prop := b &&& m = b ∧ bitCount b = N

/-- Depositing the unranked states into the bits of a mask. -/
theorem deposit_enum {l : List Nat} (m : Nat) (hm : m < W64) (p : SectorParams) (hp : p.M = bitCount m)
    (h : Enumerates l (InSector p.M p.N) (combRk p)) :
    Enumerates (l.map fun x => depositBits x m) (InMask m p.N) (fun b => combRk p (extractBits b m)) := by
  intro i s
  rw [List.getElem?_map, Option.map_eq_some_iff]
  constructor
  · rintro ⟨x, hx, rfl⟩
    obtain ⟨h1, h2⟩ := (h i x).1 hx
    have e : extractBits (depositBits x m) m = x := by
      rw [extract_deposit _ _ hm]
      apply Nat.mod_eq_of_lt
      have := h1.1
      rwa [hp] at this
    refine ⟨⟨depositBits_sub x m hm, ?_⟩, by simp only [e]; exact h2⟩
    rw [← depositBits_sub x m hm, ← bitCount_extract _ _ hm, e]
    exact h1.2
  · rintro ⟨⟨h1, h2⟩, rfl⟩
    refine ⟨extractBits s m, (h _ _).2 ⟨⟨?_, ?_⟩, rfl⟩, ?_⟩
    · rw [hp]; exact extractBits_lt s m hm
    · have := bitCount_extract s m hm
      rw [h1, h2] at this
      exact this
    · rw [deposit_extract _ _ hm, h1]

/-- Depositing all words of the size of the mask. -/
theorem deposit_range_enum (m : Nat) (hm : m < W64) :
    Enumerates ((List.range (2 ^ bitCount m)).map fun x => depositBits x m) (fun b => b &&& m = b) (fun b => extractBits b m) := by
  intro i s
  rw [List.getElem?_map, Option.map_eq_some_iff]
  constructor
  · rintro ⟨x, hx, rfl⟩
    obtain ⟨h1, h2⟩ := List.getElem?_eq_some_iff.1 hx
    rw [List.getElem_range] at h2
    rw [List.length_range] at h1
    subst h2
    exact ⟨depositBits_sub _ m hm, by simp only [extract_deposit _ _ hm]; exact Nat.mod_eq_of_lt h1⟩
  · rintro ⟨h1, rfl⟩
    refine ⟨extractBits s m, ?_, by rw [deposit_extract _ _ hm, h1]⟩
    rw [List.getElem?_range]
    exact extractBits_lt s m hm

end LC
