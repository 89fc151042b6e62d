import Verif.Model.TrieRanking
import Verif.Proof.Unranking
import Verif.Proof.CompView
import Verif.Proof.Sector
/-
Correctness of `trie_ranking`: the vector built by `make_trie` contains, for every state of the sector, a path from the
root to a leaf that stores the rank.
-/
set_option linter.unusedVariables false
set_option linter.unusedSimpArgs false
namespace LC

/-! ### Bit fields -/

theorem and_high_mask {x m : Nat} (hx : x < W64) (hm : m < 64) : x &&& not64 (sub64 (pow2 m) 1) = x / 2 ^ m * 2 ^ m := by
  rw [ones_eq hm]
  apply Nat.eq_of_testBit_eq
  intro j
  rw [Nat.testBit_and, Nat.testBit_mul_two_pow, Nat.testBit_div_two_pow]
  by_cases hj : j < 64
  · rw [testBit_not64 hj, Nat.testBit_two_pow_sub_one]
    by_cases hjm : j < m
    · simp [hjm, Nat.not_le.2 hjm]
    · simp [hjm, Nat.not_lt.1 hjm]
  · rw [testBit_of_lt hx (by omega)]
    by_cases hjm : j < m
    · omega
    · rw [Nat.sub_add_cancel (Nat.not_lt.1 hjm), testBit_of_lt hx (by omega)]; simp

theorem field_eq (x a b : Nat) : (x >>> a) &&& (2 ^ b - 1) = x / 2 ^ a % 2 ^ b := by
  rw [Nat.and_two_pow_sub_one_eq_mod, Nat.shiftRight_eq_div_pow]

theorem bitCount_split {a b k : Nat} (hb : b < 2 ^ k) (h : a * 2 ^ k + b < W64) :
    bitCount (a * 2 ^ k + b) = bitCount a + bitCount b := by
  have e : a * 2 ^ k + b = b + 2 ^ k * a := by ring
  rw [e] at h ⊢
  rw [bitCount, bitPositions_add hb h, List.length_append, List.length_map, bitCount, bitCount, Nat.add_comm]

theorem eq_zero_of_bitCount {x : Nat} (hx : x < W64) (h : bitCount x = 0) : x = 0 := by
  have h1 := List.eq_nil_of_length_eq_zero h
  apply Nat.eq_of_testBit_eq
  intro j
  rw [Nat.zero_testBit]
  by_cases hj : j < 64
  · by_contra hc
    have : j ∈ bitPositions x := by
      simp only [bitPositions, List.mem_filter, List.mem_range]
      exact ⟨hj, by simpa using hc⟩
    rw [h1] at this; simp at this
  · exact testBit_of_lt hx (by omega)

/-! ### The least state above a bound -/

/-- `s` is the least 64-bit word with `N` set bits that is at least `b`. -/
structure Least (N b s : Nat) : Prop where
  lt : s < W64
  cnt : bitCount s = N
  ge : b ≤ s
  le : ∀ x < W64, bitCount x = N → b ≤ x → s ≤ x

theorem Least.weaken {N b b' s : Nat} (h : Least N b s) (h1 : b ≤ b') (h2 : b' ≤ s) : Least N b' s :=
  ⟨h.lt, h.cnt, h2, fun x hx hc hb => h.le x hx hc (h1.trans hb)⟩

theorem Least.next {N b s : Nat} (h : Least N b s) (hN : N ≠ 0) (hs : s < 2 ^ 63) :
    Least N (s + 1) (nextState s) ∧ cnsRank (nextState s) = cnsRank s + 1 := by
  have h0 : s ≠ 0 := by
    rintro rfl
    exact hN (by rw [← h.cnt, bitCount_zero])
  obtain ⟨h1, h2, h3⟩ := nextState_spec h0 hs
  refine ⟨⟨h3, h1.trans h.cnt, ?_, ?_⟩, h2⟩
  · by_contra hc
    have hc : nextState s ≤ s := by omega
    rcases Nat.lt_or_eq_of_le hc with hlt | he
    · have := cnsRank_lt_cnsRank (M := 64) h.lt le_rfl hlt h1
      omega
    · rw [he] at h2; omega
  · intro x hx hcx hsx
    by_contra hc
    have a1 := cnsRank_lt_cnsRank (M := 64) hx le_rfl (by omega : s < x) (h.cnt.trans hcx.symm)
    have a2 := cnsRank_lt_cnsRank (M := 64) h3 le_rfl (by omega : x < nextState s) (hcx.trans (h1.trans h.cnt).symm)
    omega

/-! ### The vector -/

namespace TrieMem

theorem get_of_lt {m : TrieMem} {i : Nat} (h : i < m.size) : m.get i = some (m.data i) := if_pos h

theorem set_of_lt {m : TrieMem} {i : Nat} (h : i < m.size) (v : Int) :
    m.set i v = some ⟨m.size, fun j => if j = i then v else m.data j⟩ := if_pos h

end TrieMem

theorem packMove_spec (l : Nat) (hl : 0 < l) : ∀ (n a : Nat) (m : TrieMem), a + n + l ≤ m.size →
    ∃ m', packMove l n a m = some m' ∧ m'.size = m.size ∧
      ∀ j, m'.data j = if a ≤ j ∧ j < a + n then m.data (j + l) else m.data j := by
  intro n
  induction n with
  | zero =>
    intro a m _
    refine ⟨m, rfl, rfl, fun j => ?_⟩
    rw [if_neg (by omega)]
  | succ n ih =>
    intro a m h
    rw [packMove, TrieMem.get_of_lt (by omega)]
    dsimp only
    rw [TrieMem.set_of_lt (by omega)]
    dsimp only
    obtain ⟨m', h1, h2, h3⟩ := ih (a + 1) ⟨m.size, fun j => if j = a then m.data (a + l) else m.data j⟩ (by dsimp only; omega)
    refine ⟨m', h1, h2, fun j => ?_⟩
    rw [h3]
    dsimp only
    by_cases hj : a + 1 ≤ j ∧ j < a + 1 + n
    · rw [if_pos hj, if_neg (by omega), if_pos (by omega)]
    · rw [if_neg hj]
      by_cases ha : j = a
      · subst ha; rw [if_pos rfl, if_pos (by omega)]
      · rw [if_neg ha, if_neg (by omega)]

/-- Effect of packing on an entry. -/
def decEntry (l : Nat) (e : Int) : Int := if e > 0 then e - l else e

theorem packDec_spec (l : Nat) : ∀ (n a : Nat) (m : TrieMem), a + n ≤ m.size →
    ∃ m', packDec l n a m = some m' ∧ m'.size = m.size ∧
      ∀ j, m'.data j = if a ≤ j ∧ j < a + n then decEntry l (m.data j) else m.data j := by
  intro n
  induction n with
  | zero =>
    intro a m _
    refine ⟨m, rfl, rfl, fun j => ?_⟩
    rw [if_neg (by omega)]
  | succ n ih =>
    intro a m h
    rw [packDec, TrieMem.get_of_lt (by omega)]
    dsimp only
    by_cases hv : m.data a > 0
    · rw [if_pos hv, TrieMem.set_of_lt (by omega)]
      dsimp only
      obtain ⟨m', h1, h2, h3⟩ := ih (a + 1) ⟨m.size, fun j => if j = a then m.data a - l else m.data j⟩ (by dsimp only; omega)
      refine ⟨m', h1, h2, fun j => ?_⟩
      rw [h3]
      dsimp only
      by_cases ha : j = a
      · subst ha; rw [if_neg (by omega), if_pos rfl, if_pos (by omega), decEntry, if_pos hv]
      · rw [if_neg ha]
        by_cases hj : a + 1 ≤ j ∧ j < a + 1 + n
        · rw [if_pos hj, if_pos (by omega)]
        · rw [if_neg hj, if_neg (by omega)]
    · rw [if_neg hv]
      obtain ⟨m', h1, h2, h3⟩ := ih (a + 1) m (by omega)
      refine ⟨m', h1, h2, fun j => ?_⟩
      rw [h3]
      by_cases ha : j = a
      · subst ha; rw [if_neg (by omega), if_pos (by omega), decEntry, if_neg hv]
      · by_cases hj : a + 1 ≤ j ∧ j < a + 1 + n
        · rw [if_pos hj, if_pos (by omega)]
        · rw [if_neg hj, if_neg (by omega)]

/-! ### Paths -/

/-- The path of state `x` in the subtree at `node`, all its positions in `[lo, hi)`, ends in a leaf with value `v`. -/
def Path (d : Nat → Int) (lo hi : Nat) : List Nat → Nat → Nat → Nat → Prop
  | [], _, _, _ => False
  | cs :: rest, node, x, v =>
    lo ≤ node + x / 2 ^ rest.sum % 2 ^ cs ∧ node + x / 2 ^ rest.sum % 2 ^ cs < hi ∧
    ((rest = [] ∧ d (node + x / 2 ^ rest.sum % 2 ^ cs) = -(v : Int)) ∨
     (rest ≠ [] ∧ ∃ q : Nat, d (node + x / 2 ^ rest.sum % 2 ^ cs) = q ∧ node < q ∧ Path d lo hi rest q x v))

/-- What the entry `e` of a table leads to. -/
def Sub (d : Nat → Int) (lo hi : Nat) (Q : Nat → Prop) (rest : List Nat) (e : Int) (x v : Nat) : Prop :=
  (rest = [] ∧ e = -(v : Int)) ∨ (rest ≠ [] ∧ ∃ q : Nat, e = q ∧ Q q ∧ Path d lo hi rest q x v)

theorem path_cons {d : Nat → Int} {lo hi cs : Nat} {rest : List Nat} {node x v : Nat} :
    Path d lo hi (cs :: rest) node x v ↔ lo ≤ node + x / 2 ^ rest.sum % 2 ^ cs ∧ node + x / 2 ^ rest.sum % 2 ^ cs < hi ∧
      Sub d lo hi (fun q => node < q) rest (d (node + x / 2 ^ rest.sum % 2 ^ cs)) x v := Iff.rfl

theorem path_congr {d d' : Nat → Int} {lo hi lo' hi' : Nat} (h : ∀ j, lo ≤ j → j < hi → d' j = d j) (h1 : lo' ≤ lo) (h2 : hi ≤ hi') :
    ∀ (ch : List Nat) (node x v : Nat), Path d lo hi ch node x v → Path d' lo' hi' ch node x v := by
  intro ch
  induction ch with
  | nil => intro _ _ _ hp; exact hp
  | cons cs rest ih =>
    intro node x v hp
    obtain ⟨a, b, c⟩ := hp
    refine ⟨h1.trans a, b.trans_le h2, ?_⟩
    rw [h _ a b]
    rcases c with c | ⟨c1, q, c2, c3, c4⟩
    · exact Or.inl c
    · exact Or.inr ⟨c1, q, c2, c3, ih q x v c4⟩

theorem sub_congr {d d' : Nat → Int} {lo hi lo' hi' : Nat} {Q Q' : Nat → Prop} (h : ∀ j, lo ≤ j → j < hi → d' j = d j) (h1 : lo' ≤ lo)
    (h2 : hi ≤ hi') (hQ : ∀ q, Q q → Q' q) {rest : List Nat} {e : Int} {x v : Nat} (hp : Sub d lo hi Q rest e x v) :
    Sub d' lo' hi' Q' rest e x v := by
  rcases hp with c | ⟨c1, q, c2, c3, c4⟩
  · exact Or.inl c
  · exact Or.inr ⟨c1, q, c2, hQ q c3, path_congr h h1 h2 _ _ _ _ c4⟩

theorem path_relocate {d d' : Nat → Int} {lo hi l : Nat} (h : ∀ j, lo ≤ j → j < hi → d' j = decEntry l (d (j + l))) :
    ∀ (ch : List Nat) (node x v : Nat), Path d (lo + l) (hi + l) ch (node + l) x v → Path d' lo hi ch node x v := by
  intro ch
  induction ch with
  | nil => intro _ _ _ hp; exact hp
  | cons cs rest ih =>
    intro node x v hp
    obtain ⟨a, b, c⟩ := hp
    refine ⟨by omega, by omega, ?_⟩
    rw [h _ (by omega) (by omega)]
    rw [show node + l + x / 2 ^ rest.sum % 2 ^ cs = node + x / 2 ^ rest.sum % 2 ^ cs + l by omega] at c
    rcases c with ⟨c1, c2⟩ | ⟨c1, q, c2, c3, c4⟩
    · exact Or.inl ⟨c1, by rw [c2, decEntry, if_neg (by omega)]⟩
    · refine Or.inr ⟨c1, q - l, ?_, by omega, ?_⟩
      · rw [c2, decEntry, if_pos (by omega)]; omega
      · refine ih (q - l) x v ?_
        rw [Nat.sub_add_cancel (by omega)]; exact c4

/-! ### Packing -/

/-- Upper bound on the number of elements used by a subtree. -/
def trieSize : List Nat → Nat
  | [] => 0
  | cs :: rest => 2 ^ cs * (1 + trieSize rest)

theorem packTrie_spec (cs kp c0 c : Nat) (rest : List Nat) (s : TrieState) (hc0 : c0 ≤ c) (hc : c < 2 ^ cs) (hk : kp + 2 ^ cs ≤ s.k)
    (hsz : s.k ≤ s.mem.size) (S : Nat → Prop) (v : Nat → Nat)
    (hch : ∀ x, S x → c0 ≤ x / 2 ^ rest.sum % 2 ^ cs ∧ x / 2 ^ rest.sum % 2 ^ cs ≤ c)
    (hS : ∀ x, S x → Sub s.mem.data (kp + 2 ^ cs) s.k (fun q => ∃ y, S y ∧ kp + 2 ^ cs ≤ q + y / 2 ^ rest.sum % 2 ^ cs) rest
      (s.mem.data (kp + x / 2 ^ rest.sum % 2 ^ cs)) x (v x)) :
    ∃ s', packTrie cs kp c0 c s = some s' ∧ s'.rank = s.rank ∧ s'.st = s.st ∧ s'.mem.size = s.mem.size ∧
      kp + c0 < s'.k ∧ s'.k ≤ s.k ∧ (∀ j < kp + c0, s'.mem.data j = s.mem.data j) ∧
      ∀ x, S x → Path s'.mem.data (kp + c0) s'.k (cs :: rest) kp x (v x) := by
  have hQ : ∀ q, (∃ y, S y ∧ kp + 2 ^ cs ≤ q + y / 2 ^ rest.sum % 2 ^ cs) → kp + 2 ^ cs ≤ q + c := by
    rintro q ⟨y, hy, hq⟩
    have := (hch y hy).2
    omega
  unfold packTrie
  dsimp only
  obtain ⟨l, hl⟩ : ∃ l, l + c + 1 = 2 ^ cs := ⟨2 ^ cs - 1 - c, by omega⟩
  have el : 2 ^ cs - 1 - c = l := by omega
  rw [el, if_neg (by omega)]
  have et : kp + c0 + (2 ^ cs - c0 - l) = kp + c + 1 := by omega
  rw [et]
  by_cases hl0 : l > 0
  · rw [if_pos hl0]
    obtain ⟨m1, a1, a2, a3⟩ := packMove_spec l hl0 (s.k - l - (kp + c + 1)) (kp + c + 1) s.mem (by omega)
    rw [a1]
    dsimp only
    obtain ⟨m2, b1, b2, b3⟩ := packDec_spec l (s.k - l - (kp + c0)) (kp + c0) m1 (by omega)
    rw [b1]
    dsimp only
    refine ⟨_, rfl, rfl, rfl, b2.trans a2, by dsimp only; omega, by dsimp only; omega, ?_, ?_⟩
    · intro j hj
      dsimp only
      rw [b3, if_neg (by omega), a3, if_neg (by omega)]
    · intro x hx
      dsimp only
      obtain ⟨h1, h2⟩ := hch x hx
      refine path_cons.2 ⟨by omega, by omega, ?_⟩
      rw [b3, if_pos (by omega), a3, if_neg (by omega)]
      rcases hS x hx with ⟨c1, c2⟩ | ⟨c1, q, c2, c3, c4⟩
      · exact Or.inl ⟨c1, by rw [c2, decEntry, if_neg (by omega)]⟩
      · have hq := hQ q c3
        refine Or.inr ⟨c1, q - l, ?_, by omega, ?_⟩
        · rw [c2, decEntry, if_pos (by omega)]; omega
        · have hrel : ∀ j, kp + c + 1 ≤ j → j < s.k - l → m2.data j = decEntry l (s.mem.data (j + l)) := by
            intro j hj1 hj2
            rw [b3, if_pos (by omega), a3, if_pos (by omega)]
          refine path_congr (lo := kp + c + 1) (hi := s.k - l) (fun _ _ _ => rfl) (by omega) le_rfl _ _ _ _
            (path_relocate hrel rest (q - l) x (v x) ?_)
          rw [show kp + c + 1 + l = kp + 2 ^ cs by omega, Nat.sub_add_cancel (by omega), Nat.sub_add_cancel (by omega)]
          exact c4
  · rw [if_neg hl0]
    have hl0 : l = 0 := by omega
    subst hl0
    refine ⟨_, rfl, rfl, rfl, rfl, by dsimp only; omega, by dsimp only; omega, fun _ _ => rfl, ?_⟩
    intro x hx
    dsimp only
    obtain ⟨h1, h2⟩ := hch x hx
    refine path_cons.2 ⟨by omega, by omega, ?_⟩
    refine sub_congr (fun _ _ _ => rfl) (by omega) (by omega) (fun q hq => ?_) (hS x hx)
    have := hQ q hq
    omega

end LC
