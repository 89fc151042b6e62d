import Verif.Proof.Trie
/-
`make_trie` builds a correct subtree: induction over the chunks, with the loop invariant `LoopInv`.
-/
set_option linter.unusedVariables false
set_option linter.unusedSimpArgs false
namespace LC

theorem div_eq_iff_bounds {x d A : Nat} (hd : 0 < d) : x / d = A ↔ A * d ≤ x ∧ x < (A + 1) * d := by
  rw [← Nat.le_div_iff_mul_le hd, ← Nat.div_lt_iff_lt_mul hd]; omega

/-- Chunk of size `cs` above the low `mr` bits. -/
abbrev chunkAt (mr cs x : Nat) : Nat := x / 2 ^ mr % 2 ^ cs

theorem prefix_split {x cs mr p : Nat} (h : x / 2 ^ (cs + mr) = p) : x / 2 ^ mr = p * 2 ^ cs + chunkAt mr cs x := by
  have := Nat.div_add_mod (x / 2 ^ mr) (2 ^ cs)
  rw [Nat.div_div_eq_div_mul, ← pow_add, Nat.add_comm mr cs, h] at this
  rw [← this, Nat.mul_comm]

theorem prefix_join {x cs mr p c : Nat} (hc : c < 2 ^ cs) (h : x / 2 ^ mr = p * 2 ^ cs + c) :
    x / 2 ^ (cs + mr) = p ∧ chunkAt mr cs x = c := by
  constructor
  · rw [Nat.add_comm, pow_add, ← Nat.div_div_eq_div_mul, h, Nat.add_comm, Nat.add_mul_div_right _ _ (Nat.two_pow_pos _),
      Nat.div_eq_of_lt hc, Nat.zero_add]
  · rw [chunkAt, h, Nat.add_comm, Nat.add_mul_mod_self_right, Nat.mod_eq_of_lt hc]

theorem chunkAt_lt (mr cs x : Nat) : chunkAt mr cs x < 2 ^ cs := Nat.mod_lt _ (Nat.two_pow_pos _)

/-- State of the traversal after all words below `b` have been dealt with. -/
structure Done (N b : Nat) (s : TrieState) : Prop where
  zero : N = 0 → s.st = 0 ∧ s.rank = 0
  pos : N ≠ 0 → Least N b s.st ∧ s.rank = cnsRank s.st

/-- The states of the subtree with prefix `p` over `m` bits. -/
def InSub (N p m x : Nat) : Prop := x / 2 ^ m = p ∧ bitCount x = N

theorem inSub_lt {N p m x : Nat} (hp : (p + 1) * 2 ^ m ≤ 2 ^ 62) (h : InSub N p m x) : x < 2 ^ 62 :=
  (((div_eq_iff_bounds (Nat.two_pow_pos m)).1 h.1).2).trans_le hp

/-- Requirement on pointers during the construction of the table at `kp`. -/
def PtrOk (N p kp cs mr q : Nat) : Prop := ∃ y, InSub N p (cs + mr) y ∧ kp + 2 ^ cs ≤ q + chunkAt mr cs y

def BodySpec (N p kp cs : Nat) (rest : List Nat) (body : Nat → TrieState → Option (Bool × TrieState)) : Prop :=
  ∀ (c : Nat) (s : TrieState), c < 2 ^ cs → Least N ((p * 2 ^ cs + c) * 2 ^ rest.sum) s.st → s.st / 2 ^ rest.sum = p * 2 ^ cs + c →
    s.rank = cnsRank s.st → kp + 2 ^ cs ≤ s.k → s.k + trieSize rest ≤ s.mem.size → s.mem.size ≤ 2 ^ 63 →
    ∃ s', body c s = some (decide (N = 0), s') ∧ s'.mem.size = s.mem.size ∧ s.k ≤ s'.k ∧ s'.k ≤ s.k + trieSize rest ∧
      (∀ j < s.k, j ≠ kp + c → s'.mem.data j = s.mem.data j) ∧ Done N ((p * 2 ^ cs + c + 1) * 2 ^ rest.sum) s' ∧
      ∀ x, x / 2 ^ rest.sum = p * 2 ^ cs + c → bitCount x = N →
        Sub s'.mem.data s.k s'.k (PtrOk N p kp cs rest.sum) rest (s'.mem.data (kp + c)) x (cnsRank x)

theorem leaf_spec (N p kp cs : Nat) (hp : (p + 1) * 2 ^ (cs + 0) ≤ 2 ^ 62) : BodySpec N p kp cs [] (trieLeaf kp) := by
  intro c s hc hL hst hr hk hsz hsz'
  have hcs := Nat.two_pow_pos cs
  simp only [List.sum_nil, pow_zero, Nat.mul_one, Nat.div_one, trieSize, Nat.add_zero] at *
  have hmem : kp + c < s.mem.size := by omega
  have hlt : s.st < 2 ^ 62 := by
    rw [hst]; refine lt_of_lt_of_le ?_ hp; rw [Nat.add_mul, Nat.one_mul]; omega
  unfold trieLeaf
  rw [TrieMem.set_of_lt hmem]
  dsimp only
  have hrk : cnsRank s.st < 2 ^ 62 := by
    have := cnsRank_lt hlt (by omega)
    exact this.trans_le (Nat.choose_le_two_pow _ _)
  have hx : ∀ x, x = p * 2 ^ cs + c → bitCount x = N → ∀ (lo hi : Nat) (d : Nat → Int), d (kp + c) = -(s.rank : Int) →
      Sub d lo hi (PtrOk N p kp cs 0) [] (d (kp + c)) x (cnsRank x) := by
    intro x hx hcx lo hi d hd
    exact Or.inl ⟨rfl, by rw [hd, hr, hst, ← hx]⟩
  by_cases hN : N = 0
  · have h0 : s.st = 0 := eq_zero_of_bitCount hL.lt (by rw [hL.cnt, hN])
    rw [if_pos h0]
    refine ⟨⟨s.rank, s.st, s.k, ⟨s.mem.size, fun j => if j = kp + c then -(s.rank : Int) else s.mem.data j⟩⟩, by rw [decide_eq_true hN],
      rfl, le_rfl, le_rfl, ?_, ⟨fun _ => ⟨h0, ?_⟩, fun h => absurd hN h⟩, ?_⟩
    · intro j _ hj; exact if_neg hj
    · dsimp only; rw [hr, h0, cnsRank_zero]
    · intro x h1 h2; exact hx x h1 h2 _ _ _ (if_pos rfl)
  · have h0 : s.st ≠ 0 := by
      intro h; exact hN (by rw [← hL.cnt, h, bitCount_zero])
    rw [if_neg h0]
    obtain ⟨a, b⟩ := hL.next hN (by omega)
    refine ⟨⟨add64 s.rank 1, nextState s.st, s.k, ⟨s.mem.size, fun j => if j = kp + c then -(s.rank : Int) else s.mem.data j⟩⟩,
      by rw [decide_eq_false hN], rfl, le_rfl, le_rfl, ?_, ⟨fun h => absurd h hN, fun _ => ⟨?_, ?_⟩⟩, ?_⟩
    · intro j _ hj; exact if_neg hj
    · dsimp only; rw [← hst]; exact a
    · dsimp only; rw [b, hr, add64, Nat.mod_eq_of_lt]; exact lt_of_le_of_lt hrk (by decide)
    · intro x h1 h2; exact hx x h1 h2 _ _ _ (if_pos rfl)

/-- Exchanging two neighbouring chunks. -/
theorem swap_chunks {N p cs cs' m2 x : Nat} (hcs : cs' ≤ cs) (hp : (p + 1) * 2 ^ (cs + (cs' + m2)) ≤ 2 ^ 62)
    (hx : InSub N p (cs + (cs' + m2)) x) (hlt : chunkAt (cs' + m2) cs x < chunkAt m2 cs' x) :
    ∃ y, InSub N p (cs + (cs' + m2)) y ∧ chunkAt (cs' + m2) cs y = chunkAt m2 cs' x := by
  have hxlt := inSub_lt hp hx
  have hfl := chunkAt_lt m2 cs' x
  have hp2 : (2 : Nat) ^ cs' ≤ 2 ^ cs := Nat.pow_le_pow_right (by decide) hcs
  have e1 := prefix_split hx.1
  have e2 := prefix_split (x := x) (cs := cs') (mr := m2) rfl
  rw [e1] at e2
  have e3 := Nat.div_add_mod x (2 ^ m2)
  rw [e2] at e3
  generalize chunkAt (cs' + m2) cs x = c at *
  generalize chunkAt m2 cs' x = f at *
  have hr := Nat.mod_lt x (Nat.two_pow_pos m2)
  generalize x % 2 ^ m2 = r at *
  have hcx := hx.2
  rw [← e3] at hcx hxlt
  have hW : (2 : Nat) ^ 62 < W64 := by decide
  -- the exchanged word
  have hc' : c < 2 ^ cs' := hlt.trans hfl
  have hf' : f < 2 ^ cs := hfl.trans_le hp2
  have hybound : ((p * 2 ^ cs + f) * 2 ^ cs' + c) * 2 ^ m2 + r < 2 ^ 62 := by
    refine lt_of_lt_of_le ?_ hp
    have h1 : (p + 1) * 2 ^ (cs + (cs' + m2)) = ((p + 1) * 2 ^ cs) * 2 ^ cs' * 2 ^ m2 := by rw [pow_add, pow_add]; ring
    rw [h1]
    have h2 : p * 2 ^ cs + f + 1 ≤ (p + 1) * 2 ^ cs := by rw [Nat.add_mul, Nat.one_mul]; omega
    have h3 : (p * 2 ^ cs + f) * 2 ^ cs' + c + 1 ≤ (p + 1) * 2 ^ cs * 2 ^ cs' := by
      refine le_trans ?_ (Nat.mul_le_mul_right _ h2)
      rw [Nat.add_mul (p * 2 ^ cs + f) 1, Nat.one_mul]; omega
    refine lt_of_lt_of_le ?_ (Nat.mul_le_mul_right _ h3)
    rw [Nat.add_mul _ 1, Nat.one_mul]; omega
  have cnt : ∀ a b : Nat, a < 2 ^ cs → b < 2 ^ cs' → ((p * 2 ^ cs + a) * 2 ^ cs' + b) * 2 ^ m2 + r < 2 ^ 62 →
      bitCount (((p * 2 ^ cs + a) * 2 ^ cs' + b) * 2 ^ m2 + r) = bitCount p + bitCount a + bitCount b + bitCount r := by
    intro a b ha hb hlt
    have l1 : (p * 2 ^ cs + a) * 2 ^ cs' + b < W64 := by
      refine lt_of_le_of_lt ?_ (hlt.trans hW)
      exact le_trans (Nat.le_mul_of_pos_right _ (Nat.two_pow_pos m2)) (Nat.le_add_right _ _)
    have l2 : p * 2 ^ cs + a < W64 := by
      refine lt_of_le_of_lt ?_ l1
      exact le_trans (Nat.le_mul_of_pos_right _ (Nat.two_pow_pos cs')) (Nat.le_add_right _ _)
    rw [bitCount_split hr (hlt.trans hW), bitCount_split hb l1, bitCount_split ha l2]
  have e3' : ((p * 2 ^ cs + c) * 2 ^ cs' + f) * 2 ^ m2 + r = 2 ^ m2 * ((p * 2 ^ cs + c) * 2 ^ cs' + f) + r := by ring
  have hc : c < 2 ^ cs := hc'.trans_le hp2
  have hcount := cnt c f hc hfl (by rw [e3']; exact hxlt)
  rw [e3', hcx] at hcount
  have hy1 : (((p * 2 ^ cs + f) * 2 ^ cs' + c) * 2 ^ m2 + r) / 2 ^ m2 = (p * 2 ^ cs + f) * 2 ^ cs' + c := by
    rw [Nat.add_comm, Nat.add_mul_div_right _ _ (Nat.two_pow_pos _), Nat.div_eq_of_lt hr, Nat.zero_add]
  obtain ⟨hy2, -⟩ := prefix_join hc' hy1
  obtain ⟨hy3, hy4⟩ := prefix_join hf' hy2
  exact ⟨_, ⟨hy3, by rw [cnt f c hf' hc' hybound, hcount]; ring⟩, hy4⟩

/-- What `make_trie` is required to do for the given chunks. -/
def MakeSpec (N : Nat) (chunks : List Nat) : Prop :=
  ∀ (p : Nat) (s : TrieState), (p + 1) * 2 ^ chunks.sum ≤ 2 ^ 62 → Least N (p * 2 ^ chunks.sum) s.st → s.st / 2 ^ chunks.sum = p →
    s.rank = cnsRank s.st → s.k + trieSize chunks ≤ s.mem.size → s.mem.size ≤ 2 ^ 63 →
    ∃ s', makeTrie chunks chunks.sum s = some s' ∧ s'.mem.size = s.mem.size ∧
      s.k + chunkAt chunks.tail.sum (chunks.headD 0) s.st < s'.k ∧ s'.k ≤ s.k + trieSize chunks ∧
      (∀ j < s.k + chunkAt chunks.tail.sum (chunks.headD 0) s.st, s'.mem.data j = s.mem.data j) ∧
      Done N ((p + 1) * 2 ^ chunks.sum) s' ∧
      ∀ x, InSub N p chunks.sum x →
        Path s'.mem.data (s.k + chunkAt chunks.tail.sum (chunks.headD 0) s.st) s'.k chunks s.k x (cnsRank x)

theorem node_spec (N p kp cs cs' : Nat) (rest : List Nat) (hcs : cs' ≤ cs) (hp : (p + 1) * 2 ^ (cs + (cs' :: rest).sum) ≤ 2 ^ 62)
    (hmk : MakeSpec N (cs' :: rest)) :
    BodySpec N p kp cs (cs' :: rest) (trieNode cs cs' (cs + (cs' :: rest).sum) kp (makeTrie (cs' :: rest))) := by
  intro c s hc hL hst hr hk hsz hsz'
  obtain ⟨hpre, hchk⟩ := prefix_join hc hst
  have hin : InSub N p (cs + (cs' :: rest).sum) s.st := ⟨hpre, hL.cnt⟩
  have hf : chunkAt rest.sum cs' s.st < 2 ^ cs' := chunkAt_lt _ _ _
  have hp2 : (2 : Nat) ^ cs' ≤ 2 ^ cs := Nat.pow_le_pow_right (by decide) hcs
  have hcpos := Nat.two_pow_pos cs'
  have ef : (s.st >>> (cs + (cs' :: rest).sum - cs - cs')) &&& (2 ^ cs' - 1) = chunkAt rest.sum cs' s.st := by
    rw [field_eq, List.sum_cons, show cs + (cs' + rest.sum) - cs - cs' = rest.sum by omega]
  have hmem : kp + c < s.mem.size := by omega
  unfold trieNode
  dsimp only
  rw [ef, if_pos (by omega : s.k ≥ chunkAt rest.sum cs' s.st), if_neg (by omega), TrieMem.set_of_lt hmem]
  dsimp only
  rw [show cs + (cs' :: rest).sum - cs = (cs' :: rest).sum by omega]
  have hbound : (p * 2 ^ cs + c + 1) * 2 ^ (cs' :: rest).sum ≤ 2 ^ 62 := by
    refine le_trans ?_ hp
    rw [pow_add, ← Nat.mul_assoc]
    refine Nat.mul_le_mul_right _ ?_
    rw [Nat.add_mul, Nat.one_mul]; omega
  obtain ⟨s', m1, m2, m3, m4, m5, m6, m7⟩ := hmk (p * 2 ^ cs + c)
    ⟨s.rank, s.st, s.k - chunkAt rest.sum cs' s.st, ⟨s.mem.size, fun j => if j = kp + c then ((s.k - chunkAt rest.sum cs' s.st : Nat) : Int)
      else s.mem.data j⟩⟩ hbound hL hst hr (by dsimp only; omega) hsz'
  rw [m1]
  dsimp only [List.tail_cons, List.headD_cons] at m2 m3 m4 m5 m7 ⊢
  rw [Nat.sub_add_cancel (by omega)] at m3 m5 m7
  refine ⟨s', ?_, m2, by omega, by omega, ?_, m6, ?_⟩
  · by_cases hN : N = 0
    · rw [(m6.zero hN).1]; simp [hN]
    · have : s'.st ≠ 0 := by
        intro h
        have := (m6.pos hN).1.cnt
        rw [h, bitCount_zero] at this; exact hN this.symm
      simp [this, hN]
  · intro j hj hne
    rw [m5 j hj, if_neg hne]
  · intro x hx hcx
    refine Or.inr ⟨by simp, s.k - chunkAt rest.sum cs' s.st, ?_, ?_, m7 x ⟨hx, hcx⟩⟩
    · rw [m5 _ (by omega), if_pos rfl]
    · by_cases hlt : chunkAt (cs' :: rest).sum cs s.st < chunkAt rest.sum cs' s.st
      · obtain ⟨y, hy1, hy2⟩ := swap_chunks hcs (by rw [← List.sum_cons]; exact hp) (x := s.st) (by rw [← List.sum_cons]; exact hin) (by
          rw [← List.sum_cons]; exact hlt)
        rw [← List.sum_cons] at hy1 hy2
        exact ⟨y, hy1, by omega⟩
      · exact ⟨s.st, hin, by omega⟩

/-- Invariant of the loop: all states with a chunk below `j` have been entered. -/
structure LoopInv (N p kp cs c0 : Nat) (rest : List Nat) (size : Nat) (d0 : Nat → Int) (j : Nat) (s : TrieState) : Prop where
  c0_le : c0 ≤ j
  least : Least N ((p * 2 ^ cs + j) * 2 ^ rest.sum) s.st
  rank : s.rank = cnsRank s.st
  k_ge : kp + 2 ^ cs ≤ s.k
  k_le : s.k ≤ kp + 2 ^ cs + j * trieSize rest
  size : s.mem.size = size
  frame : ∀ i < kp + c0, s.mem.data i = d0 i
  sub : ∀ x, InSub N p (cs + rest.sum) x → chunkAt rest.sum cs x < j →
    Sub s.mem.data (kp + 2 ^ cs) s.k (PtrOk N p kp cs rest.sum) rest (s.mem.data (kp + chunkAt rest.sum cs x)) x (cnsRank x)

theorem loop_spec (N p kp cs c0 : Nat) (rest : List Nat) (size : Nat) (d0 : Nat → Int) (hm : cs + rest.sum ≤ 62)
    (hp : (p + 1) * 2 ^ (cs + rest.sum) ≤ 2 ^ 62)
    (body : Nat → TrieState → Option (Bool × TrieState)) (hb : BodySpec N p kp cs rest body)
    (hsize : kp + 2 ^ cs * (1 + trieSize rest) ≤ size) (hsize' : size ≤ 2 ^ 63) :
    ∀ (fuel c j : Nat) (s : TrieState), 2 ^ cs + 1 ≤ fuel + j → LoopInv N p kp cs c0 rest size d0 j s →
      (s.st / 2 ^ (cs + rest.sum) = p ∨ (c + 1 = j ∧ c0 ≤ c ∧ c < 2 ^ cs)) → j ≤ 2 ^ cs →
      ∃ c' s', trieLoop cs (cs + rest.sum) (not64 (sub64 (pow2 (cs + rest.sum)) 1)) (p * 2 ^ (cs + rest.sum)) body fuel c s
          = some (c', s') ∧
        c0 ≤ c' ∧ c' < 2 ^ cs ∧ kp + 2 ^ cs ≤ s'.k ∧ s'.k ≤ kp + 2 ^ cs * (1 + trieSize rest) ∧ s'.mem.size = size ∧
        (∀ i < kp + c0, s'.mem.data i = d0 i) ∧ Done N ((p + 1) * 2 ^ (cs + rest.sum)) s' ∧
        (∀ x, InSub N p (cs + rest.sum) x → chunkAt rest.sum cs x ≤ c') ∧
        ∀ x, InSub N p (cs + rest.sum) x →
          Sub s'.mem.data (kp + 2 ^ cs) s'.k (PtrOk N p kp cs rest.sum) rest (s'.mem.data (kp + chunkAt rest.sum cs x)) x (cnsRank x) := by
  have hpos := Nat.two_pow_pos cs
  have hposr := Nat.two_pow_pos rest.sum
  have hposm := Nat.two_pow_pos (cs + rest.sum)
  have hsplit : (2 : Nat) ^ (cs + rest.sum) = 2 ^ cs * 2 ^ rest.sum := pow_add _ _ _
  have hTs : 2 ^ cs * (1 + trieSize rest) = 2 ^ cs + 2 ^ cs * trieSize rest := by ring
  intro fuel
  induction fuel with
  | zero => intro c j s h1 _ _ h3; omega
  | succ fuel ih =>
    intro c j s hf hI hent hj
    have hjT : j * trieSize rest ≤ 2 ^ cs * trieSize rest := Nat.mul_le_mul_right _ hj
    rw [trieLoop]
    rw [and_high_mask hI.least.lt (by omega)]
    by_cases hpre : s.st / 2 ^ (cs + rest.sum) = p
    · rw [if_pos (by rw [hpre])]
      dsimp only
      rw [show cs + rest.sum - cs = rest.sum by omega, field_eq]
      have e1 := prefix_split hpre
      have hc : chunkAt rest.sum cs s.st < 2 ^ cs := chunkAt_lt _ _ _
      change ∃ c' s', (match body (chunkAt rest.sum cs s.st) s with
        | none => none
        | some (true, s') => some (chunkAt rest.sum cs s.st, s')
        | some (false, s') => trieLoop cs (cs + rest.sum) (not64 (sub64 (pow2 (cs + rest.sum)) 1)) (p * 2 ^ (cs + rest.sum)) body fuel
            (chunkAt rest.sum cs s.st) s') = some (c', s') ∧ _
      have hcbdef : ∃ cb, chunkAt rest.sum cs s.st = cb := ⟨_, rfl⟩
      obtain ⟨cb, hcb⟩ := hcbdef
      rw [hcb] at hc e1 ⊢
      have hbnd := (div_eq_iff_bounds hposr).1 e1
      have hjc : j ≤ cb := by
        have h1 : p * 2 ^ cs + j ≤ s.st / 2 ^ rest.sum := (Nat.le_div_iff_mul_le hposr).2 hI.least.ge
        omega
      have hcT : (cb + 1) * trieSize rest ≤ 2 ^ cs * trieSize rest := Nat.mul_le_mul_right _ hc
      have hjcT : j * trieSize rest ≤ cb * trieSize rest := Nat.mul_le_mul_right _ hjc
      have hcT' : (cb + 1) * trieSize rest = cb * trieSize rest + trieSize rest := by ring
      have hkle := hI.k_le
      have hkge := hI.k_ge
      have hc0 := hI.c0_le
      have hL' : Least N ((p * 2 ^ cs + cb) * 2 ^ rest.sum) s.st :=
        hI.least.weaken (Nat.mul_le_mul_right _ (by omega)) hbnd.1
      obtain ⟨s', b1, b2, b3, b4, b5, b6, b7⟩ := hb cb s hc hL' e1 hI.rank hkge (by rw [hI.size]; omega) (by rw [hI.size]; exact hsize')
      rw [b1]
      have hframe : ∀ i < kp + c0, s'.mem.data i = d0 i := by
        intro i hi
        rw [b5 i (by omega) (by omega), hI.frame i hi]
      have hsub : ∀ x, InSub N p (cs + rest.sum) x → chunkAt rest.sum cs x ≤ cb →
          Sub s'.mem.data (kp + 2 ^ cs) s'.k (PtrOk N p kp cs rest.sum) rest (s'.mem.data (kp + chunkAt rest.sum cs x)) x (cnsRank x) := by
        intro x hx hxc
        have ex := prefix_split hx.1
        by_cases hxe : chunkAt rest.sum cs x = cb
        · rw [hxe] at ex ⊢
          exact sub_congr (fun _ _ _ => rfl) hkge le_rfl (fun _ h => h) (b7 x ex hx.2)
        · have hxj : chunkAt rest.sum cs x < j := by
            by_contra hcon
            have h1 : (p * 2 ^ cs + j) * 2 ^ rest.sum ≤ x := by
              have := ((div_eq_iff_bounds hposr).1 ex).1
              exact le_trans (Nat.mul_le_mul_right _ (by omega)) this
            have h2 := hI.least.le x ((inSub_lt hp hx).trans (by decide)) hx.2 h1
            have h3 := Nat.div_le_div_right (c := 2 ^ rest.sum) h2
            rw [ex, e1] at h3
            omega
          have hold := hI.sub x hx hxj
          rw [b5 _ (by omega) (by omega)]
          refine sub_congr ?_ le_rfl b3 (fun _ h => h) hold
          intro i hi1 hi2
          exact b5 i hi2 (by omega)
      by_cases hN : N = 0
      · rw [decide_eq_true hN]
        refine ⟨cb, s', rfl, by omega, hc, by omega, by omega, by rw [b2, hI.size], hframe, ⟨b6.zero, fun h => absurd hN h⟩, ?_, ?_⟩
        · intro x hx
          have : x = 0 := eq_zero_of_bitCount ((inSub_lt hp hx).trans (by decide)) (by rw [hx.2, hN])
          rw [this, chunkAt]; simp
        · intro x hx
          refine hsub x hx ?_
          have : x = 0 := eq_zero_of_bitCount ((inSub_lt hp hx).trans (by decide)) (by rw [hx.2, hN])
          rw [this, chunkAt]; simp
      · rw [decide_eq_false hN]
        dsimp only
        refine ih cb (cb + 1) s' (by omega) ⟨by omega, ?_, (b6.pos hN).2, by omega, by omega, by rw [b2, hI.size], hframe, ?_⟩
          (Or.inr ⟨rfl, by omega, hc⟩) hc
        · exact (b6.pos hN).1
        · intro x hx hxc
          exact hsub x hx (by omega)
    · rw [if_neg (by intro h; exact hpre (Nat.eq_of_mul_eq_mul_right hposm h))]
      obtain ⟨h1, h2, h3⟩ := hent.resolve_left hpre
      have hkle := hI.k_le
      have hge : (p + 1) * 2 ^ (cs + rest.sum) ≤ s.st := by
        have a1 := hI.least.ge
        have a2 : p * 2 ^ (cs + rest.sum) ≤ s.st := by
          refine le_trans ?_ a1
          rw [hsplit, ← Nat.mul_assoc]
          exact Nat.mul_le_mul_right _ (by omega)
        by_contra hcon
        exact hpre ((div_eq_iff_bounds hposm).2 ⟨a2, by omega⟩)
      have hjle : (p * 2 ^ cs + j) * 2 ^ rest.sum ≤ (p + 1) * 2 ^ (cs + rest.sum) := by
        rw [hsplit, ← Nat.mul_assoc]
        refine Nat.mul_le_mul_right _ ?_
        rw [Nat.add_mul, Nat.one_mul]; omega
      have hall : ∀ x, InSub N p (cs + rest.sum) x → chunkAt rest.sum cs x < j := by
        intro x hx
        by_contra hcon
        have ex := prefix_split hx.1
        have b1 : (p * 2 ^ cs + j) * 2 ^ rest.sum ≤ x := by
          have := ((div_eq_iff_bounds hposr).1 ex).1
          exact le_trans (Nat.mul_le_mul_right _ (by omega)) this
        have b2 := hI.least.le x ((inSub_lt hp hx).trans (by decide)) hx.2 b1
        have b3 := ((div_eq_iff_bounds hposm).1 hx.1).2
        omega
      refine ⟨c, s, rfl, h2, h3, hI.k_ge, by omega, hI.size, hI.frame, ⟨?_, ?_⟩, ?_, ?_⟩
      · intro hN
        have : s.st = 0 := eq_zero_of_bitCount hI.least.lt (by rw [hI.least.cnt, hN])
        rw [this] at hge
        have : 0 < (p + 1) * 2 ^ (cs + rest.sum) := Nat.mul_pos (by omega) hposm
        omega
      · intro _
        exact ⟨hI.least.weaken hjle hge, hI.rank⟩
      · intro x hx
        have := hall x hx
        omega
      · intro x hx
        exact hI.sub x hx (hall x hx)

theorem make_spec (N : Nat) : ∀ chunks : List Nat, chunks ≠ [] → chunks.Pairwise (fun a b => b ≤ a) → chunks.sum ≤ 62 → MakeSpec N chunks := by
  intro chunks
  induction chunks with
  | nil => intro h; exact absurd rfl h
  | cons cs rest ih =>
    intro _ hpw hsum p s hp hL hst hr hsz hsz'
    have hpos := Nat.two_pow_pos cs
    have hposr := Nat.two_pow_pos rest.sum
    rw [List.sum_cons] at hsum hp hL hst
    have hin : InSub N p (cs + rest.sum) s.st := ⟨hst, hL.cnt⟩
    have e1 := prefix_split hst
    have hc : chunkAt rest.sum cs s.st < 2 ^ cs := chunkAt_lt _ _ _
    have hTs : 2 ^ cs * (1 + trieSize rest) = 2 ^ cs + 2 ^ cs * trieSize rest := by ring
    rw [trieSize] at hsz ⊢
    have hbody : BodySpec N p s.k cs rest (trieBody cs rest.head? (cs + rest.sum) s.k (makeTrie rest)) := by
      cases rest with
      | nil => exact leaf_spec N p s.k cs hp
      | cons cs' rest' =>
        have h2 := List.pairwise_cons.1 hpw
        exact node_spec N p s.k cs cs' rest' (h2.1 cs' (by simp)) hp (ih (by simp) h2.2 (by omega))
    have hI : LoopInv N p s.k cs (chunkAt rest.sum cs s.st) rest s.mem.size s.mem.data (chunkAt rest.sum cs s.st)
        ⟨s.rank, s.st, s.k + 2 ^ cs, s.mem⟩ := by
      refine ⟨le_rfl, ?_, hr, le_rfl, Nat.le_add_right _ _, rfl, fun _ _ => rfl, ?_⟩
      · have hb := (div_eq_iff_bounds hposr).1 e1
        refine hL.weaken ?_ hb.1
        rw [pow_add, ← Nat.mul_assoc]
        exact Nat.mul_le_mul_right _ (by omega)
      · intro x hx hlt
        exfalso
        have ex := prefix_split hx.1
        have a1 := ((div_eq_iff_bounds (Nat.two_pow_pos (cs + rest.sum))).1 hx.1).1
        have a2 := hL.le x ((inSub_lt hp hx).trans (by decide)) hx.2 a1
        have a3 := Nat.div_le_div_right (c := 2 ^ rest.sum) a2
        rw [ex, e1] at a3
        omega
    have hmin : ∀ x, InSub N p (cs + rest.sum) x → chunkAt rest.sum cs s.st ≤ chunkAt rest.sum cs x := by
      intro x hx
      have ex := prefix_split hx.1
      have a1 := ((div_eq_iff_bounds (Nat.two_pow_pos (cs + rest.sum))).1 hx.1).1
      have a2 := hL.le x ((inSub_lt hp hx).trans (by decide)) hx.2 a1
      have a3 := Nat.div_le_div_right (c := 2 ^ rest.sum) a2
      rw [ex, e1] at a3
      omega
    obtain ⟨c', s', l1, l2, l3, l4, l5, l6, l7, l8, l9, l10⟩ := loop_spec N p s.k cs (chunkAt rest.sum cs s.st) rest s.mem.size s.mem.data
      hsum hp _ hbody hsz hsz' (2 ^ cs + 1) (2 ^ cs - 1) _ _ (by omega) hI (Or.inl hst) (by omega)
    obtain ⟨s'', p1, p2, p3, p4, p5, p6, p7, p8⟩ := packTrie_spec cs s.k (chunkAt rest.sum cs s.st) c' rest s' l2 l3 l4 (by rw [l6]; omega)
      (InSub N p (cs + rest.sum)) cnsRank (fun x hx => ⟨hmin x hx, l9 x hx⟩) l10
    rw [makeTrie]
    dsimp only [List.tail_cons, List.headD_cons]
    rw [List.sum_cons, if_neg (by have : (2 : Nat) ^ 63 < W64 := by decide
                                  omega)]
    rw [and_high_mask hL.lt (by omega), hst, l1]
    dsimp only
    rw [show cs + rest.sum - cs = rest.sum by omega, field_eq, p1]
    refine ⟨s'', rfl, by rw [p4, l6], p5, by omega, ?_, ⟨?_, ?_⟩, p8⟩
    · intro j hj
      rw [p7 j hj, l7 j hj]
    · intro h; rw [p3, p2]; exact l8.zero h
    · intro h; rw [p3, p2]; exact l8.pos h

end LC
