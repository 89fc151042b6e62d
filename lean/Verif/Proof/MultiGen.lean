import Verif.Proof.Lex
import Verif.Proof.HSForeach
/-
The generator of multisector states visits the product of the sectors in lexicographic order.
-/
set_option linter.unusedSimpArgs false
namespace LC

/-! ### Digits and positions in the lexicographic list -/

/-- Number of states of the `j`-th sector. -/
def secSize (ps : List SectorParams) (j : Nat) : Nat := ((ps[j]?).map fun p => Nat.choose p.M p.N).getD 0

/-- The `n`-th word of the `j`-th sector. -/
def secWord (ps : List SectorParams) (j n : Nat) : Nat := ((ps[j]?).map fun p => (sectorWords p).getD n 0).getD 0

/-- The number with the given digits in mixed radix. -/
def digVal : List SectorParams → (Nat → Nat) → Nat
  | [], _ => 0
  | _ :: ps, d => d 0 * multiSizeOf ps + digVal ps fun j => d (j + 1)

def digSum : List SectorParams → (Nat → Nat) → Nat
  | [], _ => 0
  | p :: ps, d => (sectorWords p).getD (d 0) 0 + digSum ps fun j => d (j + 1)

theorem multiSizeOf_cons (p : SectorParams) (ps : List SectorParams) : multiSizeOf (p :: ps) = Nat.choose p.M p.N * multiSizeOf ps := by
  simp [multiSizeOf]

theorem multiSizeOf_pos (ps : List SectorParams) (h : ∀ p ∈ ps, p.Good) : 0 < multiSizeOf ps := by
  induction ps with
  | nil => simp [multiSizeOf]
  | cons p ps ih =>
    rw [multiSizeOf_cons]
    exact Nat.mul_pos (Nat.choose_pos (h p List.mem_cons_self).valid.2) (ih fun q hq => h q (List.mem_cons_of_mem _ hq))

theorem digVal_lt (ps : List SectorParams) (d : Nat → Nat) (hd : ∀ j < ps.length, d j < secSize ps j) : digVal ps d < multiSizeOf ps := by
  induction ps generalizing d with
  | nil => simp [digVal, multiSizeOf]
  | cons p ps ih =>
    have h0 := hd 0 (by simp)
    have h1 := ih (fun j => d (j + 1)) fun j hj => by
      have := hd (j + 1) (by simpa using hj)
      simpa [secSize] using this
    simp only [secSize, List.getElem?_cons_zero, Option.map_some, Option.getD_some] at h0
    rw [digVal, multiSizeOf_cons]
    calc d 0 * multiSizeOf ps + digVal ps (fun j => d (j + 1)) < d 0 * multiSizeOf ps + multiSizeOf ps := by omega
      _ = (d 0 + 1) * multiSizeOf ps := by ring
      _ ≤ _ := Nat.mul_le_mul_right _ h0

theorem digVal_zero (ps : List SectorParams) (d : Nat → Nat) (hd : ∀ j < ps.length, d j = 0) : digVal ps d = 0 := by
  induction ps generalizing d with
  | nil => rfl
  | cons p ps ih =>
    rw [digVal, hd 0 (by simp), ih _ fun j hj => hd (j + 1) (by simpa using hj)]; simp

theorem digVal_max (ps : List SectorParams) (d : Nat → Nat) (hd : ∀ j < ps.length, d j + 1 = secSize ps j) :
    digVal ps d + 1 = multiSizeOf ps := by
  induction ps generalizing d with
  | nil => rfl
  | cons p ps ih =>
    have h0 := hd 0 (by simp)
    simp only [secSize, List.getElem?_cons_zero, Option.map_some, Option.getD_some] at h0
    have h1 := ih (fun j => d (j + 1)) fun j hj => by
      have := hd (j + 1) (by simpa using hj)
      simpa [secSize] using this
    rw [digVal, multiSizeOf_cons, Nat.add_assoc, h1, ← h0]; ring

/-- Increment in mixed radix. -/
theorem digVal_succ (ps : List SectorParams) (d d' : Nat → Nat) (j0 : Nat) (hj : j0 < ps.length) (h1 : d' j0 = d j0 + 1)
    (h2 : ∀ j < j0, d' j = d j) (h3 : ∀ j < ps.length, j0 < j → d j + 1 = secSize ps j ∧ d' j = 0) : digVal ps d' = digVal ps d + 1 := by
  induction ps generalizing d d' j0 with
  | nil => simp at hj
  | cons p ps ih =>
    rw [digVal, digVal]
    cases j0 with
    | zero =>
      have e1 := digVal_max ps (fun j => d (j + 1)) fun j hj => by
        have := (h3 (j + 1) (by simpa using hj) (by omega)).1
        simpa [secSize] using this
      have e2 := digVal_zero ps (fun j => d' (j + 1)) fun j hj => (h3 (j + 1) (by simpa using hj) (by omega)).2
      rw [e2, h1, ← e1]; ring
    | succ j0 =>
      rw [h2 0 (by omega), ih (fun j => d (j + 1)) (fun j => d' (j + 1)) j0 (by simpa using hj) h1 (fun j hj => h2 (j + 1) (by omega))
        (fun j hj hjj => by
          have := h3 (j + 1) (by simpa using hj) (by omega)
          simpa [secSize] using this)]
      ring

theorem lexList_digits (ps : List SectorParams) (h : ∀ p ∈ ps, p.Good) (hdis : DisjointMasks ps) (d : Nat → Nat)
    (hd : ∀ j < ps.length, d j < secSize ps j) : (lexList (ps.map sectorWords))[digVal ps d]? = some (digSum ps d) := by
  induction ps generalizing d with
  | nil => rfl
  | cons p ps ih =>
    have hps : ∀ q ∈ ps, q.Good := fun q hq => h q (List.mem_cons_of_mem _ hq)
    have hl := (lex_enum ps hps (List.pairwise_cons.1 hdis).2).1
    have hpos := multiSizeOf_pos ps hps
    have hd' : ∀ j < ps.length, d (j + 1) < secSize ps j := fun j hj => by
      have := hd (j + 1) (by simpa using hj)
      simpa [secSize] using this
    have hlt := digVal_lt ps (fun j => d (j + 1)) hd'
    have h0 := hd 0 (by simp)
    simp only [secSize, List.getElem?_cons_zero, Option.map_some, Option.getD_some] at h0
    rw [← (sectorWords_enum p (h p List.mem_cons_self)).1] at h0
    rw [List.map_cons, lexList, digVal, digSum, flatMap_uniform_getElem? _ _ (multiSizeOf ps) hpos (by intro a _; rw [List.length_map, hl])]
    have e1 : (d 0 * multiSizeOf ps + digVal ps fun j => d (j + 1)) / multiSizeOf ps = d 0 := by
      rw [Nat.mul_comm, Nat.mul_add_div hpos, Nat.div_eq_of_lt hlt, Nat.add_zero]
    have e2 : (d 0 * multiSizeOf ps + digVal ps fun j => d (j + 1)) % multiSizeOf ps = digVal ps fun j => d (j + 1) := by
      rw [Nat.mul_comm, Nat.mul_add_mod, Nat.mod_eq_of_lt hlt]
    rw [e1, e2, List.getElem?_eq_getElem h0, Option.bind_some, List.getElem?_map, ih hps (List.pairwise_cons.1 hdis).2 _ hd',
      Option.map_some, List.getD_eq_getElem?_getD, List.getElem?_eq_getElem h0]
    rfl

theorem digSum_eq (ps : List SectorParams) (d : Nat → Nat) : digSum ps d = ∑ i ∈ Finset.range ps.length, secWord ps i (d i) := by
  induction ps generalizing d with
  | nil => rfl
  | cons p ps ih =>
    rw [digSum, ih, List.length_cons, Finset.sum_range_succ', Nat.add_comm]
    simp [secWord]

/-! ### One generator -/

theorem choose_counted (p : SectorParams) (h : p.Valid) : Nat.choose p.M (countedModes p) = Nat.choose p.M p.N := by
  have hNM := h.2
  unfold countedModes; split
  · rfl
  · exact Nat.choose_symm hNM

theorem Good.binom {p : SectorParams} (h : p.Good) : binomial p.M (countedModes p) = Nat.choose p.M (countedModes p) := by
  have h63 := h.valid.1
  have hN := h.valid.2
  have he := h.exact_
  unfold SectorParams.Exact at he
  by_cases hlt : p.M ≤ 62
  · exact binomial_eq_choose _ _ hlt
  · have e : p.M = 63 := by omega
    rw [e, C46_binomial_63]
    unfold countedModes
    split <;> omega

theorem gen_done {p : SectorParams} (h : p.Good) {g : UnrankGen} {k : Nat} (hg : g.At p k) :
    g.done = decide (k = Nat.choose p.M p.N) := by
  rw [UnrankGen.done, hg.i, hg.total, choose_counted p h.valid]
  rw [Bool.eq_iff_iff]; simp

theorem gen_next {p : SectorParams} (h : p.Good) {g : UnrankGen} {k : Nat} (hg : g.At p k) (hk : k < Nat.choose p.M p.N) :
    g.next.2.At p (k + 1) ∧ depositBits g.next.1 p.mask = (sectorWords p).getD k 0 := by
  obtain ⟨h1, h2, h3, h4⟩ := UnrankGen.next_at p h.valid (Good.binom h) hg (by rw [choose_counted p h.valid]; exact hk)
  refine ⟨h1, ?_⟩
  have h5 := masked_lt p h.valid _ h2
  have h6 := unmasked_count p h.valid _ h2 h3
  rw [masked_invol] at h5 h6
  have h7 : combRk p g.next.1 = k := by rw [combRk, combRank_eq p h.valid _ h5 h6, h4]; rfl
  obtain ⟨l, g', e1, e2, e3⟩ := unranked_enum p h.valid h.exact_
  have h8 := (e3 k g.next.1).2 ⟨⟨h5, h6⟩, h7⟩
  unfold sectorWords
  rw [e1]
  simp [List.getD_eq_getElem?_getD, h8]

/-! ### The loop of `next()` -/

/-- The generators are at the positions `k`, and the partial sums below `s` are up to date. -/
structure MultiGen.Inv (ps : List SectorParams) (k : Nat → Nat) (s : Nat) (g : MultiGen) : Prop where
  params : g.params = ps
  len : g.gens.length = ps.length
  plen : g.part.length = ps.length
  gens : ∀ j p, ps[j]? = some p → ∃ gen : UnrankGen, g.gens[j]? = some gen ∧ gen.At p (k j)
  le : s ≤ ps.length
  part : ∀ j < s, g.part[j]? = some ((∑ i ∈ Finset.range (j + 1), secWord ps i (k i - 1)) % W64)

namespace MultiGen
variable {ps : List SectorParams} {k : Nat → Nat} {s : Nat} {g : MultiGen}

theorem pop (h : ∀ p ∈ ps, p.Good) (hi : Inv ps k s g) (hs : s < ps.length) (hgs : g.s = s) (hk : k s = secSize ps s) (f : Nat) :
    ∃ g', nextLoop (f + 1) g = nextLoop f g' ∧ g'.s = (s : Int) - 1 ∧ Inv ps (Function.update k s 0) s g' ∧ g'.i = g.i ∧ g'.total = g.total := by
  obtain ⟨gen, hgen, hat⟩ := hi.gens s ps[s] (List.getElem?_eq_getElem hs)
  have hp : ps[s].Good := h _ (List.getElem_mem hs)
  have hdone : gen.done = true := by
    rw [gen_done hp hat, hk]; simp [secSize, List.getElem?_eq_getElem hs]
  refine ⟨{ g with gens := g.gens.set s gen.init, s := g.s - 1 }, ?_, by simp [hgs], ⟨hi.params, by simp [hi.len], hi.plen, ?_, hi.le, ?_⟩, rfl, rfl⟩
  · rw [nextLoop, if_neg (by omega)]
    simp only [hgs, Int.toNat_natCast, hgen, hi.params, List.getElem?_eq_getElem hs, hdone, if_true]
  · intro j p hj
    by_cases hjs : j = s
    · subst hjs
      have hpe : ps[j] = p := by rw [List.getElem?_eq_getElem hs] at hj; exact Option.some.inj hj
      refine ⟨gen.init, ?_, ?_⟩
      · have : j < g.gens.length := by rw [hi.len]; exact hs
        simp [this]
      · rw [Function.update_self, ← hpe]
        exact UnrankGen.init_at _ hp.valid (Good.binom hp) hat
    · obtain ⟨ge, h1, h2⟩ := hi.gens j p hj
      refine ⟨ge, ?_, by rw [Function.update_of_ne hjs]; exact h2⟩
      simp only
      rw [List.getElem?_set_ne (Ne.symm hjs)]; exact h1
  · intro j hj
    rw [hi.part j hj]
    congr 2
    refine Finset.sum_congr rfl fun i hir => ?_
    rw [Finset.mem_range] at hir
    rw [Function.update_of_ne (by omega)]

theorem adv (h : ∀ p ∈ ps, p.Good) (hi : Inv ps k s g) (hs : s < ps.length) (hgs : g.s = s) (hk : k s < secSize ps s) (f : Nat) :
    ∃ g', (if s + 1 < ps.length then nextLoop (f + 1) g = nextLoop f { g' with s := s + 1 } else nextLoop (f + 1) g = some g') ∧
      g'.s = s ∧ Inv ps (Function.update k s (k s + 1)) (s + 1) g' ∧ g'.i = g.i ∧ g'.total = g.total := by
  obtain ⟨gen, hgen, hat⟩ := hi.gens s ps[s] (List.getElem?_eq_getElem hs)
  have hp : ps[s].Good := h _ (List.getElem_mem hs)
  have hk' : k s < Nat.choose ps[s].M ps[s].N := by
    simpa [secSize, List.getElem?_eq_getElem hs] using hk
  have hdone : gen.done = false := by
    rw [gen_done hp hat]; simp; omega
  obtain ⟨hn1, hn2⟩ := gen_next hp hat hk'
  have hw : depositBits gen.next.1 ps[s].mask = secWord ps s (k s) := by
    rw [hn2, secWord, List.getElem?_eq_getElem hs]; rfl
  have hx : (if g.s = 0 then some (depositBits gen.next.1 ps[s].mask) else
      (g.part[g.s.toNat - 1]?).map fun x => add64 x (depositBits gen.next.1 ps[s].mask)) =
      some ((∑ i ∈ Finset.range (s + 1), secWord ps i ((Function.update k s (k s + 1)) i - 1)) % W64) := by
    have hsum : (∑ i ∈ Finset.range s, secWord ps i ((Function.update k s (k s + 1)) i - 1)) =
        ∑ i ∈ Finset.range s, secWord ps i (k i - 1) := by
      refine Finset.sum_congr rfl fun i hir => ?_
      rw [Finset.mem_range] at hir
      rw [Function.update_of_ne (by omega)]
    rw [Finset.sum_range_succ, hsum, Function.update_self, Nat.add_sub_cancel, ← hw]
    by_cases h0 : s = 0
    · subst h0
      rw [if_pos (by simpa using hgs)]
      simp only [Finset.range_zero, Finset.sum_empty, Nat.zero_add, Option.some.injEq]
      exact (Nat.mod_eq_of_lt ((depositBits_le _ _ hp.mask).trans_lt hp.mask)).symm
    · rw [if_neg (by omega), hgs, Int.toNat_natCast, hi.part (s - 1) (by omega)]
      rw [show s - 1 + 1 = s by omega]
      simp [add64, Nat.add_mod]
  refine ⟨{ g with gens := g.gens.set s gen.next.2, part := g.part.set s ((∑ i ∈ Finset.range (s + 1),
    secWord ps i ((Function.update k s (k s + 1)) i - 1)) % W64) }, ?_, hgs, ⟨hi.params, by simp [hi.len], by simp [hi.plen], ?_, hs, ?_⟩, rfl, rfl⟩
  · have hstep : nextLoop (f + 1) g = (let g' : MultiGen := { g with gens := g.gens.set s gen.next.2, part := g.part.set s ((∑ i ∈ Finset.range (s + 1),
        secWord ps i ((Function.update k s (k s + 1)) i - 1)) % W64) };
        if g'.s < (g'.gens.length : Int) - 1 then nextLoop f { g' with s := g'.s + 1 } else some g') := by
      rw [nextLoop, if_neg (by omega)]
      have e1 : g.gens[g.s.toNat]? = some gen := by rw [hgs]; exact hgen
      have e2 : g.params[g.s.toNat]? = some ps[s] := by rw [hgs, hi.params]; exact List.getElem?_eq_getElem hs
      rw [e1, e2]
      simp only [hdone, Bool.false_eq_true, if_false]
      rw [hx]
      simp only [hgs, Int.toNat_natCast]
    simp only at hstep
    rw [List.length_set, hi.len, hgs] at hstep
    split
    · next hc => rw [hstep, if_pos (by omega)]
    · next hc => rw [hstep, if_neg (by omega), ← hgs]
  · intro j p hj
    by_cases hjs : j = s
    · subst hjs
      have hpe : ps[j] = p := by rw [List.getElem?_eq_getElem hs] at hj; exact Option.some.inj hj
      refine ⟨gen.next.2, ?_, ?_⟩
      · have : j < g.gens.length := by rw [hi.len]; exact hs
        simp [this]
      · rw [Function.update_self, ← hpe]; exact hn1
    · obtain ⟨ge, h1, h2⟩ := hi.gens j p hj
      refine ⟨ge, ?_, by rw [Function.update_of_ne hjs]; exact h2⟩
      simp only
      rw [List.getElem?_set_ne (Ne.symm hjs)]; exact h1
  · intro j hj
    by_cases hjs : j = s
    · subst hjs
      have : j < g.part.length := by rw [hi.plen]; exact hs
      simp [this]
    · simp only
      rw [List.getElem?_set_ne (Ne.symm hjs), hi.part j (by omega)]
      congr 2
      refine Finset.sum_congr rfl fun i hir => ?_
      rw [Finset.mem_range] at hir
      rw [Function.update_of_ne (by omega)]

/-- Moving towards the last sector: every remaining generator is advanced once. -/
theorem push (h : ∀ p ∈ ps, p.Good) (n : Nat) : ∀ (s : Nat) (k : Nat → Nat) (g : MultiGen) (f : Nat), Inv ps k s g → g.s = s →
    s + n + 1 = ps.length → (∀ j, s ≤ j → j < ps.length → k j < secSize ps j) →
    ∃ g', nextLoop (f + n + 1) g = some g' ∧ g'.s = (ps.length : Int) - 1 ∧
      Inv ps (fun j => if s ≤ j ∧ j < ps.length then k j + 1 else k j) ps.length g' ∧ g'.i = g.i ∧ g'.total = g.total := by
  induction n with
  | zero =>
    intro s k g f hi hgs hn hk
    obtain ⟨g', h1, h2, h3, h4, h5⟩ := adv h hi (by omega) hgs (hk s le_rfl (by omega)) f
    rw [if_neg (by omega)] at h1
    refine ⟨g', h1, by rw [h2]; omega, ?_, h4, h5⟩
    have e : (fun j => if s ≤ j ∧ j < ps.length then k j + 1 else k j) = Function.update k s (k s + 1) := by
      funext j
      by_cases hj : j = s
      · subst hj; rw [Function.update_self, if_pos (by omega)]
      · rw [Function.update_of_ne hj, if_neg (by omega)]
    rw [e, ← hn]
    exact h3
  | succ n ih =>
    intro s k g f hi hgs hn hk
    obtain ⟨g1, h1, h2, h3, h4, h5⟩ := adv h hi (by omega) hgs (hk s le_rfl (by omega)) (f + n + 1)
    rw [if_pos (by omega)] at h1
    obtain ⟨g', i1, i2, i3, i4, i5⟩ := ih (s + 1) _ { g1 with s := s + 1 } f ⟨h3.params, h3.len, h3.plen, h3.gens, h3.le, h3.part⟩ (by simp)
      (by omega) (fun j hj hj2 => by rw [Function.update_of_ne (by omega)]; exact hk j (by omega) hj2)
    refine ⟨g', by rw [show f + (n + 1) + 1 = f + n + 1 + 1 by omega, h1, i1], i2, ?_, i4.trans h4, i5.trans h5⟩
    have e : (fun j => if s ≤ j ∧ j < ps.length then k j + 1 else k j) =
        fun j => if s + 1 ≤ j ∧ j < ps.length then Function.update k s (k s + 1) j + 1 else Function.update k s (k s + 1) j := by
      funext j
      by_cases hj : j = s
      · subst hj; rw [Function.update_self, if_pos (by omega), if_neg (by omega)]
      · rw [Function.update_of_ne hj]
        by_cases hc : s ≤ j ∧ j < ps.length
        · rw [if_pos hc, if_pos (by omega)]
        · rw [if_neg hc, if_neg (by omega)]
    rw [e]; exact i3

/-- Moving towards the first sector over exhausted generators. -/
theorem pops (h : ∀ p ∈ ps, p.Good) (n : Nat) : ∀ (s : Nat) (k : Nat → Nat) (g : MultiGen) (f : Nat), Inv ps k (s + n) g → g.s = (s + n : Nat) →
    s + n < ps.length → (∀ j, s < j → j ≤ s + n → k j = secSize ps j) →
    ∃ g', nextLoop (f + n) g = nextLoop f g' ∧ g'.s = s ∧ Inv ps (fun j => if s < j ∧ j ≤ s + n then 0 else k j) s g' ∧
      g'.i = g.i ∧ g'.total = g.total := by
  induction n with
  | zero =>
    intro s k g f hi hgs hn hk
    refine ⟨g, rfl, by simpa using hgs, ?_, rfl, rfl⟩
    have e : (fun j => if s < j ∧ j ≤ s + 0 then 0 else k j) = k := by
      funext j; rw [if_neg (by omega)]
    rw [e]; simpa using hi
  | succ n ih =>
    intro s k g f hi hgs hn hk
    obtain ⟨g1, h1, h2, h3, h4, h5⟩ := pop h hi (by omega) hgs (hk _ (by omega) le_rfl) (f + n)
    have h3' : Inv ps (Function.update k (s + (n + 1)) 0) (s + n) g1 :=
      ⟨h3.params, h3.len, h3.plen, h3.gens, by omega, fun j hj => h3.part j (by omega)⟩
    obtain ⟨g', i1, i2, i3, i4, i5⟩ := ih s _ g1 f h3' (by rw [h2]; push_cast; omega) (by omega)
      (fun j hj hj2 => by rw [Function.update_of_ne (by omega)]; exact hk j hj (by omega))
    refine ⟨g', by rw [← i1, ← h1]; rfl, i2, ?_, i4.trans h4, i5.trans h5⟩
    have e : (fun j => if s < j ∧ j ≤ s + (n + 1) then 0 else k j) =
        fun j => if s < j ∧ j ≤ s + n then 0 else Function.update k (s + (n + 1)) 0 j := by
      funext j
      by_cases hj : j = s + (n + 1)
      · subst hj; rw [Function.update_self, if_pos (by omega)]; simp
      · rw [Function.update_of_ne hj]
        by_cases hc : s < j ∧ j ≤ s + n
        · rw [if_pos hc, if_pos (by omega)]
        · rw [if_neg hc, if_neg (by omega)]
    rw [e]; exact i3

/-- The state of the generator after `n` calls of `next()`. -/
def After (ps : List SectorParams) (n : Nat) (g : MultiGen) : Prop :=
  g.total = multiSizeOf ps ∧ g.i = n ∧
    if n = 0 then g.s = 0 ∧ Inv ps (fun _ => 0) 0 g else
    ps = [] ∧ n = 1 ∧ g.gens.length = 0 ∨ ∃ d : Nat → Nat, (∀ j < ps.length, d j < secSize ps j) ∧ digVal ps d = n - 1 ∧ g.s = (ps.length : Int) - 1 ∧ 0 < ps.length ∧
      Inv ps (fun j => d j + 1) ps.length g

theorem finish (h : ∀ p ∈ ps, p.Good) (hdis : DisjointMasks ps) (hW : ∀ s ∈ lexList (ps.map sectorWords), s < W64) (n : Nat) (hn64 : n + 1 < W64) (g g' : MultiGen) (hi0 : g.i = n)
    (ht : g.total = multiSizeOf ps) (hpos : 0 < ps.length) (hglen : g.gens.length = ps.length)
    (d : Nat → Nat) (hd : ∀ j < ps.length, d j < secSize ps j) (hv : digVal ps d = n) (hs : g'.s = (ps.length : Int) - 1)
    (hI : Inv ps (fun j => d j + 1) ps.length g') (hi : g'.i = g.i) (htt : g'.total = g.total)
    (hl : nextLoop (2 * ps.length + 1) g = some g') :
    ∃ x g'', g.next = some (x, g'') ∧ (lexList (ps.map sectorWords))[n]? = some x ∧ After ps (n + 1) g'' := by
  have hlex := lexList_digits ps h hdis d hd
  rw [hv] at hlex
  have hlast : g'.part.getLast? = some (digSum ps d) := by
    rw [List.getLast?_eq_getElem?, hI.plen, hI.part (ps.length - 1) (by omega), show ps.length - 1 + 1 = ps.length by omega, digSum_eq]
    simp only [Nat.add_sub_cancel]
    rw [← digSum_eq, Nat.mod_eq_of_lt (hW _ (List.mem_of_getElem? hlex))]
  refine ⟨digSum ps d, { g' with i := add64 g'.i 1 }, ?_, hlex, ?_⟩
  · unfold next
    rw [if_neg (by rw [hglen]; omega), hglen, hl]
    simp only [hlast]
  · refine ⟨htt.trans ht, ?_, ?_⟩
    · show add64 g'.i 1 = n + 1
      rw [hi, hi0]; exact Nat.mod_eq_of_lt hn64
    · rw [if_neg (by omega)]
      exact Or.inr ⟨d, hd, by simpa using hv, hs, hpos, ⟨hI.params, hI.len, hI.plen, hI.gens, hI.le, hI.part⟩⟩

theorem next_after (h : ∀ p ∈ ps, p.Good) (hdis : DisjointMasks ps) (hW : ∀ s ∈ lexList (ps.map sectorWords), s < W64) (n : Nat)
    (hn : n < multiSizeOf ps) (hn64 : n + 1 < W64) (g : MultiGen) (hg : After ps n g) :
    ∃ x g', g.next = some (x, g') ∧ (lexList (ps.map sectorWords))[n]? = some x ∧ After ps (n + 1) g' := by
  obtain ⟨ht, hi, hst⟩ := hg
  by_cases hK : ps = []
  · subst hK
    have hn0 : n = 0 := by simpa [multiSizeOf] using hn
    subst hn0
    rw [if_pos rfl] at hst
    have hlen := hst.2.len
    refine ⟨0, { g with s := -1, i := add64 g.i 1 }, ?_, rfl, ht, ?_, ?_⟩
    · unfold next; rw [if_pos (by simpa using hlen)]
    · show add64 g.i 1 = 1
      rw [hi]; rfl
    · exact Or.inl ⟨rfl, rfl, hlen⟩
  have hpos : 0 < ps.length := List.length_pos_of_ne_nil hK
  by_cases h0 : n = 0
  · subst h0
    rw [if_pos rfl] at hst
    obtain ⟨hs, hI⟩ := hst
    obtain ⟨g', e1, e2, e3, e4, e5⟩ := push h (ps.length - 1) 0 (fun _ => 0) g (ps.length + 1) hI (by simpa using hs) (by omega)
      (fun j _ hj => by
        simp only [secSize, List.getElem?_eq_getElem hj, Option.map_some, Option.getD_some]
        exact Nat.choose_pos (h _ (List.getElem_mem hj)).valid.2)
    have e3' : Inv ps (fun j => (fun _ => 0) j + 1) ps.length g' := by
      refine ⟨e3.params, e3.len, e3.plen, fun j p hj => ?_, e3.le, fun j hj => ?_⟩
      · obtain ⟨ge, a, b⟩ := e3.gens j p hj
        rw [if_pos ⟨by omega, (List.getElem?_eq_some_iff.1 hj).1⟩] at b
        exact ⟨ge, a, b⟩
      · rw [e3.part j hj]
        congr 2
        refine Finset.sum_congr rfl fun i hir => ?_
        rw [Finset.mem_range] at hir
        simp only
        rw [if_pos (by omega)]
    exact finish h hdis hW 0 hn64 g g' hi ht hpos hI.len (fun _ => 0) (fun j hj => by
        simp only [secSize, List.getElem?_eq_getElem hj, Option.map_some, Option.getD_some]
        exact Nat.choose_pos (h _ (List.getElem_mem hj)).valid.2) (digVal_zero ps _ fun _ _ => rfl) e2 e3' e4 e5 (by
        rw [← e1]; congr 1; omega)
  · rw [if_neg h0] at hst
    rcases hst with ⟨hc, _⟩ | ⟨d, hd, hv, hs, _, hI⟩
    · exact absurd hc hK
    -- the last sector that can be advanced
    have hex : ∃ j < ps.length, d j + 1 < secSize ps j := by
      by_contra hc
      push Not at hc
      have := digVal_max ps d fun j hj => by
        have h1 := hc j hj
        have h2 := hd j hj
        omega
      omega
    obtain ⟨j0, hj0, hj1, hj2⟩ : ∃ j0 < ps.length, d j0 + 1 < secSize ps j0 ∧ ∀ j, j0 < j → j < ps.length → d j + 1 = secSize ps j := by
      classical
      obtain ⟨j, hj, hjd⟩ := hex
      let S := (Finset.range ps.length).filter fun j => d j + 1 < secSize ps j
      have hS : S.Nonempty := ⟨j, Finset.mem_filter.2 ⟨Finset.mem_range.2 hj, hjd⟩⟩
      have hm := S.max'_mem hS
      obtain ⟨m1, m2⟩ := Finset.mem_filter.1 hm
      refine ⟨S.max' hS, Finset.mem_range.1 m1, m2, fun j hj hjl => ?_⟩
      by_contra hc
      have := S.le_max' j (Finset.mem_filter.2 ⟨Finset.mem_range.2 hjl, by have := hd j hjl; omega⟩)
      omega
    obtain ⟨m, hm⟩ : ∃ m, j0 + m + 1 = ps.length := ⟨ps.length - 1 - j0, by omega⟩
    have hI' : Inv ps (fun j => d j + 1) (j0 + m) g := ⟨hI.params, hI.len, hI.plen, hI.gens, by omega, fun j hj => hI.part j (by omega)⟩
    obtain ⟨g1, p1, p2, p3, p4, p5⟩ := pops h m j0 _ g (2 * j0 + 2 + m + 1) hI' (by rw [hs]; push_cast; omega) (by omega)
      (fun j hj hj' => hj2 j hj (by omega))
    obtain ⟨g', e1, e2, e3, e4, e5⟩ := push h m j0 _ g1 (2 * j0 + 2) p3 p2 (by omega) (fun j hj hjl => by
      by_cases hc : j0 < j ∧ j ≤ j0 + m
      · rw [if_pos hc]
        simp only [secSize, List.getElem?_eq_getElem hjl, Option.map_some, Option.getD_some]
        exact Nat.choose_pos (h _ (List.getElem_mem hjl)).valid.2
      · have : j = j0 := by omega
        subst this
        rw [if_neg hc]; exact hj1)
    let d' : Nat → Nat := fun j => if j0 < j then 0 else if j = j0 then d j + 1 else d j
    have hd' : ∀ j < ps.length, d' j < secSize ps j := by
      intro j hj
      show (if j0 < j then 0 else if j = j0 then d j + 1 else d j) < _
      split
      · simp only [secSize, List.getElem?_eq_getElem hj, Option.map_some, Option.getD_some]
        exact Nat.choose_pos (h _ (List.getElem_mem hj)).valid.2
      · split
        · next hc => subst hc; exact hj1
        · exact hd j hj
    have hk' : ∀ j < ps.length, (if j0 ≤ j ∧ j < ps.length then (if j0 < j ∧ j ≤ j0 + m then 0 else d j + 1) + 1 else
        (if j0 < j ∧ j ≤ j0 + m then 0 else d j + 1)) = d' j + 1 := by
      intro j hj
      show _ = (if j0 < j then 0 else if j = j0 then d j + 1 else d j) + 1
      by_cases h1 : j0 < j
      · rw [if_pos ⟨h1.le, hj⟩, if_pos ⟨h1, by omega⟩, if_pos h1]
      · by_cases h2 : j = j0
        · rw [if_pos ⟨by omega, hj⟩, if_neg (by omega), if_neg h1, if_pos h2]
        · rw [if_neg (by omega), if_neg (by omega), if_neg h1, if_neg h2]
    have e3' : Inv ps (fun j => d' j + 1) ps.length g' := by
      refine ⟨e3.params, e3.len, e3.plen, fun j p hj => ?_, e3.le, fun j hj => ?_⟩
      · obtain ⟨ge, a, b⟩ := e3.gens j p hj
        rw [hk' j (List.getElem?_eq_some_iff.1 hj).1] at b
        exact ⟨ge, a, b⟩
      · rw [e3.part j hj]
        congr 2
        refine Finset.sum_congr rfl fun i hir => ?_
        rw [Finset.mem_range] at hir
        rw [hk' i (by omega)]
    have hv' : digVal ps d' = n := by
      rw [digVal_succ ps d d' j0 hj0 (by show (if j0 < j0 then 0 else if j0 = j0 then d j0 + 1 else d j0) = _; simp)
        (fun j hj => by show (if j0 < j then 0 else if j = j0 then d j + 1 else d j) = _; rw [if_neg (by omega), if_neg (by omega)])
        (fun j hj hjj => ⟨hj2 j hjj hj, by show (if j0 < j then 0 else _) = _; rw [if_pos hjj]⟩), hv]
      omega
    refine finish h hdis hW n hn64 g g' hi ht hpos hI.len d' hd' hv' e2 e3' (e4.trans p4) (e5.trans p5) ?_
    rw [← e1, ← p1]
    congr 1
    omega

/-- **Key fact**: draining the generator yields the lexicographic list. -/
theorem drain_after (h : ∀ p ∈ ps, p.Good) (hdis : DisjointMasks ps) (hW : ∀ s ∈ lexList (ps.map sectorWords), s < W64)
    (hsz : multiSizeOf ps < W64) (r : Nat) : ∀ (n : Nat) (g : MultiGen) (fuel : Nat), After ps n g → n + r = multiSizeOf ps → r ≤ fuel →
      drain fuel g = some ((lexList (ps.map sectorWords)).drop n) := by
  have hlen := (lex_enum ps h hdis).1
  induction r with
  | zero =>
    intro n g fuel hg hn _
    have hd : g.done = true := by rw [done, hg.2.1, hg.1]; simp; omega
    rw [drain.eq_def]
    simp only [hd, if_true]
    rw [List.drop_eq_nil_of_le (by omega)]
  | succ r ih =>
    intro n g fuel hg hn hf
    have hd : g.done = false := by rw [done, hg.2.1, hg.1]; simp; omega
    obtain ⟨x, g', e1, e2, e3⟩ := next_after h hdis hW n (by omega) (by omega) g hg
    rw [drain.eq_def]
    obtain ⟨f, rfl⟩ : ∃ f, fuel = f + 1 := ⟨fuel - 1, by omega⟩
    simp only [hd, Bool.false_eq_true, if_false, e1, ih (n + 1) g' f e3 (by omega) (by omega), Option.map_some]
    obtain ⟨hl, hx⟩ := List.getElem?_eq_some_iff.1 e2
    rw [List.drop_eq_getElem_cons hl, hx]

theorem total_eq (ps : List SectorParams) (h : ∀ p ∈ ps, p.Good) (acc : Nat) (hp : acc * multiSizeOf ps < 2 ^ 31) :
    (ps.map UnrankGen.make).foldl (fun n g => SparseForeach.viaInt (mul64 n g.size)) acc = acc * multiSizeOf ps := by
  induction ps generalizing acc with
  | nil => simp [multiSizeOf]
  | cons p ps ih =>
    have hps : ∀ q ∈ ps, q.Good := fun q hq => h q (List.mem_cons_of_mem _ hq)
    have hpos := multiSizeOf_pos ps hps
    rw [multiSizeOf_cons, ← Nat.mul_assoc] at hp ⊢
    have hg := h p List.mem_cons_self
    have hsz : (UnrankGen.make p).size = Nat.choose p.M p.N := by
      rw [UnrankGen.size, (UnrankGen.make_at p hg.valid (Good.binom hg)).total, choose_counted p hg.valid]
    have hlt : acc * Nat.choose p.M p.N < 2 ^ 31 := (Nat.le_mul_of_pos_right _ hpos).trans_lt hp
    rw [List.map_cons, List.foldl_cons, hsz, mul64, Nat.mod_eq_of_lt (hlt.trans (by decide)), SparseForeach.viaInt_small hlt, ih hps _ hp]

theorem make_after (h : ∀ p ∈ ps, p.Good) (hp : multiSizeOf ps < 2 ^ 31) : After ps 0 (MultiGen.make ps).init := by
  refine ⟨?_, rfl, ?_⟩
  · show (ps.map UnrankGen.make).foldl _ 1 = _
    rw [total_eq ps h 1 (by omega)]; omega
  · rw [if_pos rfl]
    refine ⟨rfl, rfl, by simp [MultiGen.make, MultiGen.init], by simp [MultiGen.make, MultiGen.init], fun j p hj => ?_, by omega, by omega⟩
    have hg := h p (List.mem_of_getElem? hj)
    exact ⟨UnrankGen.make p, by simp [MultiGen.make, MultiGen.init, hj, init_make], UnrankGen.make_at p hg.valid (Good.binom hg)⟩

end MultiGen
end LC
