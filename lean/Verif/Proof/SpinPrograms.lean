import Verif.Model.SpinPrograms
import Verif.Props.Relations
import Verif.Props.FillMatrix
/-
The terms of the Hamiltonian of a ring of spins.
-/
set_option linter.unusedSectionVars false
set_option linter.unusedSimpArgs false
namespace LC
namespace SpinRing
open Expr Factory HilbertSpace Terms
variable {ι S : Type _} [LinearOrder ι] [CommRing S] [DecidableEq S] [ConstScalar S] [ScalarLaws S] [IsDomain S] [CharZero S] [Star S]

section
variable {G : Type _} [GenOps G] [LawfulGen G]

theorem sumAt_zero {l : List (List G × S)} {k : List G} (h : k ∉ l.map Prod.fst) : sumAt l k = 0 := by
  classical
  induction l with
  | nil => rfl
  | cons p l ih =>
    simp only [List.map_cons, List.mem_cons, not_or] at h
    rw [sumAt_cons, if_neg h.1, ih h.2, add_zero]

theorem sumAt_nodup {l : List (List G × S)} (hn : (l.map Prod.fst).Nodup) {k : List G} {v : S} (h : (k, v) ∈ l) : sumAt l k = v := by
  classical
  induction l with
  | nil => simp at h
  | cons p l ih =>
    rw [List.map_cons, List.nodup_cons] at hn
    rw [sumAt_cons]
    rcases List.mem_cons.1 h with rfl | h
    · rw [if_pos rfl, sumAt_zero hn.1, add_zero]
    · rw [if_neg, ih hn.2 h, zero_add]
      rintro rfl
      exact hn.1 (List.mem_map.2 ⟨_, h, rfl⟩)

/-- The terms of an expression from its coefficients. -/
theorem terms_of_coeff {e : Expr G S} (hw : e.WF) {l : List (List G × S)} (hc : ∀ k, e.coeff k = sumAt l k) (hn : (l.map Prod.fst).Nodup)
    (hz : ∀ p ∈ l, p.2 ≠ 0) (p : List G × S) : p ∈ e.terms ↔ p ∈ l := by
  obtain ⟨k, v⟩ := p
  have h0 : ∀ v, (k, v) ∈ e.terms → e.coeff k = v := by
    intro v h
    rw [Expr.coeff, Terms.coeff, find?_of_mem hw.1 h]; rfl
  constructor
  · intro h
    have h1 := h0 v h
    rw [hc] at h1
    by_cases hk : k ∈ l.map Prod.fst
    · obtain ⟨⟨k', v'⟩, hm, rfl⟩ := List.mem_map.1 hk
      rw [sumAt_nodup hn hm] at h1
      subst h1; exact hm
    · rw [sumAt_zero hk] at h1
      exact absurd h1.symm (hw.2 _ h)
  · intro h
    have h1 := hc k
    rw [sumAt_nodup hn h, Expr.coeff, Terms.coeff] at h1
    cases hf : Terms.find? k e.terms with
    | none => rw [hf] at h1; exact absurd h1.symm (hz _ h)
    | some w => rw [hf] at h1; simp at h1; subst h1; exact find?_mem hf
end

/-- `S_+` and `S_-` are exchanged by conjugation. -/
def opp : SpinComp → SpinComp
  | .plus => .minus
  | .minus => .plus
  | .z => .z

/-- The coefficients of the three terms. -/
def weight (h : S) : SpinComp → S
  | .z => 1
  | _ => h

/-- The operators `c` and `opp c` at two sites in normal order. -/
def two (m : Nat) (c : SpinComp) (i j : ι) : List (Gen ι) := [.spin m c (min i j), .spin m (opp c) (max i j)]

/-- The components. -/
def comps : List SpinComp := [.z, .plus, .minus]

theorem two_comm (m : Nat) (c : SpinComp) (i j : ι) : two m c i j = two m c j i := by rw [two, two, min_comm, max_comm]

open Classical in
theorem coeff_ordered (m : Nat) (c d : SpinComp) {i j : ι} (h : i < j) (k : List (Gen ι)) :
    (spin m c i * spin m d j : Expr (Gen ι) S).coeff k = if k = [.spin m c i, .spin m d j] then 1 else 0 := by
  have hg : GenOps.gt (Gen.spin m c i) (Gen.spin m d j) = false := by simp [GenOps.gt, Gen.gtOp, Gen.algebraId, Gen.greater, h.ne, h.le]
  have hs : GenOps.simplifyProd (Gen.spin m c i) (Gen.spin m d j) = none := by simp [GenOps.simplifyProd, Gen.simplifyProd, h.ne]
  rw [spin, spin, coeff_mul_single, emits_ok hg hs _ one_ne_zero]
  simp

open Classical in
theorem coeff_two (m : Nat) (c : SpinComp) {i j : ι} (h : i ≠ j) (k : List (Gen ι)) :
    (spin m c i * spin m (opp c) j : Expr (Gen ι) S).coeff k = if k = two m (if i < j then c else opp c) i j then 1 else 0 := by
  rcases lt_or_gt_of_ne h with h' | h'
  · rw [coeff_ordered m c (opp c) h', two, if_pos h', min_eq_left h'.le, max_eq_right h'.le]
  · have := (eqOp_iff _ _).1 (C15_spin_sites_commute (S := S) m m c (opp c) i j h)
    rw [this, coeff_ordered m _ _ h', two, if_neg (not_lt.2 h'.le), min_eq_right h'.le, max_eq_left h'.le]
    have : opp (opp c) = c := by cases c <;> rfl
    rw [this]

theorem wf_spin2 (m : Nat) (c d : SpinComp) (i j : ι) : (spin m c i * spin m d j : Expr (Gen ι) S).WF := wf2 _ _

theorem wf_bond (m : Nat) (h : S) (i j : ι) : (bond m h i j).WF :=
  wf_add (wf_spin2 _ _ _ _ _) (wf_smulPrefix _ (wf_add (wf_spin2 _ _ _ _ _) (wf_spin2 _ _ _ _ _)))

theorem coeff_bond (m : Nat) (h : S) {i j : ι} (hij : i ≠ j) (k : List (Gen ι)) :
    (bond m h i j).coeff k = sumAt (comps.map fun c => (two m c i j, weight h c)) k := by
  classical
  have hz := coeff_two (S := S) m .z hij k
  have hp := coeff_two (S := S) m .plus hij k
  have hm := coeff_two (S := S) m .minus hij k
  simp only [opp] at hz hp hm
  have e1 : (bond m h i j).coeff k = (spin m .z i * spin m .z j : Expr (Gen ι) S).coeff k +
      (smulPrefix h (spin m .plus i * spin m .minus j + spin m .minus i * spin m .plus j) : Expr (Gen ι) S).coeff k :=
    coeff_add (wf_spin2 _ _ _ _ _) (wf_smulPrefix _ (wf_add (wf_spin2 _ _ _ _ _) (wf_spin2 _ _ _ _ _))) k
  rw [e1, coeff_smulPrefix, coeff_add (wf_spin2 _ _ _ _ _) (wf_spin2 _ _ _ _ _), hz, hp, hm]
  simp only [comps, List.map_cons, List.map_nil, sumAt_cons, sumAt_nil, weight, ite_self, add_zero]
  split_ifs <;> simp <;> ring

variable {site : Nat → ι} {N : Nat}

theorem ham_fold (m : Nat) (h : S) (l : List Nat) (hl : ∀ i ∈ l, site i ≠ site ((i + 1) % N)) (e : Expr (Gen ι) S) (he : e.WF) :
    (l.foldl (fun H i => let j := (i + 1) % N; H + bond m h (site i) (site j)) e).WF ∧
    ∀ k, (l.foldl (fun H i => let j := (i + 1) % N; H + bond m h (site i) (site j)) e).coeff k =
      e.coeff k + sumAt ((l ×ˢ comps).map fun q => (two m q.2 (site q.1) (site ((q.1 + 1) % N)), weight h q.2)) k := by
  induction l generalizing e with
  | nil => exact ⟨he, fun k => by simp⟩
  | cons i l ih =>
    obtain ⟨h1, h2⟩ := ih (fun j hj => hl j (by simp [hj])) _ (wf_add he (wf_bond m h (site i) (site ((i + 1) % N))))
    refine ⟨h1, fun k => ?_⟩
    rw [List.foldl_cons, h2, coeff_add he (wf_bond _ _ _ _), coeff_bond m h (hl i (by simp)), List.product_cons, List.map_append, sumAt_append, add_assoc,
      List.map_map]
    rfl

/-- Different sites have different indices. -/
def Distinct (site : Nat → ι) (N : Nat) : Prop := ∀ i < N, ∀ j < N, site i = site j → i = j

theorem next_ne (hN : 2 ≤ N) {i : Nat} (hi : i < N) : i ≠ (i + 1) % N ∧ (i + 1) % N < N := by
  refine ⟨?_, Nat.mod_lt _ (by omega)⟩
  by_cases h : i + 1 = N
  · rw [h, Nat.mod_self]; omega
  · rw [Nat.mod_eq_of_lt (by omega)]; omega

theorem site_ne (hd : Distinct site N) (hN : 2 ≤ N) {i : Nat} (hi : i < N) : site i ≠ site ((i + 1) % N) :=
  fun h => (next_ne hN hi).1 (hd _ hi _ (next_ne hN hi).2 h)

theorem two_inj {m : Nat} {c d : SpinComp} {i j i' j' : ι} (h : two m c i j = two m d i' j') : c = d ∧ ((i = i' ∧ j = j') ∨ (i = j' ∧ j = i')) := by
  simp only [two, List.cons.injEq, Gen.spin.injEq, true_and, and_true] at h
  obtain ⟨⟨h1, h2⟩, -, h3⟩ := h
  refine ⟨h1, ?_⟩
  rcases le_total i j with a | a <;> rcases le_total i' j' with b | b <;> simp only [a, b, min_eq_left, min_eq_right, max_eq_left, max_eq_right] at h2 h3 <;> simp_all

theorem next_inj (hN : 3 ≤ N) {i i' : Nat} (hi : i < N) (hi' : i' < N) (h : (i = i' ∧ (i + 1) % N = (i' + 1) % N) ∨ (i = (i' + 1) % N ∧ (i + 1) % N = i')) : i = i' := by
  rcases h with ⟨h, -⟩ | ⟨h1, h2⟩
  · exact h
  · have key : ∀ a < N, (a + 1) % N = if a + 1 = N then 0 else a + 1 := by
      intro a ha
      split_ifs with h
      · rw [h, Nat.mod_self]
      · exact Nat.mod_eq_of_lt (by omega)
    rw [key _ hi'] at h1
    rw [key _ hi] at h2
    split_ifs at h1 h2 <;> omega

/-- Two sites have two bonds between them. -/
def factor (N : Nat) : Nat := if N = 2 then 2 else 1

/-- The terms. -/
def ringTerms (site : Nat → ι) (m N : Nat) (h : S) : List (List (Gen ι) × S) :=
  (List.range (if N = 2 then 1 else N) ×ˢ comps).map fun q => (two m q.2 (site q.1) (site ((q.1 + 1) % N)), (factor N : S) * weight h q.2)

theorem comps_nodup : comps.Nodup := by decide
theorem mem_comps (c : SpinComp) : c ∈ comps := by cases c <;> decide

theorem ring_nodup (hd : Distinct site N) (hN : 2 ≤ N) (m : Nat) (h : S) : ((ringTerms site m N h).map Prod.fst).Nodup := by
  rw [ringTerms, List.map_map]
  refine List.Nodup.map_on ?_ (List.nodup_range.product comps_nodup)
  rintro ⟨i, c⟩ h1 ⟨i', d⟩ h2 e
  rw [List.mem_product, List.mem_range] at h1 h2
  simp only [Function.comp] at e
  obtain ⟨ec, ee⟩ := two_inj e
  subst ec
  by_cases h' : N = 2
  · rw [if_pos h'] at h1 h2
    obtain rfl : i = i' := by omega
    rfl
  · rw [if_neg h'] at h1 h2
    have a := (next_ne hN h1.1).2
    have b := (next_ne hN h2.1).2
    have : i = i' := next_inj (by omega) h1.1 h2.1 (by
      rcases ee with ⟨e1, e2⟩ | ⟨e1, e2⟩
      · exact .inl ⟨hd _ h1.1 _ h2.1 e1, hd _ a _ b e2⟩
      · exact .inr ⟨hd _ h1.1 _ b e1, hd _ a _ h2.1 e2⟩)
    rw [this]

theorem ham_wf (hd : Distinct site N) (hN : 2 ≤ N) (m : Nat) (h : S) : (ham site m N h).WF ∧ ∀ k, (ham site m N h).coeff k = sumAt (ringTerms site m N h) k := by
  obtain ⟨h1, h2⟩ := ham_fold (site := site) (N := N) m h (List.range N) (fun i hi => site_ne hd hN (List.mem_range.1 hi)) 0 wf_zero
  refine ⟨h1, fun k => ?_⟩
  rw [ham, h2, coeff_zero, zero_add]
  by_cases h' : N = 2
  · subst h'
    classical
    simp only [ringTerms, if_pos, factor, show List.range 2 = [0, 1] from rfl, show List.range 1 = [0] from rfl, comps, List.product_cons, List.product_nil,
      List.map_cons, List.map_nil, List.cons_append, List.nil_append, List.append_nil, sumAt_cons, sumAt_nil, Nat.cast_ofNat,
      show (0 + 1) % 2 = 1 from rfl, show (1 + 1) % 2 = 0 from rfl, two_comm m _ (site 1) (site 0)]
    split_ifs <;> simp <;> ring
  · simp [ringTerms, if_neg h', factor]

end SpinRing
end LC
