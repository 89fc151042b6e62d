import Verif.Proof.ActAll
import Verif.Spec.LOperator
import Verif.Spec.StateVector
import Verif.Model.LOperator
/-
Linear operators and matrix elements.
-/
set_option linter.unusedSectionVars false
set_option linter.unusedSimpArgs false
namespace LC
open HilbertSpace
variable {ι S T V W : Type _} [LinearOrder ι] {hs : HilbertSpace ι}

/-! ### Basis states are determined by their bit fields -/

theorem fields_ext (l : List (ESpace ι)) (b s t : Nat) (h0 : s % 2 ^ b = t % 2 ^ b)
    (h : ∀ p ∈ layout b l, field p.2.first.toNat p.1.nBits s = field p.2.first.toNat p.1.nBits t) :
    s % 2 ^ (b + bitSum l) = t % 2 ^ (b + bitSum l) := by
  induction l generalizing b with
  | nil => simpa using h0
  | cons es l ih =>
    rw [bitSum_cons, ← Nat.add_assoc]
    refine ih (b + es.nBits) ?_ (fun p hp => h p (by rw [layout]; exact List.mem_cons_of_mem _ hp))
    have := h (es, ⟨b, (b : Int) + es.nBits - 1⟩) (by rw [layout]; exact List.mem_cons_self)
    simp only [Int.toNat_natCast, field] at this
    rw [pow_add, Nat.mod_mul, Nat.mod_mul, h0, this]

theorem state_ext (hc : Constructed hs) {s t : Nat} (hs' : s < 2 ^ hs.totalNBits.toNat) (ht : t < 2 ^ hs.totalNBits.toNat)
    (h : ∀ es, occ hs s es = occ hs t es) : s = t := by
  have hloc : ∀ p ∈ hs.spaces, field p.2.first.toNat p.1.nBits s = field p.2.first.toNat p.1.nBits t := by
    intro p hp
    obtain ⟨f, h1, h2⟩ := loc_of_mem hc hp rfl
    have := h p.1
    rw [occ_loc h2, occ_loc h2] at this
    rw [h1]
    simpa using this
  obtain ⟨l, hf, rfl⟩ := hc.canon
  rw [canon_total, Int.toNat_natCast] at hs' ht
  have := fields_ext l 0 s t (by simp [Nat.mod_one]) (by rw [← canon_spaces]; exact hloc)
  rw [Nat.zero_add] at this
  rwa [Nat.mod_eq_of_lt hs', Nat.mod_eq_of_lt ht] at this

/-- Every elementary space is the space of a mode, or foreign; look-ups of bosonic spaces ignore the dimension. -/
theorem occ_of_conf (hpre : PredefinedSpaces hs) (hc : Constructed hs) {s t : Nat} (h : conf hs s = conf hs t)
    (hF : ∀ es : ESpace ι, es.Foreign → occ hs s es = occ hs t es) (es : ESpace ι) : occ hs s es = occ hs t es := by
  by_cases hh : hs.has es = true
  swap
  · simp only [Bool.not_eq_true] at hh
    rw [occ_not_has hh, occ_not_has hh]
  by_cases hfor : es.Foreign
  · exact hF es hfor
  obtain ⟨f, nb, d, hl⟩ := loc_of_has hc hh
  obtain ⟨e, he, hk, _, _⟩ := hl.mem
  have hmem : e ∈ hs.elementarySpaces := List.mem_map.2 ⟨_, he, rfl⟩
  obtain ⟨p1, p2, p3⟩ := hpre e hmem
  have hid : es.algebraId = e.algebraId := by
    rw [ESpace.key_eq_iff] at hk; exact hk.1.symm
  have key : ∀ k : Mode ι, k.space.key = es.key → occ hs s es = occ hs t es := by
    intro k hk'
    obtain ⟨f1, e1, l1⟩ := loc_of_mem hc he hk
    obtain ⟨f2, e2, l2⟩ := loc_of_mem hc he (hk.trans hk'.symm)
    have hff : f1 = f2 := by
      have := e1.symm.trans e2
      simp only [BitRange.mk.injEq] at this
      exact_mod_cast this.1
    subst hff
    have h1 : ∀ s, occ hs s es = occ hs s k.space := fun s => by rw [occ_loc l1, occ_loc l2]
    rw [h1, h1]
    exact congrFun h k
  unfold ESpace.Foreign at hfor
  rw [hid] at hfor
  by_cases h3 : e.algebraId = -3
  · obtain ⟨i, rfl⟩ := p1 h3
    exact key (.fermion i) hk
  by_cases h2 : e.algebraId = -2
  · obtain ⟨d, i, rfl⟩ := p2 h2
    refine key (.boson i) (Eq.trans ?_ hk)
    rw [ESpace.key_eq_iff]; exact ⟨rfl, rfl, rfl⟩
  by_cases h1 : e.algebraId = -1
  · obtain ⟨m, i, _, rfl⟩ := p3 h1
    exact key (.spin m i) hk
  exact absurd ⟨h3, h2, h1⟩ hfor

theorem encodes_unique (hc : Constructed hs) (hpre : PredefinedSpaces hs) {k s t : Nat} {n : Config ι}
    (hs' : ValidState hs s) (ht : ValidState hs t) (h1 : Encodes hs k n s) (h2 : Encodes hs k n t) : s = t :=
  state_ext hc hs'.1 ht.1 (occ_of_conf hpre hc (h1.1.trans h2.1.symm) fun es he => (h1.2 es he).trans (h2.2 es he).symm)

theorem mem_basisStates {k : Nat} : k ∈ basisStates hs ↔ ValidState hs k := by
  unfold basisStates
  rw [Finset.mem_filter, Finset.mem_range]
  exact ⟨fun h => h.2, fun h => ⟨h.1, h⟩⟩

end LC
