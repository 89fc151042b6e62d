import Verif.Spec.Action
import Verif.Proof.Order
import Verif.Proof.FockBasic
import Verif.Proof.Fields
/-
Common lemmas for the proofs about monomial actions.
-/
set_option linter.unusedSectionVars false
set_option linter.unusedSimpArgs false
namespace LC
open HilbertSpace
variable {ι S : Type _} [LinearOrder ι] [CommRing S] [Algebra ℝ S] {hs : HilbertSpace ι} {bd : ι → ℕ∞}

theorem ActsAs.nil {s : Nat} {c : S} (hv : ValidState hs s) : ActsAs hs s c (monAct bd [] (conf hs s)) (.nonzero s c) :=
  ⟨s, by simp, hv, rfl, fun _ _ => rfl⟩

/-- Composition: the right factor acts first. -/
theorem ActsAs.comp {m₁ m₂ : List (Gen ι)} {s : Nat} {c : S} {r : ActRes S} {f : Nat → S → ActRes S}
    (h₂ : ActsAs hs s c (monAct bd m₂ (conf hs s)) r)
    (h₁ : ∀ t c', ValidState hs t → ActsAs hs t c' (monAct bd m₁ (conf hs t)) (f t c')) :
    ActsAs hs s c (monAct bd (m₁ ++ m₂) (conf hs s)) (r.andThen f) := by
  rw [monAct_append]
  cases e : monAct bd m₂ (conf hs s) with
  | none =>
    rw [e] at h₂
    simp only [ActsAs] at h₂
    subst h₂
    rfl
  | some p =>
    obtain ⟨n, x⟩ := p
    rw [e] at h₂
    obtain ⟨t, rfl, hv, hn, hf⟩ := h₂
    have h := h₁ t (c * algebraMap ℝ S x) hv
    rw [hn] at h
    simp only [Option.bind_some, ActRes.andThen]
    cases e' : monAct bd m₁ n with
    | none => rw [e'] at h; exact h
    | some q =>
      rw [e'] at h
      obtain ⟨t', ht', hv', hn', hf'⟩ := h
      exact ⟨t', by rw [ht', map_mul]; congr 1; ring, hv', hn', fun es hes => (hf' es hes).trans (hf es hes)⟩

/-- An index with the contents of one field replaced. -/
theorem ActsAs.set (hc : Constructed hs) {k : Mode ι} {f nb d s y : Nat} (h : Loc hs k.space f nb d) (hv : ValidState hs s)
    (hy : y < d) (c : S) (x : ℝ) :
    ActsAs hs s c (some (Function.update (conf hs s) k y, x)) (.nonzero (setField f nb y s) (c * algebraMap ℝ S x)) := by
  obtain ⟨h1, h2⟩ := setField_valid hc h hv hy
  refine ⟨_, rfl, h1, ?_, fun es hes => ?_⟩
  · funext k'
    unfold conf
    rw [h2]
    by_cases hk : k' = k
    · subst hk; simp
    · rw [Function.update_of_ne hk, if_neg fun e => hk (Mode.space_inj e)]
  · rw [h2, if_neg]
    intro e
    rw [ESpace.key_eq_iff] at e
    obtain ⟨e1, _, _⟩ := e
    unfold ESpace.Foreign at hes
    cases k <;> simp_all [Mode.space, ESpace.fermion, ESpace.boson, ESpace.spin]

/-- Reading the table of square roots inside its bounds. -/
theorem mulRoots_eq (size : Nat) (l : List Nat) (c : S) (h : ∀ n ∈ l, n < size) :
    mulRoots (makeSqrRoots size) l c = some (c * algebraMap ℝ S ((l.map fun n : Nat => Real.sqrt (n : ℝ)).prod)) := by
  induction l generalizing c with
  | nil => simp [mulRoots]
  | cons n l ih =>
    have hn : sqrRoot (makeSqrRoots size) n = some (Real.sqrt n) := by
      unfold sqrRoot makeSqrRoots
      split
      · next h1 =>
        rw [List.getElem?_map, List.getElem?_range]
        · rfl
        · have := h n (by simp)
          omega
      · rfl
    rw [mulRoots, hn]
    simp only
    rw [ih _ (fun x hx => h x (by simp [hx])), List.map_cons, List.prod_cons, map_mul, mul_assoc]

theorem conf_loc {k : Mode ι} {f nb d : Nat} (h : Loc hs k.space f nb d) (s : Nat) : conf hs s k = field f nb s := occ_loc h s

theorem loc_bosonDims {i : ι} {f nb d : Nat} (h : Loc hs (Mode.boson i).space f nb d) : bosonDims hs i = d := by
  unfold bosonDims
  have := h.dimOf
  simp only [Mode.space] at this
  rw [this]

end LC
