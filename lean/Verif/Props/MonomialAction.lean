import Verif.Proof.ActAll
import Verif.Props.HilbertSpace
/-
C33–C37: actions of monomials on basis states. The specification is the textbook action `monAct` (Spec/Fock.lean) on the
occupation numbers encoded in the index, compared by `ActsAs` (Spec/Action.lean).
-/
namespace LC
open HilbertSpace
variable {ι S : Type _} [LinearOrder ι] [CommRing S] [Algebra ℝ S] {hs : HilbertSpace ι}

/-- **C33** The action of a canonical fermionic monomial is the composition of the actions of its creation and
annihilation operators with their Jordan–Wigner signs: it vanishes in the same cases, and otherwise gives the same
occupation numbers and the same sign. (`bd` is irrelevant: there are no bosons.) -/
theorem C33_fermionic_action (hc : Constructed hs) (hpre : PredefinedSpaces hs) (m : List (Gen ι)) (hm : CanonicalFermions m)
    (a : FermionAction) (ha : FermionAction.make m hs = .ok a) (bd : ι → ℕ∞) (s : Nat) (hs' : ValidState hs s) (c : S) :
    ActsAs hs s c (monAct bd m (conf hs s)) (a.act s c) := fermion_act hc hpre hm ha hs' c

/-- **C33** The constructor of the action succeeds iff all modes belong to the Hilbert space; otherwise it throws
`unknown_generator`. -/
theorem C33_fermionic_action_exists (hc : Constructed hs) (hpre : PredefinedSpaces hs) (m : List (Gen ι))
    (hm : CanonicalFermions m) :
    (∃ a, FermionAction.make m hs = .ok a) ↔ ∀ g ∈ m, hs.has g.mode.space = true := by
  refine ⟨fun ⟨a, ha⟩ => ?_, fermionAction_make_ok hc hpre hm⟩
  unfold FermionAction.make at ha
  split at ha
  · next he =>
    have : m = [] := by simpa using he
    subst this; simp
  · split at ha
    · simp at ha
    · next b hb => exact fermionLoop_has _ _ _ hb

/-- **C34** The action of any product of bosonic operators is the composition of the truncated ladder operators
`a†|n⟩ = √(n+1)|n+1⟩` (zero for `n+1 = dim`) and `a|n⟩ = √n|n-1⟩`. -/
theorem C34_bosonic_action (hc : Constructed hs) (m : List (Gen ι)) (a : BosonAction) (ha : BosonAction.make m hs = .ok a)
    (s : Nat) (hs' : ValidState hs s) (c : S) : ActsAs hs s c (monAct (bosonDims hs) m (conf hs s)) (a.act s c) :=
  boson_act hc ha hs' c

/-- **C35** The action of any product of spin operators is the composition of `S_+`, `S_-`, `S_z`. -/
theorem C35_spin_action (hc : Constructed hs) (hpre : PredefinedSpaces hs) (m : List (Gen ι)) (a : SpinAction)
    (ha : SpinAction.make m hs = .ok a) (bd : ι → ℕ∞) (s : Nat) (hs' : ValidState hs s) (c : S) :
    ActsAs hs s c (monAct bd m (conf hs s)) (a.act s c) := spin_act hc hpre ha hs' c

/-- **C33–C35** Mixed monomials: the action is the composition of the actions of all generators. -/
theorem C33_C34_C35_mixed_action (hc : Constructed hs) (hpre : PredefinedSpaces hs) (m : List (Gen ι)) (hm : CanonicalMonomial m)
    (a : MonomialAction) (ha : MonomialAction.make m hs = .ok a) (s : Nat) (hs' : ValidState hs s) (c : S) :
    ActsAs hs s c (monAct (bosonDims hs) m (conf hs s)) (a.act s c) := monomial_act hc hpre hm ha hs' c

/-- **C36** If the action on a valid basis state returns true, the new index is a valid basis state; in particular it is
below `vec_size()`. -/
theorem C36_valid_target (hc : Constructed hs) (hpre : PredefinedSpaces hs) (m : List (Gen ι)) (hm : CanonicalMonomial m)
    (a : MonomialAction) (ha : MonomialAction.make m hs = .ok a) (s : Nat) (hs' : ValidState hs s) (c : S) (t : Nat) (c' : S)
    (h : a.act s c = .nonzero t c') : ValidState hs t ∧ t < hs.vecSize := by
  have hv : ValidState hs t := by
    have := monomial_act hc hpre hm ha hs' c
    unfold ActsAs at this
    rw [h] at this
    split at this
    · simp at this
    · obtain ⟨u, h1, h2, _⟩ := this
      injection h1 with h1 _
      rw [h1]; exact h2
  refine ⟨hv, ?_⟩
  have h63 := (C26_bit_ranges hs hc).2.2.1
  unfold vecSize
  rw [pow2_eq (by omega)]
  exact hv.1

/-- **C37** No action on a valid basis state reads a table of square roots out of bounds: mixed monomials, and arbitrary
products of bosonic or spin operators. -/
theorem C37_tables_in_bounds (hc : Constructed hs) (hpre : PredefinedSpaces hs) (m : List (Gen ι)) (s : Nat) (hs' : ValidState hs s)
    (c : S) :
    (∀ a, CanonicalMonomial m → MonomialAction.make m hs = .ok a → a.act s c ≠ .ub) ∧
    (∀ a, BosonAction.make m hs = .ok a → a.act s c ≠ .ub) ∧ (∀ a, SpinAction.make m hs = .ok a → a.act s c ≠ .ub) := by
  have key : ∀ (spec : Option (Config ι × ℝ)) (r : ActRes S), ActsAs hs s c spec r → r ≠ .ub := by
    intro spec r h e
    unfold ActsAs at h
    rw [e] at h
    split at h
    · simp at h
    · obtain ⟨t, h1, _⟩ := h
      simp at h1
  exact ⟨fun a hm ha => key _ _ (monomial_act hc hpre hm ha hs' c), fun a ha => key _ _ (boson_act hc ha hs' c),
    fun a ha => key _ _ (spin_act (bd := fun _ => 0) hc hpre ha hs' c)⟩

/-! ### The hypotheses are satisfiable -/

/-- Three fermions, a boson with four states, a spin-1, and a user-defined space. -/
def actSpaces : List (ESpace Nat) :=
  [ESpace.fermion 0, ESpace.fermion 1, ESpace.fermion 2, ESpace.boson 4 0, ESpace.spin 3 0, ⟨5, 0, 0, 3, 2⟩]

/-- `c†_0 c†_2 c_1 a†_0 a_0 a_0 S_+ S_z` -/
def actMonomial : List (Gen Nat) :=
  [.fermion true 0, .fermion true 2, .fermion false 1, .boson true 0, .boson false 0, .boson false 0, .spin 3 .plus 0, .spin 3 .z 0]

theorem act_hypotheses : ∃ hs : HilbertSpace Nat, HilbertSpace.ofArgs actSpaces = .ok hs ∧ Constructed hs ∧ PredefinedSpaces hs ∧
    CanonicalMonomial actMonomial ∧ (∃ a, MonomialAction.make actMonomial hs = .ok a) ∧ ValidState hs 0b10001010 := by
  obtain ⟨hs, hof⟩ : ∃ hs, HilbertSpace.ofArgs actSpaces = .ok hs := ⟨_, rfl⟩
  have hc : Constructed hs := by
    refine Constructed.ofArgs ?_ hof
    intro es hes
    simp only [actSpaces, List.mem_cons, List.not_mem_nil, or_false] at hes
    rcases hes with rfl | rfl | rfl | rfl | rfl | rfl
    · exact wf_fermion _
    · exact wf_fermion _
    · exact wf_fermion _
    · exact wf_boson _ (by decide) _
    · exact wf_spin _ (by decide) _
    · exact ⟨by decide, by decide +kernel⟩
  have hel : hs.elementarySpaces = actSpaces := by
    have : (HilbertSpace.ofArgs actSpaces).toOption.map HilbertSpace.elementarySpaces = some actSpaces := by decide +kernel
    rw [hof] at this
    simpa [Except.toOption] using this
  have hpre : PredefinedSpaces hs := by
    intro es hes
    rw [hel] at hes
    simp only [actSpaces, List.mem_cons, List.not_mem_nil, or_false] at hes
    rcases hes with rfl | rfl | rfl | rfl | rfl | rfl
    · exact ⟨fun _ => ⟨_, rfl⟩, by simp [ESpace.fermion], by simp [ESpace.fermion]⟩
    · exact ⟨fun _ => ⟨_, rfl⟩, by simp [ESpace.fermion], by simp [ESpace.fermion]⟩
    · exact ⟨fun _ => ⟨_, rfl⟩, by simp [ESpace.fermion], by simp [ESpace.fermion]⟩
    · exact ⟨by simp [ESpace.boson], fun _ => ⟨_, _, rfl⟩, by simp [ESpace.boson]⟩
    · exact ⟨by simp [ESpace.spin], by simp [ESpace.spin], fun _ => ⟨_, _, by norm_num, rfl⟩⟩
    · exact ⟨by simp, by simp, by simp⟩
  have hm : CanonicalMonomial actMonomial :=
    ⟨[.fermion true 0, .fermion true 2, .fermion false 1], [.boson true 0, .boson false 0, .boson false 0],
      [.spin 3 .plus 0, .spin 3 .z 0], rfl, ⟨[0, 2], [1], rfl, by decide, by decide⟩, by decide, by decide⟩
  have hhas : ∀ g ∈ actMonomial, hs.has g.mode.space = true := by
    have : ∀ g ∈ actMonomial, ((HilbertSpace.ofArgs actSpaces).toOption.map fun hs => hs.has g.mode.space) = some true := by
      decide +kernel
    intro g hg
    have := this g hg
    rw [hof] at this
    simpa [Except.toOption] using this
  refine ⟨hs, hof, hc, hpre, hm, monomialAction_make_ok hc hpre hm hhas, ?_⟩
  have : ((HilbertSpace.ofArgs actSpaces).toOption.map fun hs => decide (ValidState hs 0b10001010)) = some true := by
    decide +kernel
  rw [hof] at this
  simpa [Except.toOption] using this

/-- The textbook action is not trivial: `c†_0 c_1 |011⟩` with modes 0 empty and 1, 2 occupied. -/
example : monAct (fun _ => ⊤) [.fermion true 0, .fermion false 1]
    (fun k => if k = Mode.fermion (1 : Nat) ∨ k = .fermion 2 then 1 else 0) ≠ none := by
  have h1 : (if Mode.fermion 1 = Mode.fermion (1 : Nat) ∨ Mode.fermion (1 : Nat) = .fermion 2 then 1 else 0) = 1 := rfl
  simp [monAct, genAct]

end LC
