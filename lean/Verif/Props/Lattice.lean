import Verif.Proof.Lattice
/-
C113: the lattice models of examples/hubbard_holstein.cpp and examples/holstein.cpp, for lattices of every size.
-/
set_option linter.unusedSectionVars false
set_option linter.unusedSimpArgs false
namespace LC
namespace Lattice
open Expr Factory Reg
variable {ι S : Type _} [LinearOrder ι] [CommRing S] [DecidableEq S] [ConstScalar S] [ScalarLaws S] [IsDomain S] [CharZero S] [Star S]
  (el : Nat → Nat → Bool → ι) (ph : Nat → Nat → ι)

/-- Neighbours on a ring of `N` sites. -/
def Ring (N i j : Nat) : Prop := j = (i + 1) % N ∨ i = (j + 1) % N

/-- Neighbours on a chain. -/
def Chain (i j : Nat) : Prop := j = i + 1 ∨ i = j + 1

/-- The term `-t c†(i,s) c(j,s)` where `i` and `j` are neighbours on a lattice of `Nx × Ny` sites. -/
def HopTerm (nx ny : Nat → Nat → Prop) (Nx Ny : Nat) (t : S) (p : List (Gen ι) × S) : Prop :=
  ∃ s x y x' y', x < Nx ∧ y < Ny ∧ x' < Nx ∧ y' < Ny ∧ ((nx x x' ∧ y = y') ∨ (x = x' ∧ ny y y')) ∧
    p = ([.fermion true (el x y s), .fermion false (el x' y' s)], -t)

/-- The term `U n(i,up) n(i,down)`, in normal order. -/
def CoulombTerm (Nx Ny : Nat) (U : S) (p : List (Gen ι) × S) : Prop :=
  ∃ x y, x < Nx ∧ y < Ny ∧ ∃ s, el x y s < el x y !s ∧
    p = ([.fermion true (el x y s), .fermion true (el x y !s), .fermion false (el x y !s), .fermion false (el x y s)], U)

/-- The term `w a†(i) a(i)`. -/
def PhononTerm (Nx Ny : Nat) (w : S) (p : List (Gen ι) × S) : Prop :=
  ∃ x y, x < Nx ∧ y < Ny ∧ p = ([.boson true (ph x y), .boson false (ph x y)], w)

/-- The terms `g n(i,s) a†(i)` and `g n(i,s) a(i)`. -/
def CouplingTerm (Nx Ny : Nat) (g : S) (p : List (Gen ι) × S) : Prop :=
  ∃ s d x y, x < Nx ∧ y < Ny ∧ p = ([.fermion true (el x y s), .fermion false (el x y s), .boson d (ph x y)], g)

theorem neighbors_ring {N i j : Nat} (hi : i < N) (hj : j < N) : neighbors ((N : Int) - 1) i j = true ↔ Ring N i j := by
  simp only [neighbors, Bool.or_eq_true, beq_iff_eq, Ring]
  have h1 : (i + 1) % N = if i + 1 = N then 0 else i + 1 := by
    split
    · next h => rw [h, Nat.mod_self]
    · exact Nat.mod_eq_of_lt (by omega)
  have h2 : (j + 1) % N = if j + 1 = N then 0 else j + 1 := by
    split
    · next h => rw [h, Nat.mod_self]
    · exact Nat.mod_eq_of_lt (by omega)
  rw [h1, h2]
  split <;> split <;> omega

theorem neighbors_chain {N i j : Nat} (hi : i < N) (hj : j < N) : neighbors N i j = true ↔ Chain i j := by
  simp only [neighbors, Bool.or_eq_true, beq_iff_eq, Chain]
  omega

theorem mem_sites {Nx Ny x y : Nat} : (x, y) ∈ sites Nx Ny ↔ x < Nx ∧ y < Ny := by
  rw [sites, List.mem_product, List.mem_range, List.mem_range]

theorem mem_hop {nx ny : Nat → Nat → Prop} {Nx Ny : Nat} {wx wy : Int} (hx : ∀ {i j}, i < Nx → j < Nx → (neighbors wx i j = true ↔ nx i j))
    (hy : ∀ {i j}, i < Ny → j < Ny → (neighbors wy i j = true ↔ ny i j)) {t : S} {p : List (Gen ι) × S} :
    p ∈ hopTerms el Nx Ny wx wy t ↔ HopTerm el nx ny Nx Ny t p := by
  simp only [hopTerms, bonds, List.mem_map, List.mem_filter, HopTerm]
  constructor
  · rintro ⟨⟨s, ⟨x, y⟩, x', y'⟩, ⟨h1, h2⟩, rfl⟩
    simp only [List.mem_product, mem_sites] at h1
    refine ⟨s, x, y, x', y', h1.2.1.1, h1.2.1.2, h1.2.2.1, h1.2.2.2, ?_, rfl⟩
    simpa [adj, hx h1.2.1.1 h1.2.2.1, hy h1.2.1.2 h1.2.2.2] using h2
  · rintro ⟨s, x, y, x', y', h1, h2, h3, h4, h5, rfl⟩
    refine ⟨⟨s, ⟨x, y⟩, x', y'⟩, ⟨?_, ?_⟩, rfl⟩
    · simp only [List.mem_product, mem_sites]; exact ⟨by cases s <;> simp, ⟨h1, h2⟩, h3, h4⟩
    · simpa [adj, hx h1 h3, hy h2 h4] using h5

theorem mem_coulomb (hne : ∀ a b, el a b true ≠ el a b false) {Nx Ny : Nat} {U : S} {p : List (Gen ι) × S} :
    p ∈ coulombTerms el Nx Ny U ↔ CoulombTerm el Nx Ny U p := by
  simp only [coulombTerms, List.mem_map, CoulombTerm, Prod.exists, mem_sites]
  constructor
  · rintro ⟨x, y, h, rfl⟩
    refine ⟨x, y, h.1, h.2, ?_⟩
    rcases lt_or_gt_of_ne (hne x y) with h | h
    · exact ⟨true, h, by simp [pair, min_eq_left h.le, max_eq_right h.le]⟩
    · exact ⟨false, h, by simp [pair, min_eq_right h.le, max_eq_left h.le]⟩
  · rintro ⟨x, y, h1, h2, s, h, rfl⟩
    refine ⟨x, y, ⟨h1, h2⟩, ?_⟩
    cases s
    · simp only [Bool.not_false] at h ⊢
      simp [pair, min_eq_right h.le, max_eq_left h.le]
    · simp only [Bool.not_true] at h ⊢
      simp [pair, min_eq_left h.le, max_eq_right h.le]

theorem mem_phonon {Nx Ny : Nat} {w : S} {p : List (Gen ι) × S} : p ∈ phononTerms ph Nx Ny w ↔ PhononTerm ph Nx Ny w p := by
  simp only [phononTerms, List.mem_map, PhononTerm, Prod.exists, mem_sites, and_assoc, eq_comm]

theorem mem_coupling {Nx Ny : Nat} {g : S} {p : List (Gen ι) × S} : p ∈ couplingTerms el ph Nx Ny g ↔ CouplingTerm el ph Nx Ny g p := by
  simp only [couplingTerms, List.mem_map, CouplingTerm]
  constructor
  · rintro ⟨⟨s, ⟨x, y⟩, d⟩, h, rfl⟩
    simp only [List.mem_product, mem_sites] at h
    exact ⟨s, d, x, y, h.2.1.1, h.2.1.2, rfl⟩
  · rintro ⟨s, d, x, y, h1, h2, rfl⟩
    refine ⟨(s, (x, y), d), ?_, rfl⟩
    simp only [List.mem_product, mem_sites]
    exact ⟨by cases s <;> simp, ⟨h1, h2⟩, by cases d <;> simp⟩

variable {el ph} (hi : Inj el ph) (Nx Ny : Nat) {t U w g : S}
include hi

theorem Inj.ne (a b : Nat) : el a b true ≠ el a b false := fun h => by have := hi.el _ _ _ _ _ _ h; simp at this

/-- **C113** The terms of the Hubbard-Holstein Hamiltonian are exactly: hopping between neighbours of an `Nx × Ny` torus for both spins, the
repulsion, the phonons and the coupling of each site; each of them once, with its coefficient. -/
theorem C113_hubbard_holstein_terms (ht : t ≠ 0) (hU : U ≠ 0) (hg : g ≠ 0) (p : List (Gen ι) × S) :
    p ∈ (hubbardHolstein el ph Nx Ny t U g).terms ↔
      HopTerm el (Ring Nx) (Ring Ny) Nx Ny t p ∨ CoulombTerm el Nx Ny U p ∨ PhononTerm ph Nx Ny 1 p ∨ CouplingTerm el ph Nx Ny g p := by
  rw [(perm_of_value Nx Ny hi _ _ t U 1 g ⟨ht, one_ne_zero, hg⟩ (.inr ⟨rfl, hU⟩) (is_hubbard Nx Ny t U g hi.ne)).mem_iff]
  simp only [allTerms, List.mem_append, mem_hop el (fun a b => neighbors_ring a b) (fun a b => neighbors_ring a b), mem_coulomb el hi.ne, mem_phonon, mem_coupling, or_assoc]

/-- **C113** The terms of the Hamiltonian of examples/holstein.cpp: the same with **open** boundaries (finding F49: the program says that they
are periodic), without the repulsion. -/
theorem C113_holstein_terms_partial (N : Nat) (ht : t ≠ 0) (hw : w ≠ 0) (hg : g ≠ 0) (p : List (Gen ι) × S) :
    p ∈ (holstein el ph N t w g).terms ↔
      HopTerm el Chain Chain N N t p ∨ PhononTerm ph N N w p ∨ CouplingTerm el ph N N g p := by
  rw [(perm_of_value N N hi _ _ t 0 w g ⟨ht, hw, hg⟩ (.inl rfl) (is_holstein t w g N)).mem_iff]
  simp only [allTerms, List.mem_append, mem_hop el (fun a b => neighbors_chain a b) (fun a b => neighbors_chain a b), mem_phonon, mem_coupling, or_assoc, List.not_mem_nil, false_or]

/-- **F49** examples/holstein.cpp compares `|i - j|` with `N` instead of `N - 1`, which no two sites satisfy: an electron on the first site does not
hop to the last one, although the comments promise periodic boundary conditions. -/
theorem C113_F49_open_boundary (N : Nat) (hN : 3 ≤ N) (ht : t ≠ 0) (hw : w ≠ 0) (hg : g ≠ 0) (y : Nat) (s : Bool) :
    Ring N 0 (N - 1) ∧
    (holstein el ph N t w g).coeff [.fermion true (el 0 y s), .fermion false (el (N - 1) y s)] = 0 := by
  refine ⟨.inr (by rw [Nat.sub_add_cancel (by omega), Nat.mod_self]), ?_⟩
  rw [coeff, Terms.coeff]
  cases hf : (holstein el ph N t w g).terms.find? [.fermion true (el 0 y s), .fermion false (el (N - 1) y s)] with
  | none => rfl
  | some v =>
    have := (C113_holstein_terms_partial hi N ht hw hg _).1 (Terms.find?_mem hf)
    rcases this with ⟨s', x, y', x', y'', h1, h2, h3, h4, h5, h6⟩ | ⟨x, y', h1, h2, h6⟩ | ⟨s', d, x, y', h1, h2, h6⟩
    · simp only [Prod.mk.injEq, List.cons.injEq, Gen.fermion.injEq, true_and, and_true] at h6
      obtain ⟨rfl, rfl, rfl⟩ := hi.el _ _ _ _ _ _ h6.1.1
      obtain ⟨rfl, rfl, _⟩ := hi.el _ _ _ _ _ _ h6.1.2
      simp only [Chain] at h5
      omega
    · simp at h6
    · simp at h6

omit hi in
theorem length_filter_product {X Y : Type _} (l : List X) (m : List Y) (p : X × Y → Bool) (k : Nat)
    (h : ∀ a ∈ l, (m.filter fun b => p (a, b)).length = k) : ((l ×ˢ m).filter p).length = l.length * k := by
  induction l with
  | nil => simp
  | cons a l ih =>
    rw [List.product_cons, List.filter_append, List.length_append, ih fun b hb => h b (by simp [hb]), List.filter_map, List.length_map,
      List.length_cons, show (p ∘ fun b => (a, b)) = fun b => p (a, b) from rfl, h a (by simp)]
    ring

omit hi in
theorem four_neighbours {x y : Nat} (hx : 3 ≤ Nx) (hy : 3 ≤ Ny) (h1 : x < Nx) (h2 : y < Ny) :
    ((sites Nx Ny).filter fun q => adj ((Nx : Int) - 1) ((Ny : Int) - 1) x y q.1 q.2).length = 4 := by
  have hm : ∀ {N i j : Nat}, 3 ≤ N → i < N → j < N → (neighbors ((N : Int) - 1) i j = true ↔
      j = (if i + 1 = N then 0 else i + 1) ∨ j = (if i = 0 then N - 1 else i - 1)) := by
    intro N i j hN hi hj
    simp only [neighbors, Bool.or_eq_true, beq_iff_eq]
    split <;> split <;> omega
  set xr := (if x + 1 = Nx then 0 else x + 1) with hxr
  set xl := (if x = 0 then Nx - 1 else x - 1) with hxl
  set yr := (if y + 1 = Ny then 0 else y + 1) with hyr
  set yl := (if y = 0 then Ny - 1 else y - 1) with hyl
  have a1 : xr < Nx ∧ xr ≠ x := by rw [hxr]; split <;> omega
  have a2 : xl < Nx ∧ xl ≠ x := by rw [hxl]; split <;> omega
  have a3 : yr < Ny ∧ yr ≠ y := by rw [hyr]; split <;> omega
  have a4 : yl < Ny ∧ yl ≠ y := by rw [hyl]; split <;> omega
  have a5 : xr ≠ xl := by rw [hxr, hxl]; split <;> split <;> omega
  have a6 : yr ≠ yl := by rw [hyr, hyl]; split <;> split <;> omega
  have hp : ((sites Nx Ny).filter fun q => adj ((Nx : Int) - 1) ((Ny : Int) - 1) x y q.1 q.2).Perm [(xr, y), (xl, y), (x, yr), (x, yl)] := by
    refine (List.perm_ext_iff_of_nodup ((nodup_sites Nx Ny).filter _) ?_).2 ?_
    · simp only [List.nodup_cons, List.mem_cons, Prod.mk.injEq, List.not_mem_nil, or_false, not_or, List.nodup_nil, and_true, not_false_eq_true, not_and]
      refine ⟨⟨fun h => absurd h a5, fun h => absurd h a1.2, fun h => absurd h a1.2⟩, ⟨fun h => absurd h a2.2, fun h => absurd h a2.2⟩, fun _ => a6⟩
    · rintro ⟨u, v⟩
      simp only [List.mem_filter, mem_sites, adj, Bool.or_eq_true, Bool.and_eq_true, beq_iff_eq, List.mem_cons, Prod.mk.injEq, List.not_mem_nil, or_false]
      constructor
      · rintro ⟨⟨hu, hv⟩, (⟨h, rfl⟩ | ⟨rfl, h⟩)⟩
        · rw [hm hx h1 hu] at h; tauto
        · rw [hm hy h2 hv] at h; tauto
      · rintro (⟨rfl, rfl⟩ | ⟨rfl, rfl⟩ | ⟨rfl, rfl⟩ | ⟨rfl, rfl⟩)
        · exact ⟨⟨a1.1, h2⟩, .inl ⟨(hm hx h1 a1.1).2 (.inl rfl), rfl⟩⟩
        · exact ⟨⟨a2.1, h2⟩, .inl ⟨(hm hx h1 a2.1).2 (.inr rfl), rfl⟩⟩
        · exact ⟨⟨h1, a3.1⟩, .inr ⟨rfl, (hm hy h2 a3.1).2 (.inl rfl)⟩⟩
        · exact ⟨⟨h1, a4.1⟩, .inr ⟨rfl, (hm hy h2 a4.1).2 (.inr rfl)⟩⟩
  rw [hp.length_eq]; rfl

/-- **C113** The Hubbard-Holstein Hamiltonian of an `Nx × Ny` lattice has `14 Nx Ny` terms. -/
theorem C113_size (hx : 3 ≤ Nx) (hy : 3 ≤ Ny) (ht : t ≠ 0) (hU : U ≠ 0) (hg : g ≠ 0) :
    (hubbardHolstein el ph Nx Ny t U g).terms.length = 14 * (Nx * Ny) := by
  rw [(perm_of_value Nx Ny hi _ _ t U 1 g ⟨ht, one_ne_zero, hg⟩ (.inr ⟨rfl, hU⟩) (is_hubbard Nx Ny t U g hi.ne)).length_eq]
  have hs : (sites Nx Ny).length = Nx * Ny := by rw [sites, List.length_product, List.length_range, List.length_range]
  have hb : (bonds Nx Ny ((Nx : Int) - 1) ((Ny : Int) - 1)).length = 2 * (Nx * Ny * 4) := by
    rw [bonds, length_filter_product _ _ _ (Nx * Ny * 4)]
    · rfl
    · intro s _
      rw [← hs]
      refine length_filter_product _ _ (fun q : (Nat × Nat) × (Nat × Nat) => adj ((Nx : Int) - 1) ((Ny : Int) - 1) q.1.1 q.1.2 q.2.1 q.2.2) 4 ?_
      rintro ⟨x, y⟩ h
      obtain ⟨h1, h2⟩ := mem_sites.1 h
      exact four_neighbours Nx Ny hx hy h1 h2
  simp only [allTerms, hopTerms, coulombTerms, phononTerms, couplingTerms, List.length_append, List.length_map, List.length_product, hs, hb,
    List.length_cons, List.length_nil]
  ring

/-! ### conserved quantities -/

/-- A weight of the two spin projections. -/
def spinCharge (el : Nat → Nat → Bool → ι) (Nx Ny : Nat) (h : Bool → S) : Charge ι S :=
  ⟨fun i => if (sites Nx Ny).any (fun q => el q.1 q.2 true = i) then h true else h false, fun _ => 0, fun _ _ => 0⟩

def electronModes (el : Nat → Nat → Bool → ι) (Nx Ny : Nat) : List (Mode ι) :=
  (sites Nx Ny ×ˢ [true, false]).map fun q => .fermion (el q.1.1 q.1.2 q.2)

theorem spinCharge_el (h : Bool → S) {x y : Nat} (hq : (x, y) ∈ sites Nx Ny) (s : Bool) : (spinCharge el Nx Ny h).fermion (el x y s) = h s := by
  cases s
  · rw [spinCharge]
    refine if_neg ?_
    simp only [List.any_eq_true, decide_eq_true_eq, not_exists, not_and]
    rintro ⟨x', y'⟩ _ h
    simpa using hi.el _ _ _ _ _ _ h
  · exact if_pos (by simp only [List.any_eq_true, decide_eq_true_eq]; exact ⟨_, hq, rfl⟩)

/-- The value of `Σ (h(up) n(i,up) + h(down) n(i,down))`. -/
def spinVal (el : Nat → Nat → Bool → ι) (Nx Ny : Nat) (h : Bool → S) : Module.End S (V ι S) :=
  ((sites Nx Ny).map fun q => h true • counterVal (repU (S := S)) (.fermion (el q.1 q.2 true)) + h false • counterVal (repU (S := S)) (.fermion (el q.1 q.2 false))).sum

theorem spinVal_eq (h : Bool → S) : spinVal el Nx Ny h =
    ((electronModes el Nx Ny).map fun k => (spinCharge el Nx Ny h).mode k • counterVal (repU (S := S)) k).sum := by
  rw [electronModes, List.map_map, sum_product, spinVal]
  congr 1
  refine List.map_congr_left fun q hq => ?_
  simp only [List.map_cons, List.map_nil, List.sum_cons, List.sum_nil, add_zero, Function.comp, Charge.mode]
  rw [spinCharge_el hi Nx Ny h hq, spinCharge_el hi Nx Ny h hq]

theorem nodup_modes : (electronModes el Nx Ny).Nodup := by
  refine ((nodup_sites Nx Ny).product (by decide)).map ?_
  rintro ⟨⟨x, y⟩, s⟩ ⟨⟨x', y'⟩, s'⟩ h
  simp only [Mode.fermion.injEq] at h
  obtain ⟨rfl, rfl, rfl⟩ := hi.el _ _ _ _ _ _ h
  rfl

/-- An operator that conserves the quantum number. -/
theorem commute_terms (h : Bool → S) (l : List (List (Gen ι) × S)) (h1 : ∀ p ∈ l, ∀ g ∈ p.1, FB g)
    (h2 : ∀ p ∈ l, ∀ d i, Gen.fermion d i ∈ p.1 → Mode.fermion i ∈ electronModes el Nx Ny) (h3 : ∀ p ∈ l, (spinCharge el Nx Ny h).mon p.1 = 0) :
    spinVal el Nx Ny h * evalTerms repU l = evalTerms repU l * spinVal el Nx Ny h := by
  induction l with
  | nil => simp [evalTerms]
  | cons p l ih =>
    have ih := ih (fun q hq => h1 q (by simp [hq])) (fun q hq => h2 q (by simp [hq])) fun q hq => h3 q (by simp [hq])
    have e : evalTerms (repU (S := S)) (p :: l) = p.2 • evalMon repU p.1 + evalTerms repU l := by simp [evalTerms]
    rw [e, mul_add, add_mul, ih]
    congr 1
    have hc := comm_mon (ρ := repU (S := S)) (Q := spinVal el Nx Ny h) (w := spinCharge el Nx Ny h) (m := p.1) ?_
    · rw [h3 p (by simp), zero_smul, sub_eq_zero] at hc
      rw [mul_smul_comm, hc, smul_mul_assoc]
    · intro g hg
      rw [spinVal_eq hi]
      refine op_comm_gen (repU_core fun _ _ => False) _ _ (nodup_modes hi Nx Ny) ?_ g (h1 p (by simp) g hg) ?_
      · intro k hk
        obtain ⟨q, _, rfl⟩ := List.mem_map.1 hk
        trivial
      · intro hw
        cases g with
        | fermion d i => exact h2 p (by simp) d i hg
        | boson d i => simp [Charge.gen, spinCharge] at hw
        | spin m c i => exact (h1 p (by simp) _ hg).elim

theorem commute_all (h : Bool → S) (wx wy : Int) (cou : List (List (Gen ι) × S)) (hU : cou = [] ∨ cou = coulombTerms el Nx Ny U) :
    spinVal el Nx Ny h * evalTerms repU (allTerms el ph Nx Ny wx wy t w g cou) =
      evalTerms repU (allTerms el ph Nx Ny wx wy t w g cou) * spinVal el Nx Ny h := by
  have hmem : ∀ {x y s}, x < Nx → y < Ny → Mode.fermion (el x y s) ∈ electronModes el Nx Ny := by
    intro x y s hx hy
    refine List.mem_map.2 ⟨((x, y), s), ?_, rfl⟩
    rw [List.mem_product, mem_sites]
    exact ⟨⟨hx, hy⟩, by cases s <;> simp⟩
  have hall : ∀ p ∈ allTerms el ph Nx Ny wx wy t w g cou, (∃ s x y x' y', x < Nx ∧ y < Ny ∧ x' < Nx ∧ y' < Ny ∧
        p.1 = [.fermion true (el x y s), .fermion false (el x' y' s)]) ∨ CoulombTerm el Nx Ny U p ∨ PhononTerm ph Nx Ny w p ∨ CouplingTerm el ph Nx Ny g p := by
    intro p hp
    simp only [allTerms, List.mem_append, mem_phonon, mem_coupling, or_assoc] at hp
    rcases hp with hp | hp | hp | hp
    · obtain ⟨⟨s, ⟨x, y⟩, x', y'⟩, hq, rfl⟩ := List.mem_map.1 hp
      have := (List.mem_filter.1 hq).1
      simp only [List.mem_product, mem_sites] at this
      exact .inl ⟨s, x, y, x', y', this.2.1.1, this.2.1.2, this.2.2.1, this.2.2.2, rfl⟩
    · rcases hU with rfl | rfl
      · simp at hp
      · exact .inr (.inl ((mem_coulomb el hi.ne).1 hp))
    · exact .inr (.inr (.inl hp))
    · exact .inr (.inr (.inr hp))
  refine commute_terms hi Nx Ny h _ ?_ ?_ ?_
  all_goals
    intro p hp
    rcases hall p hp with ⟨s, x, y, x', y', h1, h2, h3, h4, h5⟩ | ⟨x, y, h1, h2, s, h3, rfl⟩ | ⟨x, y, h1, h2, rfl⟩ | ⟨s, d, x, y, h1, h2, rfl⟩
  · rw [h5]; simp [Allowed]
  · simp [Allowed]
  · simp [Allowed]
  · simp [Allowed]
  · rw [h5]
    intro d i hg
    simp only [List.mem_cons, Gen.fermion.injEq, List.not_mem_nil, or_false] at hg
    rcases hg with ⟨_, rfl⟩ | ⟨_, rfl⟩
    · exact hmem h1 h2
    · exact hmem h3 h4
  · intro d i hg
    simp only [List.mem_cons, Gen.fermion.injEq, List.not_mem_nil, or_false] at hg
    rcases hg with ⟨_, rfl⟩ | ⟨_, rfl⟩ | ⟨_, rfl⟩ | ⟨_, rfl⟩ <;> exact hmem h1 h2
  · intro d i hg; simp at hg
  · intro d' i hg
    simp only [List.mem_cons, Gen.fermion.injEq, List.not_mem_nil, or_false, reduceCtorEq] at hg
    rcases hg with ⟨_, rfl⟩ | ⟨_, rfl⟩ <;> exact hmem h1 h2
  · rw [h5]
    simp [Charge.mon, Charge.gen, spinCharge_el hi Nx Ny h (mem_sites.2 ⟨h1, h2⟩), spinCharge_el hi Nx Ny h (mem_sites.2 ⟨h3, h4⟩)]
  · simp [Charge.mon, Charge.gen, spinCharge_el hi Nx Ny h (mem_sites.2 ⟨h1, h2⟩)]
  · simp [Charge.mon, Charge.gen, spinCharge]
  · simp [Charge.mon, Charge.gen, spinCharge_el hi Nx Ny h (mem_sites.2 ⟨h1, h2⟩), show ∀ i, (spinCharge el Nx Ny h).boson i = 0 from fun _ => rfl]

omit hi in
theorem eq_of_is {a b : Expr (Gen ι) S} {x : Module.End S (V ι S)} (ha : Is a x) (hb : Is b x) : a = b :=
  ext_kap ha.1.wfA hb.1.wfA (ha.1.canonA hFB) (hb.1.canonA hFB) fun k _ => by
    have h1 : evalExpr (repU (S := S)) a = x := ha.2
    have h2 : evalExpr (repU (S := S)) b = x := hb.2
    rw [h1, h2]

omit hi in
theorem is_number : Is (number el Nx Ny : Expr (Gen ι) S) (spinVal el Nx Ny fun _ => 1) := by
  have : Is (number el Nx Ny : Expr (Gen ι) S) _ :=
    Is.loop (v := fun ix => ((List.range Ny).map fun iy => (1 : S) • counterVal (repU (S := S)) (.fermion (el ix iy true)) + (1 : S) • counterVal (repU (S := S)) (.fermion (el ix iy false))).sum)
      (fun e y ix he => Is.loop (fun e y iy he => by
        simp only [one_smul]; exact he.add ((is_n _).add (is_n _))) _ he) _ Is.zero
  rw [zero_add] at this
  rwa [spinVal, sites, sum_product]

omit hi in
theorem is_spinZ (half : S) : Is (spinZ el Nx Ny half : Expr (Gen ι) S) (spinVal el Nx Ny fun s => if s then half else -half) := by
  have : Is (spinZ el Nx Ny half : Expr (Gen ι) S) _ :=
    Is.loop (v := fun ix => ((List.range Ny).map fun iy => half • counterVal (repU (S := S)) (.fermion (el ix iy true)) + (-half) • counterVal (repU (S := S)) (.fermion (el ix iy false))).sum)
      (fun e y ix he => Is.loop (fun e y iy he => by
        have h := he.add (Is.smul half ((is_n (el ix iy true)).sub (is_n (el ix iy false))))
        rw [smul_sub, sub_eq_add_neg, ← neg_smul] at h
        exact h) _ he) _ Is.zero
  rw [zero_add] at this
  rw [spinVal, sites, sum_product]
  simpa using this

omit hi in
theorem is_numberE (N : Nat) : Is (numberE el N : Expr (Gen ι) S) (spinVal el N N fun _ => 1) := by
  have e : spinVal el N N (fun _ => (1 : S)) = ([true, false].map fun s => ((List.range N).map fun ix => ((List.range N).map fun iy => counterVal (repU (S := S)) (.fermion (el ix iy s))).sum).sum).sum := by
    simp only [spinVal, sites, sum_product, one_smul, List.sum_map_add, List.map_cons, List.map_nil, List.sum_cons, List.sum_nil, add_zero]
  rw [e]
  have h : Is (numberE el N : Expr (Gen ι) S) (0 + ([true, false].map fun s => ((List.range N).map fun ix => ((List.range N).map fun iy => counterVal (repU (S := S)) (.fermion (el ix iy s))).sum).sum).sum) := by
    rw [numberE]
    refine Is.loop (fun e y s he => ?_) _ Is.zero
    refine Is.loop (fun e y ix he => ?_) _ he
    refine Is.loop (fun e y iy he => ?_) _ he
    exact he.add (is_n _)
  rwa [zero_add] at h

omit hi in
theorem eq_of_commute {a b : Expr (Gen ι) S} {x y : Module.End S (V ι S)} (ha : Is a x) (hb : Is b y) (h : y * x = x * y) : a * b = b * a :=
  eq_of_is (ha.mul hb) (h ▸ hb.mul ha)

/-- **C113** The Hubbard-Holstein Hamiltonian commutes with the number of electrons and with the total spin projection, for all parameters. -/
theorem C113_hubbard_conserves (half : S) :
    (hubbardHolstein el ph Nx Ny t U g * number el Nx Ny).eqOp (number el Nx Ny * hubbardHolstein el ph Nx Ny t U g) = true ∧
    (hubbardHolstein el ph Nx Ny t U g * spinZ el Nx Ny half).eqOp (spinZ el Nx Ny half * hubbardHolstein el ph Nx Ny t U g) = true := by
  have hH := is_hubbard Nx Ny t U g (ph := ph) hi.ne
  have c := fun h : Bool → S => commute_all (t := t) (w := 1) (g := g) (U := U) hi Nx Ny h ((Nx : Int) - 1) ((Ny : Int) - 1) (coulombTerms el Nx Ny U) (.inr rfl)
  constructor <;> rw [eqOp_iff]
  · exact eq_of_commute hH (is_number Nx Ny) (c _)
  · exact eq_of_commute hH (is_spinZ Nx Ny half) (c _)

/-- **C113** The same for the number of electrons of examples/holstein.cpp. -/
theorem C113_holstein_conserves (N : Nat) :
    (holstein el ph N t w g * numberE el N).eqOp (numberE el N * holstein el ph N t w g) = true := by
  have hH := is_holstein t w g N (el := el) (ph := ph)
  have c := commute_all (t := t) (w := w) (g := g) (U := 0) hi N N (fun _ => 1) N N [] (.inl rfl)
  rw [eqOp_iff]
  exact eq_of_commute hH (is_numberE N) c

end Lattice

namespace Lattice
section
open Expr Factory Reg
variable {ι S : Type _} [LinearOrder ι] [CommRing S] [DecidableEq S] [ConstScalar S] [ScalarLaws S] [IsDomain S] [CharZero S] [StarRing S]
  {el : Nat → Nat → Bool → ι} {ph : Nat → Nat → ι} (hi : Inj el ph) (Nx Ny : Nat) {t U w g : S}

theorem neighbors_symm (wrap : Int) (i j : Nat) : neighbors wrap i j = neighbors wrap j i := by
  rw [neighbors, neighbors, show ((i : Int) - j).natAbs = ((j : Int) - i).natAbs by omega]

theorem bonds_swap (wx wy : Int) : ((bonds Nx Ny wx wy).map fun q => (q.1, q.2.2, q.2.1)).Perm (bonds Nx Ny wx wy) := by
  refine (List.perm_ext_iff_of_nodup ((nodup_bonds Nx Ny wx wy).map ?_) (nodup_bonds Nx Ny wx wy)).2 ?_
  · rintro ⟨s, a, b⟩ ⟨s', a', b'⟩ h
    simp only [Prod.mk.injEq] at h
    rw [h.1, h.2.1, h.2.2]
  · rintro ⟨s, ⟨x, y⟩, x', y'⟩
    simp only [List.mem_map, bonds, List.mem_filter, Prod.exists, Prod.mk.injEq]
    have ha : adj wx wy x y x' y' = adj wx wy x' y' x y := by
      rw [adj, adj, neighbors_symm wx x x', neighbors_symm wy y y', Bool.beq_comm (a := y), Bool.beq_comm (a := x)]
    constructor
    · rintro ⟨s1, a, b, c, d, ⟨h1, h2⟩, rfl, ⟨rfl, rfl⟩, rfl, rfl⟩
      simp only [List.mem_product] at h1 ⊢
      exact ⟨⟨h1.1, h1.2.2, h1.2.1⟩, by rw [ha]; exact h2⟩
    · rintro ⟨h1, h2⟩
      refine ⟨s, x', y', x, y, ⟨?_, by rw [← ha]; exact h2⟩, rfl, ⟨rfl, rfl⟩, rfl, rfl⟩
      simp only [List.mem_product] at h1 ⊢
      exact ⟨h1.1, h1.2.2, h1.2.1⟩

/-- The value of the adjoint of a list of terms. -/
noncomputable def adjVal (l : List (List (Gen ι) × S)) : Module.End S (V ι S) :=
  (l.map fun p => star p.2 • (p.1.reverse.map fun g => repU (S := S) g.dag).prod).sum

theorem adjVal_append (l m : List (List (Gen ι) × S)) : adjVal (l ++ m) = adjVal l + adjVal m := by simp [adjVal]

theorem adj_hop (wx wy : Int) (ht : star t = t) : adjVal (hopTerms el Nx Ny wx wy t) = evalTerms repU (hopTerms el Nx Ny wx wy t) := by
  rw [adjVal, hopTerms, evalTerms_map, List.map_map,
    ← ((bonds_swap Nx Ny wx wy).map fun q => (-t) • evalMon (repU (S := S)) [Gen.fermion true (el q.2.1.1 q.2.1.2 q.1), .fermion false (el q.2.2.1 q.2.2.2 q.1)]).sum_eq,
    List.map_map]
  congr 1
  refine List.map_congr_left fun q _ => ?_
  simp [Function.comp, ht, evalMon, Gen.dag]

theorem adj_coulomb (hU : star U = U) : adjVal (coulombTerms el Nx Ny U) = evalTerms repU (coulombTerms el Nx Ny U) := by
  rw [adjVal, coulombTerms, evalTerms_map, List.map_map]
  congr 1
  refine List.map_congr_left fun q _ => ?_
  simp [Function.comp, hU, evalMon, Gen.dag, pair]

theorem adj_phonon (hw : star w = w) : adjVal (phononTerms ph Nx Ny w) = evalTerms repU (phononTerms ph Nx Ny w) := by
  rw [adjVal, phononTerms, evalTerms_map, List.map_map]
  congr 1
  refine List.map_congr_left fun q _ => ?_
  simp [Function.comp, hw, evalMon, Gen.dag]

theorem adj_coupling (hg : star g = g) : adjVal (couplingTerms el ph Nx Ny g) = evalTerms repU (couplingTerms el ph Nx Ny g) := by
  rw [adjVal, couplingTerms, evalTerms_map, List.map_map, sum_product, sum_product]
  congr 1
  refine List.map_congr_left fun s _ => ?_
  rw [sum_product, sum_product]
  congr 1
  refine List.map_congr_left fun q _ => ?_
  have T := repU_core (ι := ι) (S := S) fun _ _ => False
  have key : ∀ d, repU (S := S) (.boson d (ph q.1 q.2)) * (repU (S := S) (.fermion true (el q.1 q.2 s)) * repU (S := S) (.fermion false (el q.1 q.2 s))) =
      repU (S := S) (.fermion true (el q.1 q.2 s)) * (repU (S := S) (.fermion false (el q.1 q.2 s)) * repU (S := S) (.boson d (ph q.1 q.2))) := by
    intro d
    rw [← mul_assoc, ← T.comm_fb, mul_assoc, ← T.comm_fb]
  simp [Function.comp, hg, evalMon, Gen.dag, key]
  rw [add_comm]

include hi
theorem conj_eq {e : Expr (Gen ι) S} {wx wy : Int} {cou : List (List (Gen ι) × S)} (hz : t ≠ 0 ∧ w ≠ 0 ∧ g ≠ 0)
    (hU : cou = [] ∨ cou = coulombTerms el Nx Ny U ∧ U ≠ 0) (he : Is e (evalTerms repU (allTerms el ph Nx Ny wx wy t w g cou)))
    (st : star t = t) (sU : star U = U) (sw : star w = w) (sg : star g = g) : e.conj = e := by
  have hp := perm_of_value Nx Ny hi wx wy t U w g hz hU he
  refine eq_of_is ⟨he.1.conj, ?_⟩ he
  rw [ev, conj_value hFB he.1 hp]
  change adjVal _ = _
  simp only [allTerms, adjVal_append, evalTerms_append, adj_hop Nx Ny wx wy st, adj_phonon Nx Ny sw, adj_coupling Nx Ny sg]
  rcases hU with rfl | ⟨rfl, _⟩
  · simp [adjVal, evalTerms]
  · rw [adj_coulomb Nx Ny sU]

/-- **C113** Both Hamiltonians are Hermitian when the parameters are real. -/
theorem C113_hermitian (ht : t ≠ 0) (hU : U ≠ 0) (hw : w ≠ 0) (hg : g ≠ 0) (st : star t = t) (sU : star U = U) (sw : star w = w) (sg : star g = g) :
    (hubbardHolstein el ph Nx Ny t U g).conj.eqOp (hubbardHolstein el ph Nx Ny t U g) = true ∧
    ∀ N, (holstein el ph N t w g).conj.eqOp (holstein el ph N t w g) = true := by
  refine ⟨(eqOp_iff _ _).2 (conj_eq hi Nx Ny ⟨ht, one_ne_zero, hg⟩ (.inr ⟨rfl, hU⟩) (is_hubbard Nx Ny t U g hi.ne) st sU (star_one S) sg), fun N => ?_⟩
  exact (eqOp_iff _ _).2 (conj_eq (U := U) hi N N ⟨ht, hw, hg⟩ (.inl rfl) (is_holstein t w g N) st sU sw sg)

end

/-- Indices: three numbers per site. -/
def exEl (x y : Nat) (s : Bool) : Nat := 3 * Nat.pair x y + s.toNat
def exPh (x y : Nat) : Nat := 3 * Nat.pair x y + 2

theorem c113_hypotheses : Inj exEl exPh ∧ (2 : ℚ) ≠ 0 ∧ star (2 : ℚ) = 2 ∧
    (hubbardHolstein exEl exPh 2 2 (1 : ℚ) 2 3).terms.length = 40 := by
  refine ⟨⟨?_, ?_⟩, by norm_num, rfl, by decide +kernel⟩
  · intro x y s x' y' s' h
    simp only [exEl] at h
    have h1 := Bool.toNat_lt s
    have h2 := Bool.toNat_lt s'
    have h3 : Nat.pair x y = Nat.pair x' y' := by omega
    have h4 : s.toNat = s'.toNat := by omega
    obtain ⟨rfl, rfl⟩ := Nat.pair_eq_pair.1 h3
    exact ⟨rfl, rfl, by cases s <;> cases s' <;> simp_all⟩
  · intro x y x' y' h
    simp only [exPh] at h
    exact Nat.pair_eq_pair.1 (by omega)

end Lattice
end LC
