import Verif.Props.Lattice
/-
C113 (continued): the Hubbard-Holstein Hamiltonian of examples/hubbard_holstein.cpp commutes, as an expression, with the operators that raise or
lower the total spin of the electrons, so that its levels are spin multiplets.
`flip` is not a part of the program; it is the sum a user would write with the factories of expression/factories.hpp.
-/
set_option linter.unusedSectionVars false
set_option linter.unusedSimpArgs false
namespace LC
namespace Lattice
open Expr Factory Reg
variable {ι S : Type _} [LinearOrder ι] [CommRing S] [DecidableEq S] [ConstScalar S] [ScalarLaws S] [IsDomain S] [CharZero S] [Star S]

/-- `S_+` of the electrons for `s = true` (up), `S_-` for `s = false`: the sum over the sites of `c†(i, s) c(i, -s)`. -/
def flip (el : Nat → Nat → Bool → ι) (Nx Ny : Nat) (s : Bool) : Expr (Gen ι) S :=
  (List.range Nx).foldl (fun F ix => (List.range Ny).foldl (fun F iy => F + cDag (el ix iy s) * c (el ix iy !s)) F) 0

variable (el : Nat → Nat → Bool → ι) (Nx Ny : Nat)

theorem list_sum_range {M : Type _} [AddCommMonoid M] (n : Nat) (f : Nat → M) : ((List.range n).map f).sum = ∑ i ∈ Finset.range n, f i := rfl

/-- Its value. -/
def flipVal (s : Bool) : Module.End S (V ι S) :=
  ∑ x ∈ Finset.range Nx, ∑ y ∈ Finset.range Ny, repU (S := S) (.fermion true (el x y s)) * repU (.fermion false (el x y !s))

theorem is_flip (s : Bool) : Is (flip el Nx Ny s : Expr (Gen ι) S) (flipVal el Nx Ny s) := by
  have : Is (flip el Nx Ny s : Expr (Gen ι) S) (0 + ((List.range Nx).map fun ix => ((List.range Ny).map fun iy =>
      repU (S := S) (.fermion true (el ix iy s)) * repU (.fermion false (el ix iy !s))).sum).sum) := by
    rw [flip]
    refine Is.loop (fun e y ix he => ?_) _ Is.zero
    refine Is.loop (fun e y iy he => ?_) _ he
    exact he.add ((is_cDag _).mul (is_c _))
  rw [zero_add] at this
  simpa only [flipVal, list_sum_range] using this

variable {el} {ph : Nat → Nat → ι} (hi : Inj el ph) {t U w g : S}

section algebra
variable {B : Type _} [_root_.Ring B] {X u u' w w' : B}

/-- Sums over both spins of `c† c` commute with the flip. -/
theorem flip_hop (h1 : X * u = u * X) (h2 : X * u' = u' * X + u) (h3 : X * w = w * X - w') (h4 : X * w' = w' * X) :
    X * (u * w + u' * w') = (u * w + u' * w') * X := by
  have e : X * (u * w + u' * w') = (X * u) * w + (X * u') * w' := by noncomm_ring
  have e2 : (u * X) * w + (u' * X + u) * w' = u * (X * w) + u' * (X * w') + u * w' := by noncomm_ring
  rw [e, h1, h2, e2, h3, h4]
  noncomm_ring

/-- The repulsion commutes with the flip. -/
theorem flip_coulomb (h1 : X * u = u * X) (h2 : X * u' = u' * X + u) (h3 : X * w = w * X - w') (h4 : X * w' = w' * X)
    (hu : u * u = 0) (hw : w' * w' = 0) (c1 : u * w + w * u = 1) (c2 : u' * w' + w' * u' = 1) :
    X * ((u * w) * (u' * w')) = ((u * w) * (u' * w')) * X := by
  have e1 : X * (u * w) = u * w * X - u * w' := by rw [← mul_assoc, h1, mul_assoc, h3]; noncomm_ring
  have e2 : X * (u' * w') = u' * w' * X + u * w' := by rw [← mul_assoc, h2, add_mul, mul_assoc, h4]; noncomm_ring
  have e3 : u * w' * (u' * w') = u * w' := by
    have : u * w' * (u' * w') = u * (w' * (u' * w' + w' * u')) - u * (w' * w') * u' := by noncomm_ring
    rw [this, c2, hw]; simp
  have e4 : u * w * (u * w') = u * w' := by
    have : u * w * (u * w') = (u * (u * w + w * u) - u * u * w) * w' := by noncomm_ring
    rw [this, c1, hu]; simp
  rw [← mul_assoc, e1, sub_mul, mul_assoc (u * w) X, e2, e3, mul_add, e4]
  noncomm_ring
end algebra

include hi
/-- How ladder operators change when they pass the flip. -/
theorem flip_ladder (s : Bool) {x y : Nat} (hx : x < Nx) (hy : y < Ny) :
    let X := flipVal (S := S) el Nx Ny s
    let cd := fun r => repU (S := S) (.fermion true (el x y r))
    let cc := fun r => repU (S := S) (.fermion false (el x y r))
    X * cd s = cd s * X ∧ X * cd (!s) = cd (!s) * X + cd s ∧ X * cc s = cc s * X - cc (!s) ∧ X * cc (!s) = cc (!s) * X := by
  intro X cd cc
  have T := repU_core (ι := ι) (S := S) fun _ _ => False
  have hne : ∀ x y x' y', el x y s ≠ el x' y' (!s) := fun x y x' y' h => by simpa using (hi.el _ _ _ _ _ _ h).2.2
  have gen : ∀ (z : Module.End S (V ι S)) (v : Nat → Nat → Module.End S (V ι S)) (r : Module.End S (V ι S)),
      (∀ a < Nx, ∀ b < Ny, repU (S := S) (.fermion true (el a b s)) * repU (.fermion false (el a b !s)) * z =
        z * (repU (S := S) (.fermion true (el a b s)) * repU (.fermion false (el a b !s))) + v a b) →
      (∑ a ∈ Finset.range Nx, ∑ b ∈ Finset.range Ny, v a b) = r → X * z = z * X + r := by
    intro z v r h hr
    rw [← hr]
    simp only [X, flipVal, Finset.sum_mul, Finset.mul_sum, ← Finset.sum_add_distrib]
    exact Finset.sum_congr rfl fun a ha => Finset.sum_congr rfl fun b hb => h a (Finset.mem_range.1 ha) b (Finset.mem_range.1 hb)
  have single : ∀ z : Module.End S (V ι S), (∑ a ∈ Finset.range Nx, ∑ b ∈ Finset.range Ny, if a = x ∧ b = y then z else 0) = z := by
    intro z
    rw [Finset.sum_eq_single x, Finset.sum_eq_single y]
    · simp
    · intro b _ h; simp [h]
    · intro h; exact absurd (Finset.mem_range.2 hy) h
    · intro a _ h; simp [h]
    · intro h; exact absurd (Finset.mem_range.2 hx) h
  have swap : ∀ (p q z : Module.End S (V ι S)), p * q * z = z * (p * q) + (p * (q * z + z * q) - (p * z + z * p) * q) := fun p q z => by noncomm_ring
  have elinj : ∀ a b r, el a b r = el x y r → a = x ∧ b = y := fun a b r h => ⟨(hi.el _ _ _ _ _ _ h).1, (hi.el _ _ _ _ _ _ h).2.1⟩
  refine ⟨?_, ?_, ?_, ?_⟩
  · rw [gen (cd s) (fun _ _ => 0) 0 ?_ (by simp), add_zero]
    intro a _ b _
    rw [swap, T.car, T.car, if_neg (fun h => hne _ _ _ _ h.1.symm), if_neg (by simp)]
    simp
  · refine gen (cd !s) (fun a b => if a = x ∧ b = y then cd s else 0) _ ?_ (single _)
    intro a _ b _
    rw [swap, T.car, T.car, if_neg (c := el a b s = el x y (!s) ∧ true ≠ true) (by simp)]
    by_cases h : a = x ∧ b = y
    · obtain ⟨rfl, rfl⟩ := h
      simp [cd]
    · rw [if_neg (fun h' => h (elinj _ _ _ h'.1)), if_neg h]; simp
  · rw [sub_eq_add_neg]
    refine gen (cc s) (fun a b => if a = x ∧ b = y then -cc (!s) else 0) _ ?_ (single _)
    intro a _ b _
    rw [swap, T.car, T.car, if_neg (c := el a b (!s) = el x y s ∧ false ≠ false) (by simp)]
    by_cases h : a = x ∧ b = y
    · obtain ⟨rfl, rfl⟩ := h
      simp [cc]
    · rw [if_neg (fun h' => h (elinj _ _ _ h'.1)), if_neg h]; simp
  · rw [gen (cc !s) (fun _ _ => 0) 0 ?_ (by simp), add_zero]
    intro a _ b _
    rw [swap, T.car, T.car, if_neg (c := el a b s = el x y (!s) ∧ true ≠ false) (fun h => hne _ _ _ _ h.1), if_neg (by simp)]
    simp

theorem flip_pair (s : Bool) {x y x' y' : Nat} (hx : x < Nx) (hy : y < Ny) (hx' : x' < Nx) (hy' : y' < Ny) :
    Commute (flipVal (S := S) el Nx Ny s)
      (repU (.fermion true (el x y true)) * repU (.fermion false (el x' y' true)) + repU (.fermion true (el x y false)) * repU (.fermion false (el x' y' false))) := by
  have h1 := flip_ladder (S := S) Nx Ny hi s hx hy
  have h2 := flip_ladder (S := S) Nx Ny hi s hx' hy'
  have h := flip_hop (B := Module.End S (V ι S)) h1.1 h1.2.1 h2.2.2.1 h2.2.2.2
  cases s
  · rw [add_comm]; exact h
  · exact h

theorem flip_boson (s : Bool) (d : Bool) (i : ι) : Commute (flipVal (S := S) el Nx Ny s) (repU (.boson d i)) := by
  have T := repU_core (ι := ι) (S := S) fun _ _ => False
  refine Commute.sum_left _ _ _ fun a _ => Commute.sum_left _ _ _ fun b _ => Commute.mul_left ?_ ?_
  · exact T.comm_fb _ _ _ _
  · exact T.comm_fb _ _ _ _

/-- The Coulomb repulsion, with its value. -/
theorem flip_repulsion (s : Bool) {x y : Nat} (hx : x < Nx) (hy : y < Ny) : Commute (flipVal (S := S) el Nx Ny s)
    (repU (.fermion true (el x y true)) * repU (.fermion false (el x y true)) * (repU (.fermion true (el x y false)) * repU (.fermion false (el x y false)))) := by
  have T := repU_core (ι := ι) (S := S) fun _ _ => False
  have sq : ∀ (d : Bool) (i : ι), repU (S := S) (.fermion d i) * repU (.fermion d i) = 0 := by
    intro (d : Bool) (i : ι)
    have h := T.car d i d i
    rw [if_neg (by simp), ← two_smul S] at h
    exact (smul_eq_zero.1 h).resolve_left two_ne_zero
  have one : ∀ i : ι, repU (S := S) (.fermion true i) * repU (.fermion false i) + repU (.fermion false i) * repU (.fermion true i) = 1 := fun i => by
    rw [T.car]; simp
  have h1 := flip_ladder (S := S) Nx Ny hi s hx hy
  have h := flip_coulomb (B := Module.End S (V ι S)) h1.1 h1.2.1 h1.2.2.1 h1.2.2.2 (sq _ _) (sq _ _) (one _) (one _)
  cases s
  · have hne : el x y false ≠ el x y true := (hi.ne x y).symm
    have c1 := counter_comm T (.fermion (el x y true)) trivial (.fermion true (el x y false)) trivial
    have c2 := counter_comm T (.fermion (el x y true)) trivial (.fermion false (el x y false)) trivial
    simp only [Gen.mode, Mode.fermion.injEq, hne, if_false, counterVal, sub_eq_zero] at c1 c2
    rw [← mul_assoc (repU (S := S) (.fermion true (el x y true)) * _), c1, mul_assoc (repU (S := S) (.fermion true (el x y false))), c2, ← mul_assoc]
    exact h
  · exact h

/-- The loops of the hopping, phonons and coupling. -/
theorem flip_loops (s : Bool) (wx wy : Int) :
    Commute (flipVal (S := S) el Nx Ny s) (evalTerms repU (hopTerms el Nx Ny wx wy t)) ∧
    Commute (flipVal (S := S) el Nx Ny s) (evalTerms repU (phononTerms ph Nx Ny w)) ∧
    Commute (flipVal (S := S) el Nx Ny s) (evalTerms repU (couplingTerms el ph Nx Ny g)) := by
  refine ⟨?_, ?_, ?_⟩
  · simp only [hopTerms, bonds, evalTerms_map, sum_filter]
    rw [sum_product]
    simp only [List.map_cons, List.map_nil, List.sum_cons, List.sum_nil, add_zero, ← List.sum_map_add]
    refine Commute.list_sum_right _ _ fun z hz => ?_
    obtain ⟨⟨⟨x, y⟩, x', y'⟩, hq, rfl⟩ := List.mem_map.1 hz
    simp only [List.mem_product, mem_sites] at hq
    simp only [evalMon, List.map_cons, List.map_nil, List.prod_cons, List.prod_nil, mul_one]
    split_ifs
    · rw [← smul_add]
      exact (flip_pair (S := S) Nx Ny hi s hq.1.1 hq.1.2 hq.2.1 hq.2.2).smul_right _
    · rw [add_zero]; exact Commute.zero_right _
  · rw [phononTerms, evalTerms_map]
    refine Commute.list_sum_right _ _ fun z hz => ?_
    obtain ⟨q, hq, rfl⟩ := List.mem_map.1 hz
    simp only [evalMon, List.map_cons, List.map_nil, List.prod_cons, List.prod_nil, mul_one]
    exact ((flip_boson Nx Ny hi s _ _).mul_right (flip_boson Nx Ny hi s _ _)).smul_right _
  · simp only [couplingTerms, evalTerms_map]
    rw [sum_product]
    simp only [List.map_cons, List.map_nil, List.sum_cons, List.sum_nil, add_zero, ← List.sum_map_add]
    refine Commute.list_sum_right _ _ fun z hz => ?_
    obtain ⟨⟨⟨x, y⟩, d⟩, hq, rfl⟩ := List.mem_map.1 hz
    simp only [List.mem_product, mem_sites] at hq
    simp only [evalMon, List.map_cons, List.map_nil, List.prod_cons, List.prod_nil, mul_one, ← mul_assoc]
    rw [← smul_add, ← add_mul]
    exact ((flip_pair (S := S) Nx Ny hi s hq.1.1 hq.1.2 hq.1.1 hq.1.2).mul_right (flip_boson Nx Ny hi s _ _)).smul_right _

/-- **C113** The Hubbard-Holstein Hamiltonian commutes with the operators that raise and lower the total spin, for all parameters and sizes. -/
theorem C113_hubbard_spin (s : Bool) :
    (hubbardHolstein el ph Nx Ny t U g * flip el Nx Ny s).eqOp (flip el Nx Ny s * hubbardHolstein el ph Nx Ny t U g) = true := by
  rw [eqOp_iff]
  have hc : ∀ {e : Expr (Gen ι) S} {y}, Is e y → Is (coulomb el Nx Ny U e) (y + ((List.range Nx).map fun x => ((List.range Ny).map fun y =>
      (U • (repU (S := S) (.fermion true (el x y true)) * repU (.fermion false (el x y true)))) *
        (repU (.fermion true (el x y false)) * repU (.fermion false (el x y false)))).sum).sum) := by
    intro e y he
    rw [coulomb]
    refine Is.loop (fun e y ix he => ?_) _ he
    refine Is.loop (fun e y iy he => ?_) _ he
    exact he.add ((Is.smul U (is_n _)).mul (is_n _))
  have hH := is_coupling (is_phonons (hc (is_hopping Is.zero el Nx Ny ((Nx : Int) - 1) ((Ny : Int) - 1) t)) ph Nx Ny) el ph Nx Ny g
  refine eq_of_commute hH (is_flip el Nx Ny s) (Commute.eq ?_)
  have L := flip_loops (t := t) (w := (1 : S)) (g := g) Nx Ny hi s ((Nx : Int) - 1) ((Ny : Int) - 1)
  refine Commute.add_right (Commute.add_right (Commute.add_right (Commute.add_right (Commute.zero_right _) L.1) ?_) L.2.1) L.2.2
  refine Commute.list_sum_right _ _ fun z hz => ?_
  obtain ⟨x, hx, rfl⟩ := List.mem_map.1 hz
  refine Commute.list_sum_right _ _ fun z hz => ?_
  obtain ⟨y, hy, rfl⟩ := List.mem_map.1 hz
  rw [smul_mul_assoc]
  exact (flip_repulsion Nx Ny hi s (List.mem_range.1 hx) (List.mem_range.1 hy)).smul_right U

/-- **C113** So does the Hamiltonian of examples/holstein.cpp. -/
theorem C113_holstein_spin (N : Nat) (s : Bool) :
    (holstein el ph N t w g * flip el N N s).eqOp (flip el N N s * holstein el ph N t w g) = true := by
  rw [eqOp_iff]
  have hH := ((is_hopping Is.zero el N N N N t).add (is_phononsW Is.zero ph N N w)).add (is_coupling Is.zero el ph N N g)
  refine eq_of_commute hH (is_flip el N N s) (Commute.eq ?_)
  have L := flip_loops (t := t) (w := w) (g := g) N N hi s N N
  rw [zero_add, zero_add, zero_add]
  exact Commute.add_right (Commute.add_right L.1 L.2.1) L.2.2

/-- Not vacuous: four sites, where the raising operator has four terms and the Hamiltonian forty. -/
theorem c113_spin_hypotheses : Inj exEl exPh ∧ (hubbardHolstein exEl exPh 2 2 (1 : ℚ) 2 3).terms.length = 40 ∧
    (flip exEl 2 2 true : Expr (Gen Nat) ℚ).terms.length = 4 ∧
    (flip exEl 2 2 true : Expr (Gen Nat) ℚ).coeff [.fermion true (exEl 1 0 true), .fermion false (exEl 1 0 false)] = 1 :=
  ⟨c113_hypotheses.1, c113_hypotheses.2.2.2, by decide +kernel, by decide +kernel⟩

end Lattice
end LC
