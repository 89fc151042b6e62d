import Verif.Model.Lattice
import Verif.Proof.TermsSpec
import Verif.Proof.NumberOps
/-
The lattice models: contributions of the loops and their values.
-/
set_option linter.unusedSectionVars false
set_option linter.unusedSimpArgs false
namespace LC
namespace Lattice
open Expr Factory Reg
variable {ι S : Type _} [LinearOrder ι] [CommRing S] [DecidableEq S] [ConstScalar S] [ScalarLaws S] [IsDomain S] [CharZero S] [Star S]

/-- Fermions and bosons. -/
abbrev FB : Gen ι → Prop := Allowed fun _ _ => False
theorem hFB : HalfAlone fun (_ : Nat) (_ : ι) => False := fun _ _ h => h.elim

theorem rep : Represents S (FB : Gen ι → Prop) (repU (ι := ι) (S := S)) := by
  have T := repU_core (ι := ι) (S := S) fun _ _ => False
  exact represents_of_textbook (fun _ _ h => h.elim) ⟨T.car, T.ccr, T.ccr_same, T.spin_pm, T.spin_zp, T.spin_zm, T.spin_comm,
    fun _ _ _ h => h.elim, T.half_zz, T.half_pm, T.half_z, T.comm_fb, T.comm_fs, T.comm_bs⟩

abbrev ev (e : Expr (Gen ι) S) := evalExpr (repU (S := S)) e

/-- An expression of fermions and bosons with the value `x`. -/
def Is (e : Expr (Gen ι) S) (x : Module.End S (V ι S)) : Prop := Reachable FB e ∧ ev e = x

section
variable {a b : Expr (Gen ι) S} {x y : Module.End S (V ι S)}
theorem Is.add (ha : Is a x) (hb : Is b y) : Is (a + b) (x + y) := ⟨ha.1.add hb.1, by rw [ev, eval_add]; exact congrArg₂ _ ha.2 hb.2⟩
theorem Is.sub (ha : Is a x) (hb : Is b y) : Is (a - b) (x - y) := ⟨ha.1.sub hb.1, by rw [ev, eval_sub]; exact congrArg₂ _ ha.2 hb.2⟩
theorem Is.mul (ha : Is a x) (hb : Is b y) : Is (a * b) (x * y) :=
  ⟨ha.1.mul hb.1, by rw [ev, eval_mul rep (ha.1.canonA hFB).inP (hb.1.canonA hFB).inP]; exact congrArg₂ _ ha.2 hb.2⟩
theorem Is.smul (s : S) (ha : Is a x) : Is (s • a) (s • x) := ⟨.smulPrefix s ha.1, (eval_smul s a).trans (congrArg _ ha.2)⟩
theorem Is.zero : Is (0 : Expr (Gen ι) S) 0 := ⟨.zero, rfl⟩
theorem Is.mon (m : List (Gen ι)) (hm : ∀ g ∈ m, FB g) : Is (ofMonomial (1 : S) m) (evalMon repU m) :=
  ⟨.ofMonomial _ _ hm, by rw [ev, eval_ofMonomial rep _ _ hm, one_smul]⟩
theorem is_cDag (i : ι) : Is (cDag i : Expr (Gen ι) S) (repU (.fermion true i)) := by simpa [evalMon, cDag, c, aDag, Factory.a] using Is.mon (S := S) [.fermion true i] (by simp [Allowed])
theorem is_c (i : ι) : Is (c i : Expr (Gen ι) S) (repU (.fermion false i)) := by simpa [evalMon, cDag, c, aDag, Factory.a] using Is.mon (S := S) [.fermion false i] (by simp [Allowed])
theorem is_aDag (i : ι) : Is (aDag i : Expr (Gen ι) S) (repU (.boson true i)) := by simpa [evalMon, cDag, c, aDag, Factory.a] using Is.mon (S := S) [.boson true i] (by simp [Allowed])
theorem is_a (i : ι) : Is (Factory.a i : Expr (Gen ι) S) (repU (.boson false i)) := by simpa [evalMon, cDag, c, aDag, Factory.a] using Is.mon (S := S) [.boson false i] (by simp [Allowed])
theorem is_n (i : ι) : Is (n i : Expr (Gen ι) S) (repU (.fermion true i) * repU (.fermion false i)) := by
  simpa [evalMon, n] using Is.mon (S := S) [.fermion true i, .fermion false i] (by simp [Allowed])

/-- A loop that adds up contributions. -/
theorem Is.loop {X : Type _} {f : Expr (Gen ι) S → X → Expr (Gen ι) S} {v : X → Module.End S (V ι S)}
    (h : ∀ e y k, Is e y → Is (f e k) (y + v k)) (l : List X) {e : Expr (Gen ι) S} {y : Module.End S (V ι S)} (he : Is e y) :
    Is (l.foldl f e) (y + (l.map v).sum) := by
  induction l generalizing e y with
  | nil => simpa using he
  | cons k l ih => rw [List.foldl_cons, List.map_cons, List.sum_cons, ← add_assoc]; exact ih (h _ _ _ he)

theorem Is.opt {p : Bool} {f : Expr (Gen ι) S} {v : Module.End S (V ι S)} (h : Is (a + f) (x + v)) (ha : Is a x) :
    Is (if p then a + f else a) (x + if p then v else 0) := by
  cases p
  · simpa using ha
  · simpa using h
end

/-- Are the sites neighbours? -/
def adj (wx wy : Int) (ix iy jx jy : Nat) : Bool := (neighbors wx ix jx && iy == jy) || (ix == jx && neighbors wy iy jy)

/-- The sites of the lattice. -/
def sites (Nx Ny : Nat) : List (Nat × Nat) := List.range Nx ×ˢ List.range Ny

/-- Spins and pairs of neighbouring sites. -/
def bonds (Nx Ny : Nat) (wx wy : Int) : List (Bool × (Nat × Nat) × Nat × Nat) :=
  ([true, false] ×ˢ sites Nx Ny ×ˢ sites Nx Ny).filter fun q => adj wx wy q.2.1.1 q.2.1.2 q.2.2.1 q.2.2.2

/-- The terms of the loops. -/
def hopTerms (el : Nat → Nat → Bool → ι) (Nx Ny : Nat) (wx wy : Int) (t : S) : List (List (Gen ι) × S) :=
  (bonds Nx Ny wx wy).map fun q => ([.fermion true (el q.2.1.1 q.2.1.2 q.1), .fermion false (el q.2.2.1 q.2.2.2 q.1)], -t)

/-- `n_i n_j` in normal order. -/
def pair (i j : ι) : List (Gen ι) := [.fermion true (min i j), .fermion true (max i j), .fermion false (max i j), .fermion false (min i j)]

def coulombTerms (el : Nat → Nat → Bool → ι) (Nx Ny : Nat) (U : S) : List (List (Gen ι) × S) :=
  (sites Nx Ny).map fun q => (pair (el q.1 q.2 true) (el q.1 q.2 false), U)

def phononTerms (ph : Nat → Nat → ι) (Nx Ny : Nat) (w : S) : List (List (Gen ι) × S) :=
  (sites Nx Ny).map fun q => ([.boson true (ph q.1 q.2), .boson false (ph q.1 q.2)], w)

def couplingTerms (el : Nat → Nat → Bool → ι) (ph : Nat → Nat → ι) (Nx Ny : Nat) (g : S) : List (List (Gen ι) × S) :=
  ([true, false] ×ˢ sites Nx Ny ×ˢ [true, false]).map fun q =>
    ([.fermion true (el q.2.1.1 q.2.1.2 q.1), .fermion false (el q.2.1.1 q.2.1.2 q.1), .boson q.2.2 (ph q.2.1.1 q.2.1.2)], g)

theorem sum_product {X Y A : Type _} [AddMonoid A] (l : List X) (m : List Y) (v : X × Y → A) :
    ((l ×ˢ m).map v).sum = (l.map fun a => (m.map fun b => v (a, b)).sum).sum := by
  induction l with
  | nil => rfl
  | cons a l ih =>
    rw [List.product_cons, List.map_append, List.sum_append, ih, List.map_cons, List.sum_cons, List.map_map]
    rfl

theorem sum_filter {X A : Type _} [AddMonoid A] (l : List X) (p : X → Bool) (v : X → A) :
    ((l.filter p).map v).sum = (l.map fun a => if p a then v a else 0).sum := by
  induction l with
  | nil => rfl
  | cons a l ih =>
    rw [List.filter_cons, List.map_cons, List.sum_cons, ← ih]
    split <;> simp

theorem evalTerms_map {X : Type _} (ρ : Gen ι → Module.End S (V ι S)) (l : List X) (f : X → List (Gen ι) × S) :
    evalTerms ρ (l.map f) = (l.map fun x => (f x).2 • evalMon ρ (f x).1).sum := by
  simp [evalTerms, List.map_map, Function.comp_def]

theorem evalTerms_append (ρ : Gen ι → Module.End S (V ι S)) (t u : List (List (Gen ι) × S)) : evalTerms ρ (t ++ u) = evalTerms ρ t + evalTerms ρ u := by
  simp [evalTerms]

variable {e : Expr (Gen ι) S} {y : Module.End S (V ι S)} (he : Is e y) (el : Nat → Nat → Bool → ι) (ph : Nat → Nat → ι) (Nx Ny : Nat)
include he

theorem is_hopping (wx wy : Int) (t : S) : Is (hopping el Nx Ny wx wy t e) (y + evalTerms repU (hopTerms el Nx Ny wx wy t)) := by
  simp only [hopping, hopTerms, bonds, sites, evalTerms_map, sum_filter, sum_product]
  refine Is.loop (fun e y s he => ?_) _ he
  refine Is.loop (fun e y ix he => ?_) _ he
  refine Is.loop (fun e y iy he => ?_) _ he
  refine Is.loop (fun e y jx he => ?_) _ he
  refine Is.loop (fun e y jy he => ?_) _ he
  rw [show (-t) • evalMon repU [Gen.fermion true (el ix iy s), .fermion false (el jx jy s)] =
    (-t) • repU (S := S) (.fermion true (el ix iy s)) * repU (.fermion false (el jx jy s)) by
      rw [smul_mul_assoc]; simp only [evalMon, List.map_cons, List.map_nil, List.prod_cons, List.prod_nil, mul_one]]
  exact Is.opt (he.add ((Is.smul _ (is_cDag _)).mul (is_c _))) he

theorem is_coulomb (U : S) (hne : ∀ ix iy, el ix iy true ≠ el ix iy false) :
    Is (coulomb el Nx Ny U e) (y + evalTerms repU (coulombTerms el Nx Ny U)) := by
  simp only [coulomb, coulombTerms, sites, evalTerms_map, sum_product]
  refine Is.loop (fun e y ix he => ?_) _ he
  refine Is.loop (fun e y iy he => ?_) _ he
  have h := he.add ((Is.smul U (is_n (el ix iy true))).mul (is_n (el ix iy false)))
  have T := repU_core (ι := ι) (S := S) fun _ _ => False
  have key : ∀ i j : ι, i ≠ j → repU (S := S) (.fermion true i) * repU (.fermion false i) * (repU (.fermion true j) * repU (.fermion false j)) =
      repU (.fermion true i) * (repU (.fermion true j) * (repU (.fermion false j) * repU (.fermion false i))) := by
    intro i j hij
    have h1 := T.car false i true j
    have h2 := T.car false i false j
    rw [if_neg (by tauto)] at h1 h2
    set p := repU (S := S) (.fermion true i); set q := repU (S := S) (.fermion false i)
    set r := repU (S := S) (.fermion true j); set s := repU (S := S) (.fermion false j)
    have h3 : p * q * (r * s) - p * (r * (s * q)) = p * (q * r + r * q) * s - p * r * (q * s + s * q) := by noncomm_ring
    rw [h1, h2] at h3
    exact sub_eq_zero.1 (h3.trans (by simp))
  have e2 : U • evalMon repU (pair (el ix iy true) (el ix iy false)) = U • (repU (S := S) (.fermion true (el ix iy true)) * repU (.fermion false (el ix iy true))) *
      (repU (.fermion true (el ix iy false)) * repU (.fermion false (el ix iy false))) := by
    simp only [evalMon, pair, List.map_cons, List.map_nil, List.prod_cons, List.prod_nil, mul_one, List.sum_cons, List.sum_nil, add_zero]
    rw [smul_mul_assoc]
    congr 1
    rcases lt_or_gt_of_ne (hne ix iy) with hlt | hlt
    · rw [min_eq_left hlt.le, max_eq_right hlt.le, key _ _ hlt.ne]
    · rw [min_eq_right hlt.le, max_eq_left hlt.le, ← key _ _ hlt.ne]
      have c1 := counter_comm T (.fermion (el ix iy false)) trivial (.fermion true (el ix iy true)) trivial
      have c2 := counter_comm T (.fermion (el ix iy false)) trivial (.fermion false (el ix iy true)) trivial
      simp only [Gen.mode, Mode.fermion.injEq, hlt.ne', if_false, counterVal, sub_eq_zero] at c1 c2
      rw [mul_assoc (repU (S := S) (.fermion true (el ix iy true))), ← c2, ← mul_assoc (repU (S := S) (.fermion true (el ix iy true))), ← c1]
      noncomm_ring
  rw [e2]
  exact h

theorem is_phonons : Is (phonons ph Nx Ny e) (y + evalTerms repU (phononTerms ph Nx Ny (1 : S))) := by
  simp only [phonons, phononTerms, sites, evalTerms_map, sum_product]
  refine Is.loop (fun e y ix he => ?_) _ he
  refine Is.loop (fun e y iy he => ?_) _ he
  simpa [evalTerms, evalMon] using he.add ((is_aDag (ph ix iy)).mul (is_a (ph ix iy)))

theorem is_phononsW (w : S) : Is (phononsW ph Nx Ny w e) (y + evalTerms repU (phononTerms ph Nx Ny w)) := by
  simp only [phononsW, phononTerms, sites, evalTerms_map, sum_product]
  refine Is.loop (fun e y ix he => ?_) _ he
  refine Is.loop (fun e y iy he => ?_) _ he
  simpa [evalTerms, evalMon] using he.add ((Is.smul w (is_aDag (ph ix iy))).mul (is_a (ph ix iy)))

theorem is_coupling (g : S) : Is (coupling el ph Nx Ny g e) (y + evalTerms repU (couplingTerms el ph Nx Ny g)) := by
  simp only [coupling, couplingTerms, sites, evalTerms_map, sum_product]
  refine Is.loop (fun e y s he => ?_) _ he
  refine Is.loop (fun e y ix he => ?_) _ he
  refine Is.loop (fun e y iy he => ?_) _ he
  have h := he.add ((Is.smul g (is_n (el ix iy s))).mul ((is_aDag (ph ix iy)).add (is_a (ph ix iy))))
  simpa [evalTerms, evalMon, mul_add, mul_assoc] using h

omit he

/-! ### the stored terms -/

theorem canon_fb {m : List (Gen ι)} (h1 : ∀ g ∈ m, FB g) (h2 : m.IsChain (OKPair (G := Gen ι))) : CanonMon (FB : Gen ι → Prop) m := by
  refine ⟨h1, h2, fun g hg p _ _ => ?_⟩
  have := h1 g hg
  cases g with
  | fermion d i => rfl
  | boson d i => rfl
  | spin n c i => exact this.elim

theorem canon_hop (i j : ι) : CanonMon (FB : Gen ι → Prop) [.fermion true i, .fermion false j] :=
  canon_fb (by simp [Allowed]) (by simp [OKPair, GenOps.gt, GenOps.simplifyProd, Gen.gtOp, Gen.simplifyProd, Gen.algebraId, Gen.greater, Gen.eqOp, Gen.equal])

theorem canon_pair {i j : ι} (h : i ≠ j) : CanonMon (FB : Gen ι → Prop) (pair i j) := by
  refine canon_fb (by simp [Allowed, pair]) ?_
  simpa [pair, OKPair, GenOps.gt, GenOps.simplifyProd, Gen.gtOp, Gen.simplifyProd, Gen.algebraId, Gen.greater, Gen.eqOp, Gen.equal] using h

theorem canon_phonon (i : ι) : CanonMon (FB : Gen ι → Prop) [.boson true i, .boson false i] :=
  canon_fb (by simp [Allowed]) (by simp [OKPair, GenOps.gt, GenOps.simplifyProd, Gen.gtOp, Gen.simplifyProd, Gen.algebraId, Gen.greater, Gen.eqOp, Gen.equal])

theorem canon_coupling (i j : ι) (d : Bool) : CanonMon (FB : Gen ι → Prop) [.fermion true i, .fermion false i, .boson d j] :=
  canon_fb (by simp [Allowed]) (by simp [OKPair, GenOps.gt, GenOps.simplifyProd, Gen.gtOp, Gen.simplifyProd, Gen.algebraId, Gen.greater, Gen.eqOp, Gen.equal])

/-- Different orbitals have different indices. -/
structure Inj (el : Nat → Nat → Bool → ι) (ph : Nat → Nat → ι) : Prop where
  el : ∀ x y s x' y' s', el x y s = el x' y' s' → x = x' ∧ y = y' ∧ s = s'
  ph : ∀ x y x' y', ph x y = ph x' y' → x = x' ∧ y = y'

theorem nodup_sites : (sites Nx Ny).Nodup := List.nodup_range.product List.nodup_range

theorem nodup_bonds (wx wy : Int) : (bonds Nx Ny wx wy).Nodup :=
  ((by decide : [true, false].Nodup).product ((nodup_sites Nx Ny).product (nodup_sites Nx Ny))).filter _

variable {el ph} (hi : Inj el ph) (S)
include hi

theorem nodup_hop (wx wy : Int) (t : S) : ((hopTerms el Nx Ny wx wy t).map Prod.fst).Nodup := by
  rw [hopTerms, List.map_map]
  refine (nodup_bonds Nx Ny wx wy).map ?_
  rintro ⟨s, ⟨a, b⟩, c, d⟩ ⟨s', ⟨a', b'⟩, c', d'⟩ h
  simp only [Function.comp, List.cons.injEq, Gen.fermion.injEq, true_and, and_true] at h
  obtain ⟨rfl, rfl, rfl⟩ := hi.el _ _ _ _ _ _ h.1
  obtain ⟨rfl, rfl, _⟩ := hi.el _ _ _ _ _ _ h.2
  rfl

theorem pair_inj {i j i' j' : ι} (h : pair i j = pair i' j') : (i = i' ∧ j = j') ∨ (i = j' ∧ j = i') := by
  simp only [pair, List.cons.injEq, Gen.fermion.injEq, true_and, and_true] at h
  obtain ⟨h1, h2, -⟩ := h
  rcases le_total i j with h3 | h3 <;> rcases le_total i' j' with h4 | h4 <;> simp only [min_eq_left, min_eq_right, max_eq_left, max_eq_right, h3, h4] at h1 h2 <;> simp [h1, h2]

theorem nodup_coulomb (U : S) : ((coulombTerms el Nx Ny U).map Prod.fst).Nodup := by
  rw [coulombTerms, List.map_map]
  refine (nodup_sites Nx Ny).map ?_
  rintro ⟨a, b⟩ ⟨a', b'⟩ h
  rcases pair_inj hi h with h | h
  · obtain ⟨rfl, rfl, _⟩ := hi.el _ _ _ _ _ _ h.1; rfl
  · obtain ⟨_, _, h⟩ := hi.el _ _ _ _ _ _ h.1; exact absurd h (by simp)

theorem nodup_phonon (w : S) : ((phononTerms ph Nx Ny w).map Prod.fst).Nodup := by
  rw [phononTerms, List.map_map]
  refine (nodup_sites Nx Ny).map ?_
  rintro ⟨a, b⟩ ⟨a', b'⟩ h
  simp only [Function.comp, List.cons.injEq, Gen.boson.injEq, true_and, and_true] at h
  obtain ⟨rfl, rfl⟩ := hi.ph _ _ _ _ h.1; rfl

theorem nodup_coupling (g : S) : ((couplingTerms el ph Nx Ny g).map Prod.fst).Nodup := by
  rw [couplingTerms, List.map_map]
  refine ((by decide : [true, false].Nodup).product ((nodup_sites Nx Ny).product (by decide))).map ?_
  rintro ⟨s, ⟨a, b⟩, d⟩ ⟨s', ⟨a', b'⟩, d'⟩ h
  simp only [Function.comp, List.cons.injEq, Gen.fermion.injEq, Gen.boson.injEq, true_and, and_true] at h
  obtain ⟨rfl, rfl, rfl⟩ := hi.el _ _ _ _ _ _ h.1
  obtain ⟨_, rfl, _⟩ := h.2
  rfl

omit hi
variable {S} (wx wy : Int) (t U w g : S)

/-- All terms. -/
def allTerms (el : Nat → Nat → Bool → ι) (ph : Nat → Nat → ι) (Nx Ny : Nat) (wx wy : Int) (t w g : S) (cou : List (List (Gen ι) × S)) :
    List (List (Gen ι) × S) :=
  hopTerms el Nx Ny wx wy t ++ cou ++ phononTerms ph Nx Ny w ++ couplingTerms el ph Nx Ny g

include hi
theorem perm_of_value (hz : t ≠ 0 ∧ w ≠ 0 ∧ g ≠ 0) (hU : cou = [] ∨ cou = coulombTerms el Nx Ny U ∧ U ≠ 0) {e : Expr (Gen ι) S}
    (he : Is e (evalTerms repU (allTerms el ph Nx Ny wx wy t w g cou))) : e.terms.Perm (allTerms el ph Nx Ny wx wy t w g cou) := by
  have hne : ∀ a b, el a b true ≠ el a b false := fun a b h => by have := hi.el _ _ _ _ _ _ h; simp at this
  refine terms_perm hFB he.1 ?_ ?_ ?_ he.2
  · intro p hp
    simp only [allTerms, List.mem_append, hopTerms, phononTerms, couplingTerms, List.mem_map] at hp
    rcases hp with ((⟨q, _, rfl⟩ | hp) | ⟨q, _, rfl⟩) | ⟨q, _, rfl⟩
    · exact canon_hop _ _
    · rcases hU with rfl | ⟨rfl, -⟩
      · simp at hp
      · obtain ⟨q, _, rfl⟩ := List.mem_map.1 hp; exact canon_pair (hne _ _)
    · exact canon_phonon _
    · exact canon_coupling _ _ _
  · intro p hp
    simp only [allTerms, List.mem_append, hopTerms, phononTerms, couplingTerms, List.mem_map] at hp
    rcases hp with ((⟨q, _, rfl⟩ | hp) | ⟨q, _, rfl⟩) | ⟨q, _, rfl⟩
    · exact neg_ne_zero.2 hz.1
    · rcases hU with rfl | ⟨rfl, h⟩
      · simp at hp
      · obtain ⟨q, _, rfl⟩ := List.mem_map.1 hp; exact h
    · exact hz.2.1
    · exact hz.2.2
  · have hc : (cou.map Prod.fst).Nodup := by
      rcases hU with rfl | ⟨rfl, -⟩
      · simp
      · exact nodup_coulomb S Nx Ny hi U
    have hcm : ∀ m ∈ cou.map Prod.fst, m.length = 4 := by
      rcases hU with rfl | ⟨rfl, -⟩
      · simp
      · intro m hm
        simp only [coulombTerms, List.map_map, List.mem_map] at hm
        obtain ⟨q, _, rfl⟩ := hm; rfl
    have hh : ∀ m ∈ (hopTerms el Nx Ny wx wy t).map Prod.fst, ∃ i j, m = [.fermion true i, .fermion false j] := by
      intro m hm
      simp only [hopTerms, List.map_map, List.mem_map] at hm
      obtain ⟨q, _, rfl⟩ := hm; exact ⟨_, _, rfl⟩
    have hp : ∀ m ∈ (phononTerms ph Nx Ny w).map Prod.fst, ∃ i j, m = [.boson true i, .boson false j] := by
      intro m hm
      simp only [phononTerms, List.map_map, List.mem_map] at hm
      obtain ⟨q, _, rfl⟩ := hm; exact ⟨_, _, rfl⟩
    have hk : ∀ m ∈ (couplingTerms el ph Nx Ny g).map Prod.fst, m.length = 3 := by
      intro m hm
      simp only [couplingTerms, List.map_map, List.mem_map] at hm
      obtain ⟨q, _, rfl⟩ := hm; rfl
    simp only [allTerms, List.map_append, List.nodup_append']
    refine ⟨⟨⟨nodup_hop S Nx Ny hi wx wy t, hc, ?_⟩, nodup_phonon S Nx Ny hi w, ?_⟩, nodup_coupling S Nx Ny hi g, ?_⟩
    · intro m h1 h2
      obtain ⟨i, j, rfl⟩ := hh m h1
      exact absurd (hcm _ h2) (by simp)
    · intro m h1 h2
      obtain ⟨i, j, rfl⟩ := hp m h2
      rcases List.mem_append.1 h1 with h1 | h1
      · obtain ⟨i', j', h⟩ := hh _ h1; simp at h
      · exact absurd (hcm _ h1) (by simp)
    · intro m h1 h2
      have h3 := hk m h2
      rcases List.mem_append.1 h1 with h1 | h1
      · rcases List.mem_append.1 h1 with h1 | h1
        · obtain ⟨i', j', rfl⟩ := hh _ h1; simp at h3
        · have := hcm _ h1; omega
      · obtain ⟨i', j', rfl⟩ := hp _ h1; simp at h3

omit hi

theorem is_hubbard (hne : ∀ a b, el a b true ≠ el a b false) : Is (hubbardHolstein el ph Nx Ny t U g)
    (evalTerms repU (allTerms el ph Nx Ny ((Nx : Int) - 1) ((Ny : Int) - 1) t 1 g (coulombTerms el Nx Ny U))) := by
  have h := is_coupling (is_phonons (is_coulomb (is_hopping Is.zero el Nx Ny ((Nx : Int) - 1) ((Ny : Int) - 1) t) el Nx Ny U hne) ph Nx Ny) el ph Nx Ny g
  rw [zero_add] at h
  simpa only [hubbardHolstein, allTerms, evalTerms_append] using h

theorem is_holstein (N : Nat) : Is (holstein el ph N t w g) (evalTerms repU (allTerms el ph N N N N t w g [])) := by
  have h := ((is_hopping Is.zero el N N N N t).add (is_phononsW Is.zero ph N N w)).add (is_coupling Is.zero el ph N N g)
  simp only [zero_add] at h
  simpa only [holstein, allTerms, evalTerms_append, List.append_nil] using h

end Lattice
end LC
