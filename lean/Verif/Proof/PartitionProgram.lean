import Verif.Model.PartitionProgram
import Verif.Proof.HubbardPrograms
/-
Proofs for C116: the stored terms of the Hamiltonian of examples/partition.cpp.
-/
set_option linter.unusedSectionVars false
set_option linter.unusedSimpArgs false
namespace LC
namespace Atom
open Expr Factory Reg LC.Lattice
variable {ι S : Type _} [LinearOrder ι] [CommRing S] [DecidableEq S] [ConstScalar S] [ScalarLaws S] [IsDomain S] [CharZero S] [Star S]
variable {e : Expr (Gen ι) S} {y : Module.End S (V ι S)} {el : Bool → Nat → ι}

/-- Different orbitals have different indices, and `("dn", o)` comes before `("up", o')`. -/
structure Ordered (el : Bool → Nat → ι) : Prop where
  inj : ∀ s o o', el s o = el s o' → o = o'
  lt : ∀ o o', el false o < el true o'

theorem Ordered.ne (h : Ordered el) (o o' : Nat) : el true o ≠ el false o' := (h.lt o' o).ne'
theorem Ordered.inj2 (h : Ordered el) {s s' : Bool} {o o' : Nat} (e : el s o = el s' o') : s = s' ∧ o = o' := by
  cases s <;> cases s'
  · exact ⟨rfl, h.inj _ _ _ e⟩
  · exact absurd e.symm (h.ne _ _)
  · exact absurd e (h.ne _ _)
  · exact ⟨rfl, h.inj _ _ _ e⟩

/-- The product of the density operators of two modes, normal ordered. -/
theorem pair_value (U : S) {i j : ι} (hij : i ≠ j) : U • evalMon (repU (S := S)) (pair i j) =
    U • (repU (S := S) (.fermion true i) * repU (.fermion false i)) * (repU (.fermion true j) * repU (.fermion false j)) := by
  have T := repU_core (ι := ι) (S := S) fun _ _ => False
  have key : ∀ i j : ι, i ≠ j → repU (S := S) (.fermion true i) * repU (.fermion false i) * (repU (.fermion true j) * repU (.fermion false j)) =
      repU (.fermion true i) * (repU (.fermion true j) * (repU (.fermion false j) * repU (.fermion false i))) := by
    intro i j hij
    have h1 := T.car false i true j
    have h2 := T.car false i false j
    rw [if_neg (by tauto)] at h1 h2
    set p := repU (S := S) (.fermion true i); set q := repU (S := S) (.fermion false i)
    set r := repU (S := S) (.fermion true j); set s := repU (S := S) (.fermion false j)
    have h3 : p * q * (r * s) - p * (r * (s * q)) = p * (q * r + r * q) * s - p * r * (q * s + s * q) := by noncomm_ring
    rw [h1, h2] at h3
    exact sub_eq_zero.1 (h3.trans (by simp))
  simp only [evalMon, pair, List.map_cons, List.map_nil, List.prod_cons, List.prod_nil, mul_one, List.sum_cons, List.sum_nil, add_zero]
  rw [smul_mul_assoc]
  congr 1
  rcases lt_or_gt_of_ne hij with hlt | hlt
  · rw [min_eq_left hlt.le, max_eq_right hlt.le, key _ _ hlt.ne]
  · rw [min_eq_right hlt.le, max_eq_left hlt.le, ← key _ _ hlt.ne]
    have c1 := counter_comm T (.fermion j) trivial (.fermion true i) trivial
    have c2 := counter_comm T (.fermion j) trivial (.fermion false i) trivial
    simp only [Gen.mode, Mode.fermion.injEq, hlt.ne', if_false, counterVal, sub_eq_zero] at c1 c2
    rw [mul_assoc (repU (S := S) (.fermion true i)), ← c2, ← mul_assoc (repU (S := S) (.fermion true i)), ← c1]
    noncomm_ring

theorem pair_eq {i j i' j' : ι} (h : pair i j = pair i' j') : (i = i' ∧ j = j') ∨ (i = j' ∧ j = i') := by
  simp only [pair, List.cons.injEq, Gen.fermion.injEq, true_and] at h
  obtain ⟨h1, h2, -⟩ := h
  rcases le_total i j with a | a <;> rcases le_total i' j' with b | b <;> simp only [a, b, min_eq_left, min_eq_right, max_eq_left, max_eq_right] at h1 h2 <;> tauto

/-- `c_dag("dn", p) c_dag("up", q) c("up", r) c("dn", s)`. -/
def quad (el : Bool → Nat → ι) (p q r s : Nat) : List (Gen ι) :=
  [.fermion true (el false p), .fermion true (el true q), .fermion false (el true r), .fermion false (el false s)]

theorem quad_value (J : S) (p q r s : Nat) : J • evalMon (repU (S := S)) (quad el p q r s) =
    (-J) • repU (S := S) (.fermion true (el true q)) * repU (.fermion true (el false p)) * repU (.fermion false (el true r)) * repU (.fermion false (el false s)) := by
  have T := repU_core (ι := ι) (S := S) fun _ _ => False
  have h1 := T.car true (el true q) true (el false p)
  rw [if_neg (by simp)] at h1
  simp only [evalMon, quad, List.map_cons, List.map_nil, List.prod_cons, List.prod_nil, mul_one, smul_mul_assoc]
  have hneg : ∀ x : Module.End S (V ι S), (-J) • x = J • (-x) := fun x => (neg_smul J x).trans (smul_neg J x).symm
  rw [hneg]
  congr 1
  set a := repU (S := S) (.fermion true (el true q)); set b := repU (S := S) (.fermion true (el false p))
  set x := repU (S := S) (.fermion false (el true r)); set z := repU (S := S) (.fermion false (el false s))
  have h3 : b * (a * (x * z)) - -(a * b * x * z) = (a * b + b * a) * x * z := by noncomm_ring
  rw [h1] at h3
  exact sub_eq_zero.1 (h3.trans (by simp))

/-- Pairs of different orbitals. -/
def offDiag (n : Nat) : List (Nat × Nat) := (List.range n ×ˢ List.range n).filter fun q => !(q.1 == q.2)
/-- Pairs of orbitals in decreasing order. -/
def below (n : Nat) : List (Nat × Nat) := (List.range n ×ˢ List.range n).filter fun q => !(decide (q.2 ≥ q.1))

def chemTerms (el : Bool → Nat → ι) (n : Nat) (mu : S) : List (List (Gen ι) × S) :=
  (List.range n ×ˢ [true, false]).map fun q => ([.fermion true (el q.2 q.1), .fermion false (el q.2 q.1)], -mu)
def intraTerms (el : Bool → Nat → ι) (n : Nat) (U : S) : List (List (Gen ι) × S) := (List.range n).map fun o => (pair (el true o) (el false o), U)
def diffTerms (el : Bool → Nat → ι) (n : Nat) (V : S) : List (List (Gen ι) × S) := (offDiag n).map fun q => (pair (el true q.1) (el false q.2), V)
def sameTerms (el : Bool → Nat → ι) (n : Nat) (V : S) : List (List (Gen ι) × S) :=
  (below n ×ˢ [true, false]).map fun q => (pair (el q.2 q.1.1) (el q.2 q.1.2), V)
/-- The monomial of a pair hopping or of a spin flip. -/
def exch (el : Bool → Nat → ι) (hop : Bool) (o1 o2 : Nat) : List (Gen ι) := if hop then quad el o1 o1 o2 o2 else quad el o2 o1 o2 o1
def exchTerms (el : Bool → Nat → ι) (n : Nat) (J : S) : List (List (Gen ι) × S) :=
  (offDiag n ×ˢ [true, false]).map fun q => (exch el q.2 q.1.1 q.1.2, J)

theorem is_chemical (he : Is e y) (n : Nat) (mu : S) : Is (chemical el n mu e) (y + evalTerms repU (chemTerms el n mu)) := by
  simp only [chemical, chemTerms, evalTerms_map, sum_product]
  refine Is.loop (fun e y o he => ?_) _ he
  have h := he.add (Is.smul (-mu) ((is_n (el true o)).add (is_n (el false o))))
  rw [smul_add] at h
  simpa only [evalMon, List.map_cons, List.map_nil, List.prod_cons, List.prod_nil, mul_one, List.sum_cons, List.sum_nil, add_zero] using h

theorem is_intra (hd : Ordered el) (he : Is e y) (n : Nat) (U : S) : Is (intra el n U e) (y + evalTerms repU (intraTerms el n U)) := by
  simp only [intra, intraTerms, evalTerms_map]
  refine Is.loop (fun e y o he => ?_) _ he
  rw [pair_value U (hd.ne o o)]
  exact he.add ((Is.smul U (is_n (el true o))).mul (is_n (el false o)))

theorem is_diff (hd : Ordered el) (he : Is e y) (n : Nat) (U J : S) :
    Is (interDiff el n U J e) (y + evalTerms repU (diffTerms el n (U - 2 * J))) := by
  simp only [interDiff, diffTerms, offDiag, evalTerms_map, sum_filter, sum_product]
  refine Is.loop (fun e y o1 he => ?_) _ he
  refine Is.loop (fun e y o2 he => ?_) _ he
  rw [pair_value _ (hd.ne o1 o2)]
  exact Is.opt (he.add ((Is.smul _ (is_n (el true o1))).mul (is_n (el false o2)))) he

theorem is_same (hd : Ordered el) (he : Is e y) (n : Nat) (U J : S) :
    Is (interSame el n U J e) (y + evalTerms repU (sameTerms el n (U - 3 * J))) := by
  simp only [interSame, sameTerms, below, evalTerms_map, sum_filter, sum_product]
  refine Is.loop (fun e y o1 he => ?_) _ he
  refine Is.loop (fun e y o2 he => ?_) _ he
  by_cases hlt : o2 < o1
  · have hne : ∀ s, el s o1 ≠ el s o2 := fun s h => by have := hd.inj _ _ _ h; omega
    have hp : (!decide (o2 ≥ o1)) = true := by simpa using hlt
    rw [if_pos hp, if_pos hp]
    simp only [List.map_cons, List.map_nil, List.sum_cons, List.sum_nil, add_zero]
    rw [pair_value _ (hne true), pair_value _ (hne false), ← add_assoc]
    exact (he.add ((Is.smul _ (is_n (el true o1))).mul (is_n (el true o2)))).add ((Is.smul _ (is_n (el false o1))).mul (is_n (el false o2)))
  · have hp : ¬ (!decide (o2 ≥ o1)) = true := by simpa using hlt
    rw [if_neg hp, if_neg hp, add_zero]
    exact he

theorem is_exchange (he : Is e y) (n : Nat) (J : S) :
    Is (exchange el n J e) (y + evalTerms repU (exchTerms el n J)) := by
  simp only [exchange, exchTerms, offDiag, evalTerms_map, sum_filter, sum_product]
  refine Is.loop (fun e y o1 he => ?_) _ he
  refine Is.loop (fun e y o2 he => ?_) _ he
  by_cases hp : (!(o1 == o2)) = true
  · rw [if_pos hp, if_pos hp]
    simp only [List.map_cons, List.map_nil, List.sum_cons, List.sum_nil, add_zero, exch, if_true, Bool.false_eq_true, if_false]
    rw [quad_value, quad_value, ← add_assoc]
    exact (he.add ((((Is.smul _ (is_cDag _)).mul (is_cDag _)).mul (is_c _)).mul (is_c _))).add
      ((((Is.smul _ (is_cDag _)).mul (is_cDag _)).mul (is_c _)).mul (is_c _))
  · rw [if_neg hp, if_neg hp, add_zero]
    exact he

/-- All terms, some of which may have zero coefficients. -/
def allTerms (el : Bool → Nat → ι) (n : Nat) (mu U J : S) : List (List (Gen ι) × S) :=
  chemTerms el n mu ++ intraTerms el n U ++ diffTerms el n (U - 2 * J) ++ sameTerms el n (U - 3 * J) ++ exchTerms el n J

theorem is_ham (hd : Ordered el) (n : Nat) (mu U J : S) : Is (ham el n mu U J) (evalTerms repU (allTerms el n mu U J)) := by
  have h := is_exchange (el := el) (is_same hd (is_diff hd (is_intra hd (is_chemical (el := el) Is.zero n mu) n U) n U J) n U J) n J
  rw [zero_add] at h
  simpa only [ham, allTerms, evalTerms_append] using h

theorem evalTerms_filter (ρ : Gen ι → Module.End S (V ι S)) (l : List (List (Gen ι) × S)) :
    evalTerms ρ (l.filter fun p => decide (p.2 ≠ 0)) = evalTerms ρ l := by
  induction l with
  | nil => rfl
  | cons p l ih =>
    by_cases h : p.2 = 0
    · rw [List.filter_cons_of_neg (by simpa using h), ih]
      simp [evalTerms, h]
    · rw [List.filter_cons_of_pos (by simpa using h)]
      simp only [evalTerms, List.map_cons, List.sum_cons] at ih ⊢
      rw [ih]

theorem canon_quad (hd : Ordered el) (p q r s : Nat) : CanonMon (FB : Gen ι → Prop) (quad el p q r s) := by
  refine canon_fb (by simp [Allowed, quad]) ?_
  have h1 := hd.lt p q
  have h2 := hd.lt s r
  simp [quad, OKPair, GenOps.gt, GenOps.simplifyProd, Gen.gtOp, Gen.simplifyProd, Gen.algebraId, Gen.greater, Gen.eqOp, Gen.equal, h1, h2, h1.ne, h2.ne, h1.le, h2.le, h1.ne', h2.ne', h1.not_gt, h2.not_gt]

theorem mem_offDiag {n : Nat} {q : Nat × Nat} : q ∈ offDiag n ↔ q.1 < n ∧ q.2 < n ∧ q.1 ≠ q.2 := by
  rcases q with ⟨a, b⟩
  rw [offDiag, List.mem_filter, List.mem_product]
  simp [and_assoc]
theorem mem_below {n : Nat} {q : Nat × Nat} : q ∈ below n ↔ q.1 < n ∧ q.2 < n ∧ q.2 < q.1 := by
  rcases q with ⟨a, b⟩
  rw [below, List.mem_filter, List.mem_product]
  simp [and_assoc]

theorem nodup_offDiag (n : Nat) : (offDiag n).Nodup := (List.nodup_range.product List.nodup_range).filter _
theorem nodup_below (n : Nat) : (below n).Nodup := (List.nodup_range.product List.nodup_range).filter _

theorem quad_inj (hd : Ordered el) {p q r s p' q' r' s' : Nat} (h : quad el p q r s = quad el p' q' r' s') :
    p = p' ∧ q = q' ∧ r = r' ∧ s = s' := by
  simp only [quad, List.cons.injEq, Gen.fermion.injEq, true_and, and_true] at h
  exact ⟨hd.inj _ _ _ h.1, hd.inj _ _ _ h.2.1, hd.inj _ _ _ h.2.2.1, hd.inj _ _ _ h.2.2.2⟩

theorem quad_pair (hd : Ordered el) {p q r s : Nat} {i j : ι} (h : quad el p q r s = pair i j) : p = s ∧ q = r := by
  simp only [quad, pair, List.cons.injEq, Gen.fermion.injEq, true_and, and_true] at h
  exact ⟨hd.inj _ _ _ (h.1.trans h.2.2.2.symm), hd.inj _ _ _ (h.2.1.trans h.2.2.1.symm)⟩

theorem exch_quad (el : Bool → Nat → ι) (b : Bool) (o1 o2 : Nat) : ∃ p q r s, exch el b o1 o2 = quad el p q r s ∧ (o1 ≠ o2 → p ≠ s ∧ q ≠ r) ∧
    p = (if b then o1 else o2) ∧ q = o1 ∧ r = o2 ∧ s = (if b then o2 else o1) := by
  cases b
  · exact ⟨o2, o1, o2, o1, rfl, fun h => ⟨h.symm, h⟩, rfl, rfl, rfl, rfl⟩
  · exact ⟨o1, o1, o2, o2, rfl, fun h => ⟨h, h⟩, rfl, rfl, rfl, rfl⟩

theorem nodup_all (hd : Ordered el) (n : Nat) (mu U J : S) : ((allTerms el n mu U J).map Prod.fst).Nodup := by
  simp only [allTerms, List.map_append, List.nodup_append']
  have hC : ∀ m ∈ (chemTerms el n mu).map Prod.fst, m.length = 2 := by
    intro m hm
    simp only [chemTerms, List.map_map, List.mem_map] at hm
    obtain ⟨q, _, rfl⟩ := hm; rfl
  have hI : ∀ m ∈ (intraTerms el n U).map Prod.fst, ∃ o, m = pair (el true o) (el false o) := by
    intro m hm
    simp only [intraTerms, List.map_map, List.mem_map] at hm
    obtain ⟨q, _, rfl⟩ := hm; exact ⟨_, rfl⟩
  have hD : ∀ m ∈ (diffTerms el n (U - 2 * J)).map Prod.fst, ∃ o o', o ≠ o' ∧ m = pair (el true o) (el false o') := by
    intro m hm
    simp only [diffTerms, List.map_map, List.mem_map] at hm
    obtain ⟨q, h, rfl⟩ := hm; exact ⟨_, _, (mem_offDiag.1 h).2.2, rfl⟩
  have hS : ∀ m ∈ (sameTerms el n (U - 3 * J)).map Prod.fst, ∃ s o o', o' < o ∧ m = pair (el s o) (el s o') := by
    intro m hm
    simp only [sameTerms, List.map_map, List.mem_map] at hm
    obtain ⟨q, h, rfl⟩ := hm; exact ⟨_, _, _, (mem_below.1 (List.mem_product.1 h).1).2.2, rfl⟩
  have hE : ∀ m ∈ (exchTerms el n J).map Prod.fst, ∃ p q r s, m = quad el p q r s ∧ p ≠ s := by
    intro m hm
    simp only [exchTerms, List.map_map, List.mem_map] at hm
    obtain ⟨q, h, rfl⟩ := hm
    obtain ⟨p', q', r', s', h1, h2, -⟩ := exch_quad el q.2 q.1.1 q.1.2
    exact ⟨_, _, _, _, h1, (h2 (mem_offDiag.1 (List.mem_product.1 h).1).2.2).1⟩
  refine ⟨⟨⟨⟨?_, ?_, ?_⟩, ?_, ?_⟩, ?_, ?_⟩, ?_, ?_⟩
  · rw [chemTerms, List.map_map]
    refine (List.nodup_range.product (by decide)).map ?_
    rintro ⟨a, s⟩ ⟨a', s'⟩ h
    simp only [Function.comp, List.cons.injEq, Gen.fermion.injEq, true_and, and_true] at h
    obtain ⟨rfl, rfl⟩ := hd.inj2 h.1
    rfl
  · rw [intraTerms, List.map_map]
    refine List.nodup_range.map ?_
    intro a a' h
    rcases pair_eq h with ⟨h1, -⟩ | ⟨h1, -⟩
    · exact (hd.inj2 h1).2
    · exact absurd h1 (hd.ne _ _)
  · intro m h1 h2
    obtain ⟨o, rfl⟩ := hI m h2
    have := hC _ h1
    simp [pair] at this
  · rw [diffTerms, List.map_map]
    refine (nodup_offDiag n).map ?_
    rintro ⟨a, b⟩ ⟨a', b'⟩ h
    rcases pair_eq h with ⟨h1, h2⟩ | ⟨h1, -⟩
    · exact Prod.ext (hd.inj2 h1).2 (hd.inj2 h2).2
    · exact absurd h1 (hd.ne _ _)
  · intro m h1 h2
    obtain ⟨o, o', hne, rfl⟩ := hD m h2
    rcases List.mem_append.1 h1 with h1 | h1
    · have := hC _ h1
      simp [pair] at this
    · obtain ⟨a, h⟩ := hI _ h1
      rcases pair_eq h with ⟨h1, h2⟩ | ⟨h1, -⟩
      · exact hne ((hd.inj2 h1).2.trans (hd.inj2 h2).2.symm)
      · exact absurd h1 (hd.ne _ _)
  · rw [sameTerms, List.map_map]
    refine List.Nodup.map_on ?_ ((nodup_below n).product (by decide))
    rintro ⟨⟨a, b⟩, s⟩ hx ⟨⟨a', b'⟩, s'⟩ hx' h
    have h3 := (mem_below.1 (List.mem_product.1 hx).1).2.2
    have h4 := (mem_below.1 (List.mem_product.1 hx').1).2.2
    simp only at h3 h4
    rcases pair_eq h with ⟨h1, h2⟩ | ⟨h1, h2⟩
    · simp only at h1 h2
      obtain ⟨rfl, rfl⟩ := hd.inj2 h1
      simp only [(hd.inj2 h2).2]
    · have e1 := (hd.inj2 h1).2
      have e2 := (hd.inj2 h2).2
      simp only at e1 e2
      omega
  · intro m h1 h2
    obtain ⟨s, o, o', hlt, rfl⟩ := hS m h2
    rcases List.mem_append.1 h1 with h1 | h1
    · rcases List.mem_append.1 h1 with h1 | h1
      · have := hC _ h1
        simp [pair] at this
      · obtain ⟨a, h⟩ := hI _ h1
        rcases pair_eq h with ⟨h1, h2⟩ | ⟨h1, h2⟩
        · have := (hd.inj2 h1).1.symm.trans (hd.inj2 h2).1; simp at this
        · have := (hd.inj2 h1).1.symm.trans (hd.inj2 h2).1; simp at this
    · obtain ⟨a, a', -, h⟩ := hD _ h1
      rcases pair_eq h with ⟨h1, h2⟩ | ⟨h1, h2⟩
      · have := (hd.inj2 h1).1.symm.trans (hd.inj2 h2).1; simp at this
      · have := (hd.inj2 h1).1.symm.trans (hd.inj2 h2).1; simp at this
  · rw [exchTerms, List.map_map]
    refine List.Nodup.map_on ?_ ((nodup_offDiag n).product (by decide))
    rintro ⟨⟨a, b⟩, s⟩ hx ⟨⟨a', b'⟩, s'⟩ hx' h
    have h3 := (mem_offDiag.1 (List.mem_product.1 hx).1).2.2
    have h4 := (mem_offDiag.1 (List.mem_product.1 hx').1).2.2
    simp only [Function.comp, exch] at h h3 h4
    cases s <;> cases s' <;> simp only [if_true, Bool.false_eq_true, if_false] at h <;> have := quad_inj hd h <;> simp <;> omega
  · intro m h1 h2
    obtain ⟨p, q, r, s, rfl, hne⟩ := hE m h2
    rcases List.mem_append.1 h1 with h1 | h1
    · rcases List.mem_append.1 h1 with h1 | h1
      · rcases List.mem_append.1 h1 with h1 | h1
        · have := hC _ h1
          simp [quad] at this
        · obtain ⟨a, h⟩ := hI _ h1
          exact hne (quad_pair hd h).1
      · obtain ⟨a, b, -, h⟩ := hD _ h1
        exact hne (quad_pair hd h).1
    · obtain ⟨a, b, c, -, h⟩ := hS _ h1
      exact hne (quad_pair hd h).1

theorem ham_perm (hd : Ordered el) (n : Nat) (mu U J : S) :
    (ham el n mu U J).terms.Perm ((allTerms el n mu U J).filter fun p => decide (p.2 ≠ 0)) := by
  have hI := is_ham hd n mu U J
  rw [← evalTerms_filter] at hI
  refine terms_perm hFB hI.1 ?_ (fun p hp => by simpa using (List.mem_filter.1 hp).2) ?_ hI.2
  · intro p hp
    replace hp := (List.mem_filter.1 hp).1
    simp only [allTerms, List.mem_append, chemTerms, intraTerms, diffTerms, sameTerms, exchTerms, List.mem_map] at hp
    rcases hp with (((⟨q, _, rfl⟩ | ⟨q, _, rfl⟩) | ⟨q, _, rfl⟩) | ⟨q, h, rfl⟩) | ⟨q, _, rfl⟩
    · exact canon_hop _ _
    · exact canon_pair (hd.ne _ _)
    · exact canon_pair (hd.ne _ _)
    · refine canon_pair fun h' => ?_
      have := (mem_below.1 (List.mem_product.1 h).1).2.2
      have := (hd.inj2 h').2
      omega
    · obtain ⟨p', q', r', s', h1, -⟩ := exch_quad el q.2 q.1.1 q.1.2
      simp only [h1]
      exact canon_quad hd _ _ _ _
  · exact (nodup_all hd n mu U J).sublist (List.Sublist.map _ List.filter_sublist)

end Atom
end LC
