import Verif.Proof.HubbardPrograms
/-
The Hubbard-Holstein chain: contributions of the loops and their values.
-/
set_option linter.unusedSectionVars false
set_option linter.unusedSimpArgs false
namespace LC
namespace Lattice
open HilbertSpace Expr Factory Reg
variable {ι S : Type _} [LinearOrder ι] [CommRing S] [DecidableEq S] [ConstScalar S] [ScalarLaws S] [IsDomain S] [CharZero S]
  [StarRing S] [Algebra ℝ S] {e : Expr (Gen ι) S} {y : Module.End S (V ι S)} {el : Nat → Nat → Bool → ι} {ph : Nat → Nat → ι}

/-- Hopping terms of the chain, in the order of the loops. -/
def chainHopTerms (el : Nat → Nat → Bool → ι) (L : Nat) (t : S) : List (List (Gen ι) × S) :=
  ([true, false] ×ˢ List.range (L - 1) ×ˢ [true, false]).map fun q =>
    ([.fermion true (el (if q.2.2 then q.2.1 else q.2.1 + 1) 0 q.1), .fermion false (el (if q.2.2 then q.2.1 + 1 else q.2.1) 0 q.1)], -t)

theorem is_pair (i j : ι) : Is (cDag i * c j : Expr (Gen ι) S) (repU (.fermion true i) * repU (.fermion false j)) := (is_cDag i).mul (is_c j)

theorem is_plusHc (i j : ι) : Is ((cDag i * c j : Expr (Gen ι) S).plusHc)
    (repU (.fermion true i) * repU (.fermion false j) + repU (.fermion true j) * repU (.fermion false i)) := by
  have h := is_pair (S := S) i j
  refine h.add ⟨h.1.conj, ?_⟩
  have hp : (cDag i * c j : Expr (Gen ι) S).terms.Perm [([.fermion true i, .fermion false j], 1)] := by
    refine terms_perm hFB h.1 ?_ ?_ ?_ ?_
    · simpa using canon_hop i j
    · simp
    · simp
    · have h2 : evalExpr (repU (S := S)) (cDag i * c j : Expr (Gen ι) S) = _ := h.2
      rw [h2]
      simp [evalTerms, evalMon]
  have := conj_value hFB h.1 hp
  rw [ev, this]
  simp [Gen.dag]

theorem is_chainHopping (he : Is e y) (el : Nat → Nat → Bool → ι) (L : Nat) (t : S) :
    Is (chainHopping el L t e) (y + evalTerms repU (chainHopTerms el L t)) := by
  simp only [chainHopping, chainHopTerms, evalTerms_map, sum_product]
  refine Is.loop (fun e y s he => ?_) _ he
  refine Is.loop (fun e y i he => ?_) _ he
  have h := he.add (Is.smul (-t) (is_plusHc (S := S) (el i 0 s) (el (i + 1) 0 s)))
  rw [smul_add] at h
  simpa only [evalMon, List.map_cons, List.map_nil, List.prod_cons, List.prod_nil, mul_one, List.sum_cons, List.sum_nil, add_zero, if_true,
    Bool.false_eq_true, if_false] using h

theorem is_chainCoupling (he : Is e y) (el : Nat → Nat → Bool → ι) (ph : Nat → Nat → ι) (L : Nat) (g : S) :
    Is (chainCoupling el ph L g e) (y + evalTerms repU (couplingTerms el ph L 1 g)) := by
  have hv : evalTerms (repU (S := S)) (couplingTerms el ph L 1 g) = ((List.range L).map fun i =>
      g • (repU (S := S) (.fermion true (el i 0 true)) * repU (.fermion false (el i 0 true)) + repU (S := S) (.fermion true (el i 0 false)) * repU (.fermion false (el i 0 false))) *
        (repU (.boson true (ph i 0)) + repU (.boson false (ph i 0)))).sum := by
    simp only [couplingTerms, sites, evalTerms_map, sum_product, List.map_cons, List.map_nil, List.sum_cons, List.sum_nil, add_zero, ← List.sum_map_add,
      List.range_one]
    congr 1
    refine List.map_congr_left fun i _ => ?_
    simp only [evalMon, List.map_cons, List.map_nil, List.prod_cons, List.prod_nil, mul_one, mul_add, add_mul, smul_add, smul_mul_assoc, mul_assoc]
    abel
  rw [hv, chainCoupling]
  refine Is.loop (fun e y i he => ?_) _ he
  exact he.add ((Is.smul g ((is_n (el i 0 true)).add (is_n (el i 0 false)))).mul ((is_aDag (ph i 0)).add (is_a (ph i 0))))

/-- All terms of the chain. -/
def chainTerms (el : Nat → Nat → Bool → ι) (ph : Nat → Nat → ι) (L : Nat) (t mu U w g : S) : List (List (Gen ι) × S) :=
  chainHopTerms el L t ++ chemTerms el L 1 mu ++ coulombTerms el L 1 U ++ phononTerms ph L 1 w ++ couplingTerms el ph L 1 g

theorem is_chain (L : Nat) (t mu U w g : S) (hne : ∀ a b, el a b true ≠ el a b false) :
    Is (chain el ph L t mu U w g) (evalTerms repU (chainTerms el ph L t mu U w g)) := by
  have h := is_chainCoupling (is_phononsW (is_coulomb (is_chemical (is_chainHopping Is.zero el L t) el L 1 mu) el L 1 U hne) ph L 1 w) el ph L g
  rw [zero_add] at h
  simpa only [chain, chainTerms, evalTerms_append] using h

theorem chain_perm (hi : Inj el ph) (L : Nat) {t mu U w g : S} (ht : t ≠ 0) (hmu : mu ≠ 0) (hU : U ≠ 0) (hw : w ≠ 0) (hg : g ≠ 0) :
    (chain el ph L t mu U w g).terms.Perm (chainTerms el ph L t mu U w g) := by
  have hI := is_chain (ph := ph) L t mu U w g hi.ne
  refine terms_perm hFB hI.1 ?_ ?_ ?_ hI.2
  · intro p hp
    simp only [chainTerms, List.mem_append, chainHopTerms, chemTerms, coulombTerms, phononTerms, couplingTerms, List.mem_map] at hp
    rcases hp with (((⟨q, _, rfl⟩ | ⟨q, _, rfl⟩) | ⟨q, _, rfl⟩) | ⟨q, _, rfl⟩) | ⟨q, _, rfl⟩
    · exact canon_hop _ _
    · exact canon_hop _ _
    · exact canon_pair (hi.ne _ _)
    · exact canon_phonon _
    · exact canon_coupling _ _ _
  · intro p hp
    simp only [chainTerms, List.mem_append, chainHopTerms, chemTerms, coulombTerms, phononTerms, couplingTerms, List.mem_map] at hp
    rcases hp with (((⟨q, _, rfl⟩ | ⟨q, _, rfl⟩) | ⟨q, _, rfl⟩) | ⟨q, _, rfl⟩) | ⟨q, _, rfl⟩
    · exact neg_ne_zero.2 ht
    · exact neg_ne_zero.2 hmu
    · exact hU
    · exact hw
    · exact hg
  · have hcm : ∀ m ∈ (coulombTerms el L 1 U).map Prod.fst, m.length = 4 := by
      intro m hm
      simp only [coulombTerms, List.map_map, List.mem_map] at hm
      obtain ⟨q, _, rfl⟩ := hm; rfl
    have hh : ∀ m ∈ (chainHopTerms el L t).map Prod.fst, ∃ i j, m = [.fermion true i, .fermion false j] := by
      intro m hm
      simp only [chainHopTerms, List.map_map, List.mem_map] at hm
      obtain ⟨q, _, rfl⟩ := hm; exact ⟨_, _, rfl⟩
    have hh2 : ∀ m ∈ (chemTerms el L 1 mu).map Prod.fst, ∃ i j, m = [.fermion true i, .fermion false j] := by
      intro m hm
      simp only [chemTerms, List.map_map, List.mem_map] at hm
      obtain ⟨q, _, rfl⟩ := hm; exact ⟨_, _, rfl⟩
    have hp : ∀ m ∈ (phononTerms ph L 1 w).map Prod.fst, ∃ i j, m = [.boson true i, .boson false j] := by
      intro m hm
      simp only [phononTerms, List.map_map, List.mem_map] at hm
      obtain ⟨q, _, rfl⟩ := hm; exact ⟨_, _, rfl⟩
    have hk : ∀ m ∈ (couplingTerms el ph L 1 g).map Prod.fst, m.length = 3 := by
      intro m hm
      simp only [couplingTerms, List.map_map, List.mem_map] at hm
      obtain ⟨q, _, rfl⟩ := hm; rfl
    simp only [chainTerms, List.map_append, List.nodup_append']
    refine ⟨⟨⟨⟨?_, ?_, ?_⟩, nodup_coulomb S L 1 hi U, ?_⟩, nodup_phonon S L 1 hi w, ?_⟩, nodup_coupling S L 1 hi g, ?_⟩
    · rw [chainHopTerms, List.map_map]
      refine ((by decide : [true, false].Nodup).product (List.nodup_range.product (by decide))).map ?_
      rintro ⟨s, i, d⟩ ⟨s', i', d'⟩ h
      simp only [Function.comp, List.cons.injEq, Gen.fermion.injEq, true_and, and_true] at h
      obtain ⟨h1, -, rfl⟩ := hi.el _ _ _ _ _ _ h.1
      obtain ⟨h2, -, -⟩ := hi.el _ _ _ _ _ _ h.2
      cases d <;> cases d' <;> simp at h1 h2 ⊢ <;> omega
    · rw [chemTerms, List.map_map]
      refine ((nodup_sites L 1).product (by decide)).map ?_
      rintro ⟨⟨a, b⟩, s⟩ ⟨⟨a', b'⟩, s'⟩ h
      simp only [Function.comp, List.cons.injEq, Gen.fermion.injEq, true_and, and_true] at h
      obtain ⟨rfl, rfl, rfl⟩ := hi.el _ _ _ _ _ _ h.1
      rfl
    · intro m h1 h2
      simp only [chainHopTerms, chemTerms, List.map_map, List.mem_map] at h1 h2
      obtain ⟨⟨s, i, d⟩, h3, rfl⟩ := h1
      obtain ⟨⟨⟨u, v⟩, s'⟩, _, h4⟩ := h2
      simp only [Function.comp, List.cons.injEq, Gen.fermion.injEq, true_and, and_true] at h4
      have e1 := (hi.el _ _ _ _ _ _ h4.1).1
      have e2 := (hi.el _ _ _ _ _ _ h4.2).1
      cases d <;> simp at e1 e2 <;> omega
    · intro m h1 h2
      have := hcm m h2
      rcases List.mem_append.1 h1 with h1 | h1
      · obtain ⟨i, j, rfl⟩ := hh _ h1; simp at this
      · obtain ⟨i, j, rfl⟩ := hh2 _ h1; simp at this
    · intro m h1 h2
      obtain ⟨i, j, rfl⟩ := hp m h2
      rcases List.mem_append.1 h1 with h1 | h1
      · rcases List.mem_append.1 h1 with h1 | h1
        · obtain ⟨i', j', h⟩ := hh _ h1; simp at h
        · obtain ⟨i', j', h⟩ := hh2 _ h1; simp at h
      · exact absurd (hcm _ h1) (by simp)
    · intro m h1 h2
      have h3 := hk m h2
      rcases List.mem_append.1 h1 with h1 | h1
      · rcases List.mem_append.1 h1 with h1 | h1
        · rcases List.mem_append.1 h1 with h1 | h1
          · obtain ⟨i', j', rfl⟩ := hh _ h1; simp at h3
          · obtain ⟨i', j', rfl⟩ := hh2 _ h1; simp at h3
        · have := hcm _ h1; omega
      · obtain ⟨i', j', rfl⟩ := hp _ h1; simp at h3

end Lattice
end LC
