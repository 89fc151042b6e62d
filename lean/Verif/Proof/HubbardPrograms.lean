import Verif.Model.HubbardPrograms
import Verif.Proof.Fixpoint
import Verif.Props.FillMatrix
import Verif.Props.Lattice
/-
From an expression to its Hilbert space and its matrix.
-/
set_option linter.unusedSectionVars false
set_option linter.unusedSimpArgs false
namespace LC
open HilbertSpace Expr
variable {ι S : Type _} [LinearOrder ι] [CommRing S] [DecidableEq S] [ConstScalar S] [ScalarLaws S] [IsDomain S] [CharZero S]
  [Star S] [Algebra ℝ S]

/-- An expression can be rebuilt from its terms, hence from the generators that occur in it. -/
theorem reachable_own {M : Nat → ι → Prop} (hM : HalfAlone M) {P : Gen ι → Prop} {e : Expr (Gen ι) S} (he : Reachable (Allowed M) e)
    (hP : ∀ p ∈ e.terms, ∀ g ∈ p.1, P g) : Reachable P e := by
  have hcan := he.allCanon (nfGen M hM) (conjOK M)
  have hwf := he.wfA
  have one : ∀ p ∈ e.terms, (ofMonomial p.2 p.1 : Expr (Gen ι) S) = ⟨[p]⟩ := by
    intro p hp
    have h0 : p.2 ≠ 0 := hwf.2 p hp
    apply Expr.ext
    rw [ofMonomial, if_neg h0, normalize_store, emits_of_canon (nfGen M hM) p.1 (hcan p hp) p.2 h0]
    simp [Terms.storeAll, Terms.store, Terms.find?, Terms.emplace]
  have key : ∀ (l : List (List (Gen ι) × S)) (a : Expr (Gen ι) S), (∀ p ∈ l, p ∈ e.terms) → Reachable P a →
      Reachable P (⟨Terms.storeAll l a.terms⟩ : Expr (Gen ι) S) := by
    intro l
    induction l with
    | nil => intro a _ ha; exact ha
    | cons p l ih =>
      intro a hl ha
      have hp := hl p (by simp)
      have := ih (a + ofMonomial p.2 p.1) (fun q hq => hl q (by simp [hq])) (ha.add (.ofMonomial _ _ (hP p hp)))
      rw [one p hp, add_def] at this
      exact this
  have h1 := key e.terms 0 (fun _ h => h) .zero
  have h2 : (0 : Expr (Gen ι) S) + e = e := by
    refine ext_coeff (wf_add wf_zero hwf) hwf fun k => ?_
    rw [coeff_add wf_zero hwf, coeff_zero, zero_add]
  rw [add_def] at h2
  rw [h2] at h1
  exact h1

/-- What `make_hilbert_space(e)` gives. -/
theorem space_facts {M : Nat → ι → Prop} (hM : HalfAlone M) (hM2 : ∀ n i, M n i → 2 ≤ n ∧ n < 2 ^ 31)
    (bosonDim : Option Nat) (hbd : ∀ d, bosonDim = some d → 0 < d) (e : Expr (Gen ι) S) (he : Reachable (Allowed M) e)
    (hs : HilbertSpace ι) (h : ofMonomials (esConstruct bosonDim) (e.terms.map (·.1)) = .ok hs) :
    Constructed hs ∧ PredefinedSpaces hs ∧ DocumentedIds hs ∧ Reachable (InSpace M hs) e ∧
      ∀ i, i ∈ fermionModes hs ↔ ∃ p ∈ e.terms, ∃ d, Gen.fermion d i ∈ p.1 := by
  have hcan := he.allCanon (nfGen M hM) (conjOK M)
  have hwf' : ∀ g ∈ (e.terms.map (·.1)).flatten, ∀ es, esConstruct bosonDim g = some es → es.Wf := by
    intro g hg es hes
    obtain ⟨m, hm, hgm⟩ := List.mem_flatten.1 hg
    obtain ⟨p, hp, rfl⟩ := List.mem_map.1 hm
    have hall := (hcan p hp).mem g hgm
    cases g with
    | fermion d i => simp [esConstruct] at hes; subst hes; exact wf_fermion i
    | boson d i =>
      cases bosonDim with
      | none => simp [esConstruct] at hes
      | some d => simp [esConstruct] at hes; subst hes; exact wf_boson d (hbd d rfl) i
    | spin m c i => simp [esConstruct] at hes; subst hes; exact wf_spin m (by have := (hM2 m i hall).1; omega) i
  have hc : Constructed hs := .ofMonomials hwf' h
  obtain ⟨hel, -⟩ := C30_space_of_expression hM hM2 bosonDim hbd e he hs h
  obtain ⟨l, hfit, rfl, hl1, hl2⟩ := (ofMonomials_spec _ _ hwf').1 hs h
  have hshape : ∀ es ∈ (canon l).elementarySpaces, (∃ i, es = ESpace.fermion i) ∨ (∃ d i, es = ESpace.boson d i) ∨
      ∃ m i, m < 2 ^ 31 ∧ es = ESpace.spin m i := by
    intro es hes
    obtain ⟨p, hp, g, hg, hge⟩ := (hel es).1 hes
    have hall := (hcan p hp).mem g hg
    cases g with
    | fermion d i => simp [esConstruct] at hge; exact .inl ⟨i, hge.symm⟩
    | boson d i =>
      cases bosonDim with
      | none => simp [esConstruct] at hge
      | some d => simp [esConstruct] at hge; exact .inr (.inl ⟨d, i, hge.symm⟩)
    | spin m c i => simp [esConstruct] at hge; exact .inr (.inr ⟨m, i, (hM2 m i hall).2, hge.symm⟩)
  refine ⟨hc, ?_, ?_, reachable_own hM he fun p hp g hg => ⟨(hcan p hp).mem g hg, ?_⟩, ?_⟩
  · intro es hes
    rcases hshape es hes with ⟨i, rfl⟩ | ⟨d, i, rfl⟩ | ⟨m, i, hm, rfl⟩
    · exact ⟨fun _ => ⟨_, rfl⟩, by simp [ESpace.fermion], by simp [ESpace.fermion]⟩
    · exact ⟨by simp [ESpace.boson], fun _ => ⟨_, _, rfl⟩, by simp [ESpace.boson]⟩
    · exact ⟨by simp [ESpace.spin], by simp [ESpace.spin], fun _ => ⟨_, _, hm, rfl⟩⟩
  · intro es hes
    rcases hshape es hes with ⟨i, rfl⟩ | ⟨d, i, rfl⟩ | ⟨m, i, hm, rfl⟩ <;> simp [ESpace.fermion, ESpace.boson, ESpace.spin]
  · obtain ⟨es, es', h1, h2, h3⟩ := hl2 g (List.mem_flatten.2 ⟨_, List.mem_map.2 ⟨p, hp, rfl⟩, hg⟩)
    have hk : es.key = g.mode.space.key := by
      rw [ESpace.key_eq_iff]
      cases g <;> cases bosonDim <;> simp [esConstruct] at h1 <;> subst h1 <;>
        simp [Gen.mode, Mode.space, ESpace.fermion, ESpace.boson, ESpace.spin]
    obtain ⟨r, hr⟩ : ∃ r, (es', r) ∈ (canon l).spaces := by
      have : es' ∈ (canon l).spaces.map (·.1) := by rw [canon_spaces, layout_fst]; exact h2
      obtain ⟨⟨a, b⟩, hq, rfl⟩ := List.mem_map.1 this
      exact ⟨b, hq⟩
    exact (loc_of_mem hc hr (h3.trans hk)).choose_spec.2.has
  · intro i
    simp only [fermionModes, List.mem_map, List.mem_filter, decide_eq_true_eq]
    constructor
    · rintro ⟨es, ⟨h1, h2⟩, rfl⟩
      obtain ⟨p, hp, g, hg, hge⟩ := (hel es).1 h1
      cases g with
      | fermion d i => simp [esConstruct] at hge; subst hge; exact ⟨p, hp, d, hg⟩
      | boson d i => cases bosonDim <;> simp [esConstruct] at hge; subst hge; simp [ESpace.boson] at h2
      | spin m c i => simp [esConstruct] at hge; subst hge; simp [ESpace.spin] at h2
    · rintro ⟨p, hp, d, hg⟩
      exact ⟨ESpace.fermion i, ⟨(hel _).2 ⟨p, hp, _, hg, rfl⟩, rfl⟩, rfl⟩

/-- The number of all fermions as a quantum number. -/
def allFermions : Charge ι Int := ⟨fun _ => 1, fun _ => 0, fun _ _ => 0⟩

theorem homogeneous_modes {is : List ι} {e : Expr (Gen ι) S} (h : allFermions.Homogeneous 0 e) (hi : ∀ p ∈ e.terms, ∀ d i, Gen.fermion d i ∈ p.1 → i ∈ is) :
    (countFermions is).Homogeneous 0 e := by
  intro p hp
  rw [← h p hp, Charge.mon, Charge.mon]
  congr 1
  refine List.map_congr_left fun g hg => ?_
  cases g with
  | fermion d i => simp [Charge.gen, countFermions, allFermions, hi p hp d i hg]
  | boson d i => simp [Charge.gen, countFermions, allFermions]
  | spin m c i => cases c <;> simp [Charge.gen, countFermions, allFermions]

namespace Lattice
open Factory Reg
variable {e : Expr (Gen ι) S} {y : Module.End S (V ι S)} {el : Nat → Nat → Bool → ι} {ph : Nat → Nat → ι}

/-- The terms `-mu n(i,s)`. -/
def chemTerms (el : Nat → Nat → Bool → ι) (Nx Ny : Nat) (mu : S) : List (List (Gen ι) × S) :=
  (sites Nx Ny ×ˢ [true, false]).map fun q => ([.fermion true (el q.1.1 q.1.2 q.2), .fermion false (el q.1.1 q.1.2 q.2)], -mu)

theorem is_chemical (he : Is e y) (el : Nat → Nat → Bool → ι) (Nx Ny : Nat) (mu : S) :
    Is (chemical el Nx Ny mu e) (y + evalTerms repU (chemTerms el Nx Ny mu)) := by
  simp only [chemical, chemTerms, sites, evalTerms_map, sum_product]
  refine Is.loop (fun e y ix he => ?_) _ he
  refine Is.loop (fun e y iy he => ?_) _ he
  have h := he.add (Is.smul (-mu) ((is_n (el ix iy true)).add (is_n (el ix iy false))))
  rw [smul_add] at h
  simpa only [evalMon, List.map_cons, List.map_nil, List.prod_cons, List.prod_nil, mul_one, List.sum_cons, List.sum_nil, add_zero] using h

/-- The terms of the Hubbard model. -/
def hubTerms (el : Nat → Nat → Bool → ι) (Nx Ny : Nat) (t mu U : S) : List (List (Gen ι) × S) :=
  hopTerms el Nx Ny ((Nx : Int) - 1) ((Ny : Int) - 1) t ++ chemTerms el Nx Ny mu ++ coulombTerms el Nx Ny U

theorem is_fermiHubbard (Nx Ny : Nat) (t mu U : S) (hne : ∀ a b, el a b true ≠ el a b false) :
    Is (fermiHubbard el Nx Ny t mu U) (evalTerms repU (hubTerms el Nx Ny t mu U)) := by
  have h := is_coulomb (is_chemical (is_hopping Is.zero el Nx Ny ((Nx : Int) - 1) ((Ny : Int) - 1) t) el Nx Ny mu) el Nx Ny U hne
  rw [zero_add] at h
  simpa only [fermiHubbard, hubTerms, evalTerms_append] using h

theorem hub_perm (hi : Inj el ph) {Nx Ny : Nat} (hx : 2 ≤ Nx) (hy : 2 ≤ Ny) {t mu U : S} (ht : t ≠ 0) (hmu : mu ≠ 0) (hU : U ≠ 0) :
    (fermiHubbard el Nx Ny t mu U).terms.Perm (hubTerms el Nx Ny t mu U) := by
  have hI := is_fermiHubbard Nx Ny t mu U hi.ne
  refine terms_perm hFB hI.1 ?_ ?_ ?_ hI.2
  · intro p hp
    simp only [hubTerms, List.mem_append, hopTerms, chemTerms, coulombTerms, List.mem_map] at hp
    rcases hp with (⟨q, _, rfl⟩ | ⟨q, _, rfl⟩) | ⟨q, _, rfl⟩
    · exact canon_hop _ _
    · exact canon_hop _ _
    · exact canon_pair (hi.ne _ _)
  · intro p hp
    simp only [hubTerms, List.mem_append, hopTerms, chemTerms, coulombTerms, List.mem_map] at hp
    rcases hp with (⟨q, _, rfl⟩ | ⟨q, _, rfl⟩) | ⟨q, _, rfl⟩
    · exact neg_ne_zero.2 ht
    · exact neg_ne_zero.2 hmu
    · exact hU
  · simp only [hubTerms, List.map_append, List.nodup_append']
    refine ⟨⟨nodup_hop S Nx Ny hi _ _ t, ?_, ?_⟩, nodup_coulomb S Nx Ny hi U, ?_⟩
    · rw [chemTerms, List.map_map]
      refine ((nodup_sites Nx Ny).product (by decide)).map ?_
      rintro ⟨⟨a, b⟩, s⟩ ⟨⟨a', b'⟩, s'⟩ h
      simp only [Function.comp, List.cons.injEq, Gen.fermion.injEq, true_and, and_true] at h
      obtain ⟨rfl, rfl, rfl⟩ := hi.el _ _ _ _ _ _ h.1
      rfl
    · intro m h1 h2
      simp only [hopTerms, chemTerms, List.map_map, List.mem_map] at h1 h2
      obtain ⟨⟨s, ⟨x, y⟩, x', y'⟩, h3, rfl⟩ := h1
      obtain ⟨⟨⟨u, v⟩, s'⟩, _, h4⟩ := h2
      simp only [Function.comp, List.cons.injEq, Gen.fermion.injEq, true_and, and_true] at h4
      obtain ⟨rfl, rfl, rfl⟩ := hi.el _ _ _ _ _ _ h4.1
      obtain ⟨rfl, rfl, -⟩ := hi.el _ _ _ _ _ _ h4.2
      have := (List.mem_filter.1 h3).2
      simp only [adj, neighbors, Bool.or_eq_true, Bool.and_eq_true, beq_iff_eq] at this
      omega
    · intro m h1 h2
      have hl : m.length = 4 := by
        simp only [coulombTerms, List.map_map, List.mem_map] at h2
        obtain ⟨q, _, rfl⟩ := h2; rfl
      rcases List.mem_append.1 h1 with h1 | h1
      all_goals
        simp only [hopTerms, chemTerms, List.map_map, List.mem_map] at h1
        obtain ⟨q, _, rfl⟩ := h1
        simp at hl

end Lattice
end LC
