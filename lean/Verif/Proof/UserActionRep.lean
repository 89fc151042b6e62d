import Verif.Proof.UserActionPre
import Verif.Proof.FockOp
/-
Matrices of fermions and spins obey the relations; expressions contain stored products.
-/
set_option linter.unusedSectionVars false
set_option linter.unusedSimpArgs false
namespace LC
open Matrix HilbertSpace
variable {ι U S : Type _} [LinearOrder ι] [UserGen U] [CommRing S] [Algebra ℝ S] {hs : HilbertSpace ι}

/-- Modes of `hs` that are not bosonic. -/
def NotBosonic (hs : HilbertSpace ι) (k : Mode ι) : Prop := hs.has k.space = true ∧ ∀ i, k ≠ .boson i

open Classical in
/-- Matrix elements of operators on the Fock space. -/
noncomputable def fockEl (hc : Constructed hs) (hpre : PredefinedSpaces hs) (A : Module.End S (FockSpace ι S)) (t k : BasisState hs) : S :=
  if SameForeign hs t k then A (ket S (conf hs k)) ⟨conf hs t, conf_phys hc hpre t.2⟩ else 0

/-- Matrices of operators on the Fock space. -/
noncomputable def fockBlock (hc : Constructed hs) (hpre : PredefinedSpaces hs) : Module.End S (FockSpace ι S) →ₗ[S] Op S hs where
  toFun A := Matrix.of (fockEl hc hpre A)
  map_add' A B := by ext t k; simp only [Matrix.add_apply, Matrix.of_apply, fockEl]; split_ifs <;> simp
  map_smul' x A := by ext t k; simp only [Matrix.smul_apply, Matrix.of_apply, fockEl, RingHom.id_apply]; split_ifs <;> simp

theorem fockBlock_mon (hc : Constructed hs) (hpre : PredefinedSpaces hs) (m : List (Gen ι)) (hm : ∀ g ∈ m, NotBosonic hs g.mode) :
    fockBlock hc hpre (evalMon (fockGen S) m) = evalMon (preMatrix S hs) m := by
  classical
  have hnb : ∀ d i, Gen.boson d i ∉ m := fun d i h => (hm _ h).2 i rfl
  have hno : NormalOrdered m := List.pairwise_iff_forall_sublist.2 fun {a b} hab i j e => by
    have : a ∈ m := hab.subset (by simp)
    rw [e.1] at this
    exact hnb _ _ this
  ext t k
  rw [preMatrix_mon hc hpre m (fun g hg => (hm g hg).1), matEl_fock hc hpre hno (fun d i h => absurd h (hnb d i)) t.2 k.2]
  rfl

section
variable [DecidableEq S] [ConstScalar S] [ScalarLaws S]

theorem fockBlock_lin (hc : Constructed hs) (hpre : PredefinedSpaces hs) (f : LinFun (Gen ι)) (hf : ∀ p ∈ f.terms, NotBosonic hs p.1.mode) :
    fockBlock hc hpre (evalLin S (fockGen S) f) = evalLin S (preMatrix S hs) f := by
  have h1 : fockBlock (S := S) hc hpre 1 = 1 := fockBlock_mon hc hpre [] (by simp)
  have h2 : ∀ g : Gen ι, NotBosonic hs g.mode → fockBlock (S := S) hc hpre (fockGen S g) = preMatrix S hs g := by
    intro g hg
    have := fockBlock_mon (S := S) hc hpre [g] (by simpa using hg)
    simpa [evalMon] using this
  unfold evalLin
  rw [map_add, Algebra.algebraMap_eq_smul_one, Algebra.algebraMap_eq_smul_one, map_smul, h1]
  congr 1
  rw [map_list_sum, List.map_map]
  congr 1
  refine List.map_congr_left fun p hp => ?_
  simp only [Function.comp, map_smul, h2 p.1 (hf p hp)]

/-- Fermions and spins. -/
theorem represents_preMatrix {M : Nat → ι → Prop} (hM : HalfAlone M) (hc : Constructed hs) (hpre : PredefinedSpaces hs) :
    Represents S (AllowedOn M (NotBosonic hs)) (preMatrix S hs) := by
  have hpos : ∀ g : Gen ι, AllowedOn M (NotBosonic hs) g → Allowed (fun n i => M n i ∧ 1 ≤ n) g := by
    rintro g ⟨h1, h2, -⟩
    cases g with
    | fermion d i => trivial
    | boson d i => trivial
    | spin n c i =>
      refine ⟨h1, ?_⟩
      obtain ⟨f, nb, d, hl⟩ := loc_of_has hc h2
      obtain ⟨e', he', hk, hd, hb⟩ := hl.mem
      by_contra h0
      have : n = 0 := by omega
      subst this
      rw [ESpace.key_eq_iff] at hk
      obtain ⟨m', j, _, rfl⟩ := (hpre e' (List.mem_map.2 ⟨_, he', rfl⟩)).2.2 hk.1
      have h3 : m' = 0 := hk.2.1
      have h4 : m' = d := hd
      have := hl.pos
      omega
  have hF := represents_of_textbook (S := S) (halfAlone_pos hM) (fock_textbook (ι := ι) (S := S) (M := fun n i => M n i ∧ 1 ≤ n)
      fun n i h => h.2)
  have hN := nfGen_on (M := M) (Q := NotBosonic hs) hM
  have key : ∀ g h : Gen ι, NotBosonic hs g.mode → NotBosonic hs h.mode →
      fockBlock (S := S) hc hpre (fockGen S g * fockGen S h) = preMatrix S hs g * preMatrix S hs h := by
    intro g h hg hh
    have := fockBlock_mon (S := S) hc hpre [g, h] (by simp [hg, hh])
    simpa [evalMon] using this
  refine ⟨?_, ?_, ?_, ?_, hN.swap_mem, hN.simp_mem, ?_⟩
  · intro g h hg hh hgt
    rw [← key g h hg.2 hh.2, hF.swap g h (hpos g hg) (hpos h hh) hgt, map_add, map_smul, key h g hh.2 hg.2,
      fockBlock_lin hc hpre _ fun p hp => (hN.swap_mem g h hg hh hgt p hp).2]
  · intro g h f hg hh hgt hf
    rw [← key g h hg.2 hh.2, hF.simp g h f (hpos g hg) (hpos h hh) hgt hf,
      fockBlock_lin hc hpre _ fun p hp => (hN.simp_mem g h f hg hh hgt hf p hp).2]
  · exact fun g p f hg hp hr => hF.red_false g p f (hpos g hg) hp hr
  · intro g p hg hp hr
    have h1 := hF.red_true g p (hpos g hg) hp hr
    have e0 : (GenOps.reducePower g p LinFun.zero).2 = LinFun.zero := by cases g <;> rfl
    have e1 : preMatrix S hs g ^ p = evalMon (preMatrix S hs) (List.replicate p g) := by simp [evalMon]
    have e2 : fockGen S g ^ p = evalMon (fockGen S) (List.replicate p g) := by simp [evalMon]
    rw [e1, ← fockBlock_mon hc hpre _ (fun k hk => by rw [List.eq_of_mem_replicate hk]; exact hg.2), ← e2, h1, e0,
      fockBlock_lin hc hpre _ (by simp [LinFun.zero])]
  · intro g p hg hp hr q hq
    have e0 : (GenOps.reducePower g p LinFun.zero).2 = LinFun.zero := by cases g <;> rfl
    rw [e0] at hq; simp [LinFun.zero] at hq

omit [Algebra ℝ S] in
/-- Two families of operators obeying their relations and commuting with each other. -/
theorem represents_both {A : Type _} [Ring A] [Algebra S A] (ho : UserOrder U) {Pp : Gen ι → Prop} {Q : U → Prop} {ρ : AllGen ι U → A}
    (h1 : Represents S Pp fun g => ρ (.pre g)) (h2 : Represents S (Both (fun _ => False) Q) ρ)
    (hcomm : ∀ g u, Pp g → Q u → ρ (.pre g) * ρ (.user u) = ρ (.user u) * ρ (.pre g)) : Represents S (Both Pp Q) ρ := by
  have hdiff : ∀ g k : AllGen ι U, g.algebraId ≠ k.algebraId → ρ g * ρ k = ρ k * ρ g →
      ρ g * ρ k = (ConstScalar.makeConst (GenOps.swapWith g k).1 : S) • (ρ k * ρ g) + evalLin S ρ (GenOps.swapWith g k).2 := by
    intro g k e h
    rw [AllGen.swap_diff e, h]
    simp [evalLin, ConstScalar.mk_integer]
  have hup : ∀ g : AllGen ι U, Both (fun _ => False) Q g → Both Pp Q g := by
    intro g hg; cases g with
    | pre g => exact hg.elim
    | user u => exact hg
  refine ⟨?_, ?_, ?_, ?_, ?_, ?_, ?_⟩
  · intro g₁ g₂ k1 k2 hgt
    cases g₁ with
    | pre g =>
      cases g₂ with
      | pre k =>
        rw [AllGen.swap_pre, AllGen.evalLin_map]
        exact h1.swap g k k1 k2 hgt
      | user k => exact hdiff _ _ (AllGen.represents_pre_user ho) (hcomm g k k1 k2)
    | user g =>
      cases g₂ with
      | pre k => exact hdiff _ _ (AllGen.represents_pre_user ho).symm (hcomm k g k2 k1).symm
      | user k => exact h2.swap _ _ k1 k2 hgt
  · intro g₁ g₂ f k1 k2 hgt hf
    cases g₁ with
    | pre g =>
      cases g₂ with
      | pre k =>
        rw [AllGen.simp_pre, Option.map_eq_some_iff] at hf
        obtain ⟨f, hf, rfl⟩ := hf
        rw [AllGen.evalLin_map]
        exact h1.simp g k f k1 k2 hgt hf
      | user k => rw [AllGen.simp_diff (AllGen.represents_pre_user ho)] at hf; cases hf
    | user g =>
      cases g₂ with
      | pre k => rw [AllGen.simp_diff (AllGen.represents_pre_user ho).symm] at hf; cases hf
      | user k => exact h2.simp _ _ f k1 k2 hgt hf
  · intro g p f hg hp hr
    cases g with
    | pre g => rw [AllGen.red_pre]
    | user u => exact h2.red_false _ p f hg hp hr
  · intro g p hg hp hr
    cases g with
    | pre g =>
      rw [AllGen.red_pre] at hr ⊢
      have := h1.red_true g p hg hp hr
      have e0 : (GenOps.reducePower g p LinFun.zero).2 = LinFun.zero := by cases g <;> rfl
      rw [e0] at this
      simpa [evalLin, LinFun.zero] using this
    | user u => exact h2.red_true _ p hg hp hr
  · intro g₁ g₂ k1 k2 hgt p hp
    cases g₁ with
    | pre g =>
      cases g₂ with
      | pre k =>
        rw [AllGen.swap_pre] at hp
        simp only [LinFun.map, List.mem_map] at hp
        obtain ⟨q, hq, rfl⟩ := hp
        exact h1.swap_mem g k k1 k2 hgt q hq
      | user k => rw [AllGen.swap_diff (AllGen.represents_pre_user ho)] at hp; simp at hp
    | user g =>
      cases g₂ with
      | pre k => rw [AllGen.swap_diff (AllGen.represents_pre_user ho).symm] at hp; simp at hp
      | user k => exact hup _ (h2.swap_mem (.user g) (.user k) k1 k2 hgt p hp)
  · intro g₁ g₂ f k1 k2 hgt hf p hp
    cases g₁ with
    | pre g =>
      cases g₂ with
      | pre k =>
        rw [AllGen.simp_pre, Option.map_eq_some_iff] at hf
        obtain ⟨f, hf, rfl⟩ := hf
        simp only [LinFun.map, List.mem_map] at hp
        obtain ⟨q, hq, rfl⟩ := hp
        exact h1.simp_mem g k f k1 k2 hgt hf q hq
      | user k => rw [AllGen.simp_diff (AllGen.represents_pre_user ho)] at hf; cases hf
    | user g =>
      cases g₂ with
      | pre k => rw [AllGen.simp_diff (AllGen.represents_pre_user ho).symm] at hf; cases hf
      | user k => exact hup _ (h2.simp_mem (.user g) (.user k) f k1 k2 hgt hf p hp)
  · intro g p hg hp hr q hq
    cases g with
    | pre g => rw [AllGen.red_pre] at hq; simp [LinFun.zero] at hq
    | user u => exact hup _ (h2.red_mem (.user u) p hg hp hr q hq)

/-- Stored monomials. -/
theorem storedProduct_of_canon (ho : UserOrder U) {P : AllGen ι U → Prop} {m : List (AllGen ι U)} (h : CanonMon P m) : StoredProduct m := by
  have := AllGen.lawful (ι := ι) ho
  have hok : ∀ p g k q, m = p ++ g :: k :: q → OKPair g k := by
    intro p g k q e
    have hc := h.chain
    rw [e, List.isChain_append] at hc
    exact (List.isChain_cons_cons.1 hc.2.1).1
  refine ⟨fun p g k q e => (hok p g k q e).1, fun p g k q e => (hok p g k q e).2, fun g p hp hsub => ?_⟩
  refine h.pow g (hsub.subset (by simp; omega)) p hp ?_
  have := hsub.countP_le (p := GenOps.eq g)
  rw [List.countP_replicate, if_pos ((LawfulGen.eq_iff _ _).2 rfl)] at this
  exact this

variable [IsDomain S] [CharZero S] [Star S]

omit [Algebra ℝ S] in
theorem reach_stored (ho : UserOrder U) (hz : UserNoZeros U) (hcf : UserConfluent U) {M : Nat → ι → Prop} (hM : HalfAlone M)
    {e : Expr (AllGen ι U) S} (he : Reachable (AllowedAll M) e) : ∀ p ∈ e.terms, StoredProduct p.1 := by
  have := AllGen.lawful (ι := ι) ho
  have := AllGen.goodGen (ι := ι) ho hz
  exact fun p hp => storedProduct_of_canon ho (he.allCanon (AllGen.nfGenAll hM ho hcf) (AllGen.conjOKAll hz M) p hp)

end
end LC
