import Verif.Spec.UserAction
import Verif.Proof.LOpApply
import Verif.Proof.FaithfulAll
import Mathlib.Data.Matrix.Mul
/-
The chain of base classes of `monomial_action<AlgebraIDs...>`.
-/
set_option linter.unusedSectionVars false
set_option linter.unusedSimpArgs false
namespace LC
open Matrix
variable {ι U S T V W : Type _} [LinearOrder ι] [UserGen U] [CommRing S] {hs : HilbertSpace ι}

namespace StoredProduct

theorem sub {m p q : List (AllGen ι U)} (h : StoredProduct (p ++ m ++ q)) : StoredProduct m where
  sorted a g k b e := h.sorted (p ++ a) g k (b ++ q) (by rw [e]; simp)
  no_simp a g k b e := h.no_simp (p ++ a) g k (b ++ q) (by rw [e]; simp)
  no_red g n hn hs := h.no_red g n hn (hs.trans ((List.sublist_append_right _ _).trans (List.sublist_append_left _ _)))

theorem left {p q : List (AllGen ι U)} (h : StoredProduct (p ++ q)) : StoredProduct p := sub (p := []) h
theorem right {p q : List (AllGen ι U)} (h : StoredProduct (p ++ q)) : StoredProduct q := sub (p := p) (q := []) (by simpa using h)

theorem ids {g h : AllGen ι U} {m : List (AllGen ι U)} (hm : StoredProduct (g :: h :: m)) : g.algebraId ≤ h.algebraId := by
  have := hm.sorted [] g h m rfl
  by_contra hlt
  have hgt : AllGen.gtOp g h = true := by
    unfold AllGen.gtOp
    rw [if_pos (by simp; omega)]
    simp; omega
  rw [show GenOps.gt g h = AllGen.gtOp g h from rfl, hgt] at this
  cases this

theorem ids_all {g : AllGen ι U} {m : List (AllGen ι U)} (hm : StoredProduct (g :: m)) : ∀ h ∈ m, g.algebraId ≤ h.algebraId := by
  induction m generalizing g with
  | nil => simp
  | cons k m ih =>
    intro h hh
    have h1 := hm.ids
    rcases List.mem_cons.1 hh with rfl | hh
    · exact h1
    · exact h1.trans (ih (StoredProduct.right (p := [g]) hm) h hh)

/-- Splitting off the generators of the first algebra. -/
theorem split {m : List (AllGen ι U)} (hm : StoredProduct m) (a : Int) (h : ∀ g ∈ m, a ≤ g.algebraId) :
    ∃ p q, findSubrangeAll a m = .ok (p, q) ∧ m = p ++ q ∧ (∀ g ∈ p, g.algebraId = a) ∧ ∀ g ∈ q, a < g.algebraId := by
  induction m with
  | nil => exact ⟨[], [], rfl, rfl, by simp, by simp⟩
  | cons g m ih =>
    have hg := h g (by simp)
    by_cases he : g.algebraId = a
    · obtain ⟨p, q, h1, h2, h3, h4⟩ := ih (StoredProduct.right (p := [g]) hm) (fun k hk => h k (by simp [hk]))
      refine ⟨g :: p, q, ?_, by rw [h2]; rfl, ?_, h4⟩
      · rw [findSubrangeAll, if_neg (by omega), if_pos he, h1]
      · intro k hk
        rcases List.mem_cons.1 hk with rfl | hk
        · exact he
        · exact h3 k hk
    · refine ⟨[], g :: m, ?_, rfl, by simp, ?_⟩
      · rw [findSubrangeAll, if_neg (by omega), if_neg he]
      · intro k hk
        have hlt : a < g.algebraId := by omega
        rcases List.mem_cons.1 hk with rfl | hk
        · exact hlt
        · exact lt_of_lt_of_le hlt (hm.ids_all k hk)

end StoredProduct

/-! ### actions -/

theorem actsLike_one : ActsLike (hs := hs) (1 : Op S hs) (fun k c => .nonzero k c) := by
  classical
  intro k c
  refine Or.inr ⟨k, 1, by simp, fun s => ?_⟩
  rw [Matrix.one_apply]

theorem actsLike_andThen {M N : Op S hs} {a b : Act S} (ha : ActsLike M a) (hb : ActsLike N b) :
    ActsLike (N * M) (fun k c => (a k c).andThen b) := by
  classical
  intro k c
  rcases ha k c with ⟨h1, h2⟩ | ⟨t, x, h1, h2⟩
  · refine Or.inl ⟨by simp [h1, ActRes.andThen], fun t => ?_⟩
    rw [Matrix.mul_apply]
    exact Finset.sum_eq_zero fun s _ => by rw [h2, mul_zero]
  · have key : ∀ s, (N * M) s k = N s t * x := by
      intro s
      rw [Matrix.mul_apply, Finset.sum_eq_single t]
      · rw [h2, if_pos rfl]
      · intro u _ hu; rw [h2, if_neg hu, mul_zero]
      · simp
    rcases hb t (c * x) with ⟨h3, h4⟩ | ⟨u, y, h3, h4⟩
    · exact Or.inl ⟨by simp [h1, ActRes.andThen, h3], fun s => by rw [key, h4, zero_mul]⟩
    · refine Or.inr ⟨u, x * y, by simp [h1, ActRes.andThen, h3, mul_assoc], fun s => ?_⟩
      rw [key, h4]
      split
      · rw [mul_comm]
      · rw [zero_mul]

theorem evalMon_comm {A : Type _} [Ring A] {G : Type _} (ρ : G → A) {p q : List G} (h : ∀ g ∈ p, ∀ k ∈ q, ρ g * ρ k = ρ k * ρ g) :
    evalMon ρ (p ++ q) = evalMon ρ q * evalMon ρ p := by
  have h1 : ∀ g ∈ p, Commute (ρ g) (evalMon ρ q) := by
    intro g hg
    unfold evalMon
    refine Commute.list_prod_right _ _ fun x hx => ?_
    obtain ⟨k, hk, rfl⟩ := List.mem_map.1 hx
    exact h g hg k hk
  have h2 : Commute (evalMon ρ p) (evalMon ρ q) := by
    unfold evalMon at *
    refine Commute.list_prod_left _ _ fun x hx => ?_
    obtain ⟨g, hg, rfl⟩ := List.mem_map.1 hx
    exact h1 g hg
  rw [← h2]
  simp [evalMon]

section chain
variable {On : AllGen ι U → Prop} {ρ : AllGen ι U → Op S hs}

/-- The chain of base classes accepts and acts correctly. -/
theorem chain_ok (hcomm : ∀ g h, On g → On h → g.algebraId ≠ h.algebraId → ρ g * ρ h = ρ h * ρ g)
    (Cs : List (ActionClass ι U S)) (hC : ∀ C ∈ Cs, ActionContract C hs On ρ) (hid : (Cs.map ActionClass.id).Pairwise (· < ·))
    (m : List (AllGen ι U)) (hm : StoredProduct m) (hOn : ∀ g ∈ m, On g) (hcov : ∀ g ∈ m, g.algebraId ∈ Cs.map ActionClass.id) :
    ∃ as, chainMake hs Cs m = .ok as ∧ ActsLike (evalMon ρ m) (chainAct as) := by
  induction Cs generalizing m with
  | nil =>
    cases m with
    | nil => exact ⟨[], rfl, actsLike_one⟩
    | cons g m => exact absurd (hcov g (by simp)) (by simp)
  | cons C Cs ih =>
    cases Cs with
    | nil =>
      have hall : ∀ g ∈ m, g.algebraId = C.id ∧ On g := fun g hg => ⟨by simpa using hcov g hg, hOn g hg⟩
      obtain ⟨a, ha⟩ := (hC C (by simp)).accepts m hm hall
      exact ⟨[a], by simp [chainMake, ha], (hC C (by simp)).acts m a hm hall ha⟩
    | cons C' Cs =>
      rw [List.map_cons, List.pairwise_cons] at hid
      obtain ⟨p, q, h1, h2, h3, h4⟩ := hm.split C.id (fun g hg => by
        rcases List.mem_cons.1 (by simpa only [List.map_cons] using hcov g hg) with h | h
        · exact h.ge
        · exact (hid.1 _ (by simpa only [List.map_cons] using h)).le)
      subst h2
      have hp : ∀ g ∈ p, g.algebraId = C.id ∧ On g := fun g hg => ⟨h3 g hg, hOn g (by simp [hg])⟩
      obtain ⟨a, ha⟩ := (hC C (by simp)).accepts p hm.left hp
      obtain ⟨as, has, hact⟩ := ih (fun D hD => hC D (by simp [List.mem_cons] at hD ⊢; tauto)) hid.2 q hm.right
        (fun g hg => hOn g (by simp [hg])) (fun g hg => by
          have := hcov g (by simp [hg])
          rw [List.map_cons, List.mem_cons] at this
          rcases this with h | h
          · exact absurd h (h4 g hg).ne'
          · exact h)
      refine ⟨a :: as, by simp only [chainMake, h1, ha, has], ?_⟩
      rw [evalMon_comm ρ (fun g hg k hk => hcomm g k (hOn g (by simp [hg])) (hOn k (by simp [hk])) (by
        rw [h3 g hg]; exact (h4 k hk).ne))]
      have := actsLike_andThen ((hC C (by simp)).acts p a hm.left hp ha) hact
      cases as with
      | nil =>
        exfalso
        cases Cs with
        | nil => simp only [chainMake] at has; split at has <;> simp at has
        | cons D Ds =>
          simp only [chainMake] at has
          split at has
          · cases has
          · split at has
            · cases has
            · split at has <;> simp at has
      | cons b bs => exact this

/-- A generator that no class accepts makes the constructor throw. -/
theorem chain_error (Cs : List (ActionClass ι U S)) (hC : ∀ C ∈ Cs, Rejects C hs On) (m : List (AllGen ι U))
    (hbad : ∃ g ∈ m, ¬ On g ∨ g.algebraId ∉ Cs.map ActionClass.id) : ∃ e, chainMake hs Cs m = .error e := by
  induction Cs generalizing m with
  | nil =>
    obtain ⟨g, hg, -⟩ := hbad
    cases m with
    | nil => simp at hg
    | cons k m => exact ⟨_, rfl⟩
  | cons C Cs ih =>
    cases Cs with
    | nil =>
      obtain ⟨g, hg, h⟩ := hbad
      obtain ⟨e, he⟩ := hC C (by simp) m ⟨g, hg, by
        rintro ⟨h1, h2⟩
        rcases h with h | h
        · exact h h2
        · exact h (by simp [h1])⟩
      exact ⟨e, by simp [chainMake, he]⟩
    | cons C' Cs =>
      have hspl : ∀ (m p q : List (AllGen ι U)), findSubrangeAll C.id m = .ok (p, q) → m = p ++ q ∧ ∀ g ∈ p, g.algebraId = C.id := by
        intro m
        induction m with
        | nil => intro p q h; simp [findSubrangeAll] at h; obtain ⟨rfl, rfl⟩ := h; simp
        | cons k m ihm =>
          intro p q h
          rw [findSubrangeAll] at h
          split at h
          · cases h
          · split at h
            · next hk =>
              cases hf : findSubrangeAll C.id m with
              | error e => rw [hf] at h; cases h
              | ok r =>
                obtain ⟨p', q'⟩ := r
                rw [hf] at h
                simp only [Except.ok.injEq, Prod.mk.injEq] at h
                obtain ⟨rfl, rfl⟩ := h
                obtain ⟨h1, h2⟩ := ihm p' q' hf
                refine ⟨by rw [h1]; rfl, fun g hg => ?_⟩
                rcases List.mem_cons.1 hg with rfl | hg
                · exact hk
                · exact h2 g hg
            · simp only [Except.ok.injEq, Prod.mk.injEq] at h
              obtain ⟨rfl, rfl⟩ := h; simp
      rw [chainMake]
      cases hf : findSubrangeAll C.id m with
      | error e => exact ⟨e, rfl⟩
      | ok r =>
        obtain ⟨p, q⟩ := r
        obtain ⟨h1, h2⟩ := hspl m p q hf
        simp only
        cases hm : C.make p hs with
        | error e => exact ⟨e, rfl⟩
        | ok a =>
          simp only
          obtain ⟨e, he⟩ := ih (fun D hD => hC D (by simp [List.mem_cons] at hD ⊢; tauto)) q (by
            obtain ⟨g, hg, h⟩ := hbad
            rw [h1] at hg
            rcases List.mem_append.1 hg with hg | hg
            · exfalso
              rcases h with h | h
              · obtain ⟨e, he⟩ := hC C (by simp) p ⟨g, hg, fun h' => h h'.2⟩
                rw [hm] at he; cases he
              · exact h (by simp [h2 g hg])
            · refine ⟨g, hg, h.imp id fun h' => ?_⟩
              rw [List.map_cons, List.mem_cons, not_or] at h'
              exact h'.2)
          exact ⟨e, by rw [he]⟩

theorem evalMon_zero {A : Type _} [Ring A] {G : Type _} {ρ : G → A} {m : List G} (h : ∃ g ∈ m, ρ g = 0) : evalMon ρ m = 0 := by
  obtain ⟨g, hg, h⟩ := h
  exact List.prod_eq_zero (List.mem_map.2 ⟨g, hg, h⟩)

theorem evalMon_congr {A : Type _} [Ring A] {G : Type _} {ρ ρ' : G → A} {m : List G} (h : ∀ g ∈ m, ρ g = ρ' g) :
    evalMon ρ m = evalMon ρ' m := by
  unfold evalMon; rw [List.map_congr_left h]

/-- A chain that gives zero whenever one of its members does. -/
theorem chainAct_cons (a : Act S) (as : List (Act S)) : chainAct (a :: as) = fun k c => (a k c).andThen (chainAct as) := by
  funext k c
  cases as with
  | nil => simp only [chainAct]; cases a k c <;> rfl
  | cons b bs => rfl

theorem chain_total (Cs : List (ActionClass ι U S)) (hC : ∀ C ∈ Cs, ActionContract C hs On ρ) (hR : ∀ C ∈ Cs, RejectsOrVanishes C hs On)
    (hid : (Cs.map ActionClass.id).Pairwise (· < ·)) (m : List (AllGen ι U)) (hm : StoredProduct m)
    (hbad : ∃ g ∈ m, ¬ Known Cs On g) :
    (∃ e, chainMake hs Cs m = .error e) ∨ ∃ as, chainMake hs Cs m = .ok as ∧ ActsLike (0 : Op S hs) (chainAct as) := by
  induction Cs generalizing m with
  | nil =>
    obtain ⟨g, hg, -⟩ := hbad
    cases m with
    | nil => simp at hg
    | cons k m => exact .inl ⟨_, rfl⟩
  | cons C Cs ih =>
    cases Cs with
    | nil =>
      obtain ⟨g, hg, h⟩ := hbad
      rcases hR C (by simp) m ⟨g, hg, by
        rintro ⟨h1, h2⟩
        exact h ⟨h2, C, by simp, h1⟩⟩ with ⟨e, he⟩ | ⟨a, ha, hz⟩
      · exact .inl ⟨e, by simp [chainMake, he]⟩
      · exact .inr ⟨[a], by simp [chainMake, ha], fun k c => .inl ⟨hz _ _, fun t => rfl⟩⟩
    | cons C' Cs =>
      rw [List.map_cons, List.pairwise_cons] at hid
      by_cases hlow : ∀ g ∈ m, C.id ≤ g.algebraId
      · obtain ⟨p, q, h1, h2, h3, h4⟩ := hm.split C.id hlow
        subst h2
        have hunf : chainMake hs (C :: C' :: Cs) (p ++ q) = match C.make p hs with
            | .error e => .error e
            | .ok a => match chainMake hs (C' :: Cs) q with
              | .error e => .error e
              | .ok as => .ok (a :: as) := by
          simp only [chainMake, h1]
          cases C.make p hs with
          | error e => rfl
          | ok a => cases chainMake hs (C' :: Cs) q <;> rfl
        by_cases hp : ∀ g ∈ p, g.algebraId = C.id ∧ On g
        · obtain ⟨a, ha⟩ := (hC C (by simp)).accepts p hm.left hp
          have hact := (hC C (by simp)).acts p a hm.left hp ha
          rcases ih (fun D hD => hC D (by simp [List.mem_cons] at hD ⊢; tauto))
            (fun D hD => hR D (by simp [List.mem_cons] at hD ⊢; tauto)) hid.2 q hm.right (by
              obtain ⟨g, hg, hk⟩ := hbad
              rcases List.mem_append.1 hg with hg | hg
              · exact absurd ⟨(hp g hg).2, C, by simp, (hp g hg).1⟩ hk
              · refine ⟨g, hg, fun ⟨k1, D, hD, k2⟩ => hk ⟨k1, D, by simp [List.mem_cons] at hD ⊢; tauto, k2⟩⟩) with ⟨e, he⟩ | ⟨as, has, hz⟩
          · exact .inl ⟨e, by rw [hunf, ha, he]⟩
          · refine .inr ⟨a :: as, by rw [hunf, ha, has], ?_⟩
            have := actsLike_andThen hact hz
            rwa [zero_mul, ← chainAct_cons] at this
        · push Not at hp
          obtain ⟨g, hg, hn⟩ := hp
          rcases hR C (by simp) p ⟨g, hg, fun h => hn h.1 h.2⟩ with ⟨e, he⟩ | ⟨a, ha, hz⟩
          · exact .inl ⟨e, by rw [hunf, he]⟩
          · cases hq : chainMake hs (C' :: Cs) q with
            | error e => exact .inl ⟨e, by rw [hunf, ha, hq]⟩
            | ok as =>
              refine .inr ⟨a :: as, by rw [hunf, ha, hq], fun k c => .inl ⟨?_, fun t => rfl⟩⟩
              rw [chainAct_cons]; simp only [hz]; rfl
      · left
        push Not at hlow
        have : ∃ e, findSubrangeAll C.id m = .error e := by
          obtain ⟨g, hg, hlt⟩ := hlow
          cases m with
          | nil => simp at hg
          | cons k m =>
            have hk : k.algebraId < C.id := by
              rcases List.mem_cons.1 hg with rfl | hg
              · exact hlt
              · exact lt_of_le_of_lt (hm.ids_all g hg) hlt
            exact ⟨_, by rw [findSubrangeAll, if_pos hk]⟩
        obtain ⟨e, he⟩ := this
        exact ⟨e, by simp only [chainMake, he]⟩

end chain

/-! ### operators -/

section op
variable [AddCommMonoid T] [Module S T] [StateVec V T] [StateVec W T] [LawfulSV V T] [LawfulSV W T]

/-- The actions belong to the terms, as matrices. -/
def MadeLike (ρ : AllGen ι U → Op S hs) : List (List (Act S) × S) → List (List (AllGen ι U) × S) → Prop :=
  List.Forall₂ fun a p => ActsLike (evalMon ρ p.1) (chainAct a.1) ∧ a.2 = p.2

theorem userMake_ok {ρ : AllGen ι U → Op S hs} (Cs : List (ActionClass ι U S)) (l : List (List (AllGen ι U) × S))
    (h : ∀ p ∈ l, ∃ as, chainMake hs Cs p.1 = .ok as ∧ ActsLike (evalMon ρ p.1) (chainAct as)) :
    ∃ acts, UserLOperator.makeLoop Cs hs l = .ok acts ∧ MadeLike ρ acts l := by
  induction l with
  | nil => exact ⟨[], rfl, .nil⟩
  | cons p l ih =>
    obtain ⟨m, c⟩ := p
    obtain ⟨as, h1, h2⟩ := h (m, c) (by simp)
    obtain ⟨r, h3, h4⟩ := ih fun p hp => h p (by simp [hp])
    exact ⟨(as, c) :: r, by simp only [UserLOperator.makeLoop, h1, h3], .cons ⟨h2, rfl⟩ h4⟩

theorem userMake_error (Cs : List (ActionClass ι U S)) (l : List (List (AllGen ι U) × S))
    (h : ∃ p ∈ l, ∃ e, chainMake hs Cs p.1 = .error e) : ∃ e, UserLOperator.makeLoop Cs hs l = .error e := by
  induction l with
  | nil => obtain ⟨p, hp, -⟩ := h; simp at hp
  | cons p l ih =>
    obtain ⟨m, c⟩ := p
    rw [UserLOperator.makeLoop]
    cases hm : chainMake hs Cs m with
    | error e => exact ⟨e, rfl⟩
    | ok as =>
      simp only
      obtain ⟨q, hq, e, he⟩ := h
      rcases List.mem_cons.1 hq with rfl | hq
      · rw [hm] at he; cases he
      · obtain ⟨e', he'⟩ := ih ⟨q, hq, e, he⟩
        exact ⟨e', by rw [he']⟩

theorem userTerms_spec {ρ : AllGen ι U → Op S hs} {acts : List (List (Act S) × S)} {terms : List (List (AllGen ι U) × S)}
    (hmade : MadeLike ρ acts terms) (k : BasisState hs) (a : T) (w : W) (hw : LawfulSV.inv w)
    (ht : ∀ t, ValidState hs t → t ∈ LawfulSV.dom w) :
    ∃ w', UserLOperator.applyTerms k a acts w = .ok w' ∧ LawfulSV.inv w' ∧ LawfulSV.dom w' = LawfulSV.dom w ∧
      (∀ t : BasisState hs, LawfulSV.amp w' t = LawfulSV.amp w t + (evalTerms ρ terms) t k • a) ∧
      ∀ t, ¬ ValidState hs t → LawfulSV.amp w' t = LawfulSV.amp w t := by
  classical
  induction hmade generalizing w with
  | nil => exact ⟨w, rfl, hw, rfl, fun t => by simp [evalTerms], fun _ _ => rfl⟩
  | @cons x p acts terms hxp hmade ih =>
    obtain ⟨ma, c⟩ := x
    obtain ⟨m, c'⟩ := p
    obtain ⟨hma, hcc⟩ := hxp
    simp only at hma hcc
    subst hcc
    have hsum : ∀ t : BasisState hs, evalTerms ρ ((m, c) :: terms) t k = c * evalMon ρ m t k + evalTerms ρ terms t k := by
      intro t
      simp [evalTerms, Matrix.add_apply, Matrix.smul_apply]
    rcases hma k 1 with ⟨h1, h2⟩ | ⟨u, x, h1, h2⟩
    · obtain ⟨w2, f1, f2, f3, f4, f5⟩ := ih w hw ht
      refine ⟨w2, by simp only [UserLOperator.applyTerms, h1]; exact f1, f2, f3, fun t => ?_, f5⟩
      rw [f4, hsum, h2, mul_zero, zero_add]
    · obtain ⟨w1, e1, e2, e3, e4⟩ := LawfulSV.update w u ((c * (1 * x)) • a) hw (ht _ u.2)
      obtain ⟨w2, f1, f2, f3, f4, f5⟩ := ih w1 e2 (by rw [e3]; exact ht)
      refine ⟨w2, by simp only [UserLOperator.applyTerms, h1, e1]; exact f1, f2, f3.trans e3, fun t => ?_, fun t htv => ?_⟩
      · rw [f4, hsum, h2, e4, add_smul, add_assoc]
        congr 2
        by_cases h : t = u
        · rw [if_pos (by rw [h]), if_pos h, one_mul]
        · rw [if_neg (fun h' => h (Subtype.ext h')), if_neg h, mul_zero, zero_smul]
      · rw [f5 t htv, e4, if_neg, add_zero]
        intro h; exact htv (h ▸ u.2)

theorem userAll_spec {ρ : AllGen ι U → Op S hs} {acts : List (List (Act S) × S)} {terms : List (List (AllGen ι U) × S)}
    (hmade : MadeLike ρ acts terms) (l : List (Nat × T)) (hl : ∀ q ∈ l, ValidState hs q.1) (w : W) (hw : LawfulSV.inv w)
    (ht : ∀ t, ValidState hs t → t ∈ LawfulSV.dom w) :
    ∃ w', UserLOperator.applyAll acts l w = .ok w' ∧ LawfulSV.inv w' ∧ LawfulSV.dom w' = LawfulSV.dom w ∧
      (∀ t : BasisState hs, LawfulSV.amp w' t = LawfulSV.amp w t +
        (l.attach.map fun q => (evalTerms ρ terms) t ⟨q.1.1, hl q.1 q.2⟩ • q.1.2).sum) ∧
      ∀ t, ¬ ValidState hs t → LawfulSV.amp w' t = LawfulSV.amp w t := by
  induction l generalizing w with
  | nil => exact ⟨w, rfl, hw, rfl, fun t => by simp, fun _ _ => rfl⟩
  | cons q l ih =>
    obtain ⟨k, a⟩ := q
    obtain ⟨w1, e1, e2, e3, e4, e5⟩ := userTerms_spec hmade ⟨k, hl (k, a) (by simp)⟩ a w hw ht
    obtain ⟨w2, f1, f2, f3, f4, f5⟩ := ih (fun q hq => hl q (by simp [hq])) w1 e2 (by rw [e3]; exact ht)
    refine ⟨w2, by simp only [UserLOperator.applyAll, e1]; exact f1, f2, f3.trans e3, fun t => ?_,
      fun t h => (f5 t h).trans (e5 t h)⟩
    rw [f4, e4, List.attach_cons, List.map_cons, List.sum_cons, List.map_map, add_assoc]
    rfl

/-- Accumulation of `op` applied to `v` into `w`. -/
theorem userActImpl_spec {ρ : AllGen ι U → Op S hs} {acts : List (List (Act S) × S)} {e : Expr (AllGen ι U) S}
    (hmade : MadeLike ρ acts e.terms) (v : V) (w : W) (hv : LawfulSV.inv v) (hw : LawfulSV.inv w)
    (hdom : ∀ k ∈ LawfulSV.visited v, ValidState hs k) (ht : ∀ t, ValidState hs t → t ∈ LawfulSV.dom w) :
    ∃ w', UserLOperator.actImpl ⟨acts⟩ v w = .ok w' ∧ LawfulSV.inv w' ∧ LawfulSV.dom w' = LawfulSV.dom w ∧
      (∀ t : BasisState hs, LawfulSV.amp w' t = LawfulSV.amp w t + ∑ k : BasisState hs, evalExpr ρ e t k • LawfulSV.amp v k) ∧
      ∀ t, ¬ ValidState hs t → LawfulSV.amp w' t = LawfulSV.amp w t := by
  classical
  obtain ⟨l, h1, h2, h3, h4⟩ := LawfulSV.each v hv
  have hl : ∀ q ∈ l, ValidState hs q.1 := fun q hq => hdom _ ((h3 _).1 (List.mem_map.2 ⟨q, hq, rfl⟩))
  obtain ⟨w', e1, e2, e3, e4, e5⟩ := userAll_spec hmade l hl w hw ht
  refine ⟨w', by simp only [UserLOperator.actImpl, h1]; exact e1, e2, e3, fun t => ?_, e5⟩
  rw [e4]
  congr 1
  let f : Nat → T → T := fun k a => if h : ValidState hs k then evalExpr ρ e t ⟨k, h⟩ • a else 0
  have hA : (l.attach.map fun q => (evalTerms ρ e.terms) t ⟨q.1.1, hl q.1 q.2⟩ • q.1.2) = l.map fun q => f q.1 q.2 := by
    have hB : (l.map fun q => f q.1 q.2) = l.attach.map fun q => f q.1.1 q.1.2 := by
      conv_lhs => rw [← List.attach_map_subtype_val l, List.map_map]
      rfl
    rw [hB]
    refine List.map_congr_left fun q _ => ?_
    simp only [f, dif_pos (hl q.1 q.2)]
    rfl
  rw [hA, sum_keys l h2 f (LawfulSV.amp v) h4 (basisStates hs) (fun p hp => mem_basisStates.2 (hl p hp)) (fun k _ hk => by
    have : LawfulSV.amp v k = 0 := by
      by_contra h
      exact hk ((h3 k).2 (LawfulSV.visited_of_ne v k hv h))
    simp only [f, this, smul_zero, dite_eq_ite, ite_self])]
  rw [← Finset.sum_coe_sort (basisStates hs)]
  refine Finset.sum_bij (fun k _ => (⟨k.1, mem_basisStates.1 k.2⟩ : BasisState hs)) (fun _ _ => Finset.mem_univ _) ?_ ?_ ?_
  · intro a _ b _ h; exact Subtype.ext (Subtype.mk.inj h)
  · intro b _; exact ⟨⟨b.1, mem_basisStates.2 b.2⟩, Finset.mem_univ _, rfl⟩
  · intro a _
    simp only [f, dif_pos (mem_basisStates.1 a.2)]

end op
end LC
