import Verif.Proof.ExprLemmas
import Verif.Proof.Fixpoint
import Verif.Spec.Reachable
/-
Invariants of reachable expressions.
-/
set_option linter.unusedSectionVars false
set_option linter.unusedSimpArgs false
namespace LC
open Terms
variable {G S : Type _} [GenOps G] [LawfulGen G] [CommRing S] [DecidableEq S] [ConstScalar S] [ScalarLaws S]

/-- All stored monomials are canonical. -/
def Expr.AllCanon (P : G → Prop) (e : Expr G S) : Prop := ∀ p ∈ e.terms, CanonMon P p.1

/-- `conj` of a generator is well behaved with respect to `P`. -/
structure ConjOK (P : G → Prop) : Prop where
  good : ∀ g : G, (GenOps.conj g).Good
  mem : ∀ g : G, P g → ∀ p ∈ (GenOps.conj g).terms, P p.1

namespace Expr
variable {P : G → Prop}

theorem canonMon_nil : CanonMon P ([] : List G) := ⟨by simp, by simp, by simp⟩

theorem canonMon_keys {e : List (List G × S)} {t : Terms G S} (h : ∀ p ∈ t, CanonMon P p.1) (he : ∀ p ∈ e, CanonMon P p.1) :
    ∀ p ∈ storeAll e t, CanonMon P p.1 := by
  intro p hp
  rcases mem_storeAll hp with h' | ⟨q, hq, h'⟩
  · exact h p h'
  · rw [← h']; exact he q hq

theorem ac_zero : (0 : Expr G S).AllCanon P := by intro p hp; cases hp
theorem ac_const (x : S) : (const x : Expr G S).AllCanon P := by
  intro p hp
  simp only [const] at hp
  split at hp
  · simp at hp
  · simp at hp; subst hp; exact canonMon_nil

theorem ac_add {a b : Expr G S} (ha : a.AllCanon P) (hb : b.AllCanon P) : (a + b).AllCanon P := by
  rw [add_def]; exact canonMon_keys ha hb
theorem ac_neg {a : Expr G S} (ha : a.AllCanon P) : (-a).AllCanon P := by
  intro p hp
  simp only [neg_def, List.mem_map] at hp
  obtain ⟨q, hq, rfl⟩ := hp
  exact ha q hq
theorem ac_sub {a b : Expr G S} (ha : a.AllCanon P) (hb : b.AllCanon P) : (a - b).AllCanon P := by
  rw [sub_def]; exact canonMon_keys ha (ac_neg hb)
theorem ac_smul (x : S) {a : Expr G S} (ha : a.AllCanon P) : (smulPrefix x a).AllCanon P := by
  intro p hp
  simp only [smulPrefix] at hp
  split at hp
  · simp at hp
  · simp only [List.mem_map] at hp
    obtain ⟨q, hq, rfl⟩ := hp
    exact ha q hq
theorem ac_ofMonomial (hN : NFGen P) (x : S) (m : List G) (hm : ∀ g ∈ m, P g) : (ofMonomial x m).AllCanon P := by
  intro p hp
  simp only [ofMonomial] at hp
  split at hp
  · simp at hp
  · rw [normalize_store] at hp
    exact canonMon_keys (t := []) (by simp) (emits_canon hN m hm x) p hp
theorem ac_mul (hN : NFGen P) {a b : Expr G S} (ha : a.AllCanon P) (hb : b.AllCanon P) : (a * b).AllCanon P := by
  rw [mul_def]
  refine canonMon_keys (by simp) ?_
  intro p hp
  simp only [mulLog, List.mem_flatMap] at hp
  obtain ⟨q, hq, r, hr, hp⟩ := hp
  refine emits_canon hN _ ?_ _ p hp
  intro g hg
  rcases List.mem_append.1 hg with h | h
  · exact (ha q hq).mem g h
  · exact (hb r hr).mem g h

theorem ac_transform {a : Expr G S} (hw : a.WF) (ha : a.AllCanon P) (f : List G → S → S) :
    (a.transform f).AllCanon P := by
  intro p hp
  rw [transform_terms hw, List.mem_filterMap] at hp
  obtain ⟨q, hq, h⟩ := hp
  split at h
  · simp at h
  · simp at h; subst h; exact ha q hq

theorem ac_ofLinFun (hN : NFGen P) {f : LinFun G} (hf : ∀ p ∈ f.terms, P p.1) :
    (ofLinFun f : Expr G S).AllCanon P := by
  refine foldl_inv (I := fun e : Expr G S => e.AllCanon P) _ _ ?_ _ ?_
  · intro p hp e he
    simp only
    split
    · exact he
    · refine ac_add he (ac_ofMonomial hN _ _ ?_)
      intro g hg
      simp at hg; subst hg; exact hf p hp
  · intro p hp
    simp only at hp
    split at hp
    · simp at hp
    · simp at hp; subst hp; exact canonMon_nil

theorem ac_conj [Star S] (hN : NFGen P) (hC : ConjOK P) {a : Expr G S} (ha : a.AllCanon P) : a.conj.AllCanon P := by
  have : ∀ (l : List (List G × S)) (s : Expr G S × Expr G S), (∀ p ∈ l, ∀ g ∈ p.1, P g) →
      s.1.AllCanon P → s.2.AllCanon P →
      (l.foldl (fun (s : Expr G S × Expr G S) m =>
      let co := star m.2
      let contrib :=
        if co = 0 then s.2
        else m.1.reverse.foldl (fun e g => mulAssign e (ofLinFun (GenOps.conj g))) (const co)
      (addAssign s.1 contrib, contrib)) s).1.AllCanon P := by
    intro l
    induction l with
    | nil => intro s _ h _; exact h
    | cons p l ih =>
      intro s hl h1 h2
      rw [List.foldl_cons]
      have hc : (if star p.2 = 0 then s.2
        else p.1.reverse.foldl (fun e g => mulAssign e (ofLinFun (GenOps.conj g))) (const (star p.2))).AllCanon P := by
        split
        · exact h2
        · refine foldl_inv (I := fun e : Expr G S => e.AllCanon P) _ _ ?_ _ (ac_const _)
          intro g hg e he
          exact ac_mul hN he (ac_ofLinFun hN (hC.mem g (hl p (by simp) g (by simpa using hg))))
      exact ih _ (fun q hq => hl q (by simp [hq])) (ac_add h1 hc) hc
  exact this _ _ (fun p hp => (ha p hp).mem) ac_zero ac_zero

end Expr
open Expr

variable [Star S] {P : G → Prop}

theorem Reachable.wf [IsDomain S] [CharZero S] [GoodGen G] (hC : ∀ g : G, (GenOps.conj g).Good) {e : Expr G S}
    (h : Reachable P e) : e.WF := by
  induction h with
  | zero => exact wf_zero
  | const x => exact wf_const x
  | ofMonomial x m _ => exact wf_ofMonomial x m
  | add _ _ ha hb => exact wf_add ha hb
  | sub _ _ ha hb => exact wf_sub ha hb
  | mul _ _ ha hb => exact wf_mul ha hb
  | neg _ ha => exact wf_neg ha
  | addMixed _ _ ha hb => rw [addMixed_eq ha hb]; exact wf_add ha hb
  | subMixed _ _ ha hb => rw [subMixed_eq ha hb]; exact wf_sub ha hb
  | smulPrefix x _ ha => exact wf_smulPrefix x ha
  | smulPostfix x _ ha => rw [smulPostfix_eq]; exact wf_smulPrefix x ha
  | smulAssign x _ ha => rw [smulAssign_eq]; exact wf_smulPrefix x ha
  | addScalar x _ ha => rw [addScalar_eq]; exact wf_add ha (wf_const x)
  | scalarAdd x _ ha => rw [scalarAdd_eq]; exact wf_add ha (wf_const x)
  | addAssignScalar x _ ha => rw [addAssignScalar_eq]; exact wf_add ha (wf_const x)
  | subScalar x _ ha => rw [subScalar_eq]; exact wf_sub ha (wf_const x)
  | subAssignScalar x _ ha => rw [subAssignScalar_eq]; exact wf_sub ha (wf_const x)
  | scalarSub x _ ha => rw [scalarSub_eq ha]; exact wf_add (wf_neg ha) (wf_const x)
  | transform f _ ha => exact wf_transform ha f
  | conj _ _ => exact wf_conj hC _

theorem Reachable.allCanon [IsDomain S] [CharZero S] [GoodGen G] (hN : NFGen P) (hC : ConjOK P) {e : Expr G S}
    (h : Reachable P e) : e.AllCanon P := by
  induction h with
  | zero => exact ac_zero
  | const x => exact ac_const x
  | ofMonomial x m hm => exact ac_ofMonomial hN x m hm
  | add _ _ ha hb => exact ac_add ha hb
  | sub _ _ ha hb => exact ac_sub ha hb
  | mul _ _ ha hb => exact ac_mul hN ha hb
  | neg _ ha => exact ac_neg ha
  | addMixed h1 h2 ha hb => rw [addMixed_eq (h1.wf hC.good) (h2.wf hC.good)]; exact ac_add ha hb
  | subMixed h1 h2 ha hb => rw [subMixed_eq (h1.wf hC.good) (h2.wf hC.good)]; exact ac_sub ha hb
  | smulPrefix x _ ha => exact ac_smul x ha
  | smulPostfix x _ ha => rw [smulPostfix_eq]; exact ac_smul x ha
  | smulAssign x _ ha => rw [smulAssign_eq]; exact ac_smul x ha
  | addScalar x _ ha => rw [addScalar_eq]; exact ac_add ha (ac_const x)
  | scalarAdd x _ ha => rw [scalarAdd_eq]; exact ac_add ha (ac_const x)
  | addAssignScalar x _ ha => rw [addAssignScalar_eq]; exact ac_add ha (ac_const x)
  | subScalar x _ ha => rw [subScalar_eq]; exact ac_sub ha (ac_const x)
  | subAssignScalar x _ ha => rw [subAssignScalar_eq]; exact ac_sub ha (ac_const x)
  | scalarSub x h ha => rw [scalarSub_eq (h.wf hC.good)]; exact ac_add (ac_neg ha) (ac_const x)
  | transform f h ha => exact ac_transform (h.wf hC.good) ha f
  | conj _ ha => exact ac_conj hN hC ha

end LC
