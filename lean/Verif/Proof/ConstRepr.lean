import Verif.Spec.ConstRepr
import Verif.Proof.FixedInt
/-
The sums of coefficients that normalisation stores do not depend on how structure constants are written.
-/
set_option linter.unusedSectionVars false
set_option linter.unusedSimpArgs false
set_option linter.unusedVariables false
namespace LC.Any.ConstRepr
open Terms Any.FixedInt

variable {G G' S T : Type _} [GenOps G] [GenOps G'] [CommRing S] [ThrowOps S]

theorem isZero_iff {v : VarNumber} (h : v.Defined) : v.isZero = true ↔ v.rat = 0 := by
  cases v with
  | integer i => simp [VarNumber.isZero, VarNumber.rat]
  | rational a b =>
    have hb : b ≠ 0 := h
    simp [VarNumber.isZero, VarNumber.rat, div_eq_zero_iff, hb]
  | real x => simp [VarNumber.isZero, VarNumber.rat]

theorem isZero_same {v w : VarNumber} (h : v.SameNumber w) : w.isZero = v.isZero := by
  rw [Bool.eq_iff_iff, isZero_iff h.1, isZero_iff h.2.1, h.2.2]

theorem eq_zero {v : VarNumber} (h : v.eq (.integer 0) = true) : v = .integer 0 := by
  cases v with
  | integer i => simp [VarNumber.eq] at h; rw [h]
  | _ => cases h

section
variable (h : ValueScalar S) {θ : G ≃ G'} (hθ : SameAlgebra θ)
include h hθ

/-- The two functions agree. -/
def SimN (θ : G ≃ G') (N : List G → S → T → T) (N' : List G' → S → T → T) : Prop := ∀ m c t, N' (m.map θ) c t = N m c t

def mapRes (θ : G ≃ G') : PassRes G S T → PassRes G' S T
  | .done t => .done t
  | .cont m c sw t => .cont (m.map θ) c sw t

/-- Same outcome, or two outcomes without further effect. -/
def Res (θ : G ≃ G') (r : PassRes G S T) (r' : PassRes G' S T) : Prop :=
  r' = mapRes θ r ∨ ∃ t, Idle (RingHom.id S) t r ∧ Idle (RingHom.id S) t r'

omit h hθ in
theorem foldl_sim {α β : Type _} {R : α → β → Prop} {f : T → α → T} {f' : T → β → T} {l : List α} {l' : List β}
    (hl : List.Forall₂ R l l') (hf : ∀ t a b, R a b → f' t b = f t a) (t : T) : l'.foldl f' t = l.foldl f t := by
  induction hl generalizing t with
  | nil => rfl
  | cons hab _ ih => rw [List.foldl_cons, List.foldl_cons, hf _ _ _ hab, ih]

theorem processF_sim {N : List G → S → T → T} {N' : List G' → S → T → T} (hN : SimN θ N N') (pre post : List G) {f : LinFun G}
    {f' : LinFun G'} (hf : f.SameNumbers θ f') (c : S) (t : T) :
    processF N' (pre.map θ) (post.map θ) f' c t = processF N pre post f c t := by
  rw [processF, processF, foldl_sim hf.terms]
  · rw [isZero_same hf.const, ← h.same _ _ hf.const, ← List.map_append, hN]
  · intro t a b hab
    rw [hab.1, ← h.same _ _ hab.2, ← hN]
    simp

theorem pass_sim {N : List G → S → T → T} {N' : List G' → S → T → T} (hN : SimN θ N N') (hD : DropN (RingHom.id S) N)
    (hD' : DropN (RingHom.id S) N') (cnt : Nat) (pre : List G) (x : G)
    (rest : List G) (c : S) (sw : Bool) (t : T) :
    Res θ (pass N cnt pre x rest c sw t) (pass N' cnt (pre.map θ) (θ x) (rest.map θ) c sw t) := by
  have h0 : (ScalarOps.makeConst (.integer 0) : S) = 0 := h.zero.2
  induction cnt generalizing pre x rest c sw t with
  | zero => left; simp [pass, mapRes]
  | succ cnt ih =>
    cases rest with
    | nil => left; simp [pass, mapRes]
    | cons y rest =>
      simp only [pass, List.map_cons, hθ.gt]
      cases hg : GenOps.gt x y with
      | true =>
        simp only [if_true]
        obtain ⟨hs, hf⟩ := hθ.swap x y hg
        rw [processF_sim h hθ hN pre rest hf]
        generalize GenOps.swapWith x y = cf at hs hf
        generalize GenOps.swapWith (θ x) (θ y) = cf' at hs hf
        by_cases e : cf.1.eq (.integer 0) = true
        · rw [if_pos e]
          by_cases e' : cf'.1.eq (.integer 0) = true
          · rw [if_pos e']; left; rfl
          · rw [if_neg e']
            right
            refine ⟨_, rfl, pass_drop h.toRingScalar (RingHom.id S) hD' cnt _ _ _ ?_ _ _⟩
            rw [RingHom.id_apply, h.mul, ← h.same _ _ hs, eq_zero e, h0, mul_zero]
        · rw [if_neg e]
          by_cases e' : cf'.1.eq (.integer 0) = true
          · rw [if_pos e']
            right
            refine ⟨_, pass_drop h.toRingScalar (RingHom.id S) hD cnt _ _ _ ?_ _ _, rfl⟩
            rw [RingHom.id_apply, h.mul, h.same _ _ hs, eq_zero e', h0, mul_zero]
          · rw [if_neg e', ← h.same _ _ hs]
            have := ih (pre ++ [y]) x rest (ScalarOps.mul c (ScalarOps.makeConst cf.1)) true (processF N pre rest cf.2 c t)
            simpa using this
      | false =>
        simp only [Bool.false_eq_true, if_false]
        have hs := hθ.simp x y hg
        generalize GenOps.simplifyProd x y = o at hs
        generalize GenOps.simplifyProd (θ x) (θ y) = o' at hs
        cases hs with
        | none => 
          have := ih (pre ++ [x]) y rest c sw t
          simpa using this
        | some hf => left; simp only [processF_sim h hθ hN pre rest hf, mapRes]

theorem sortLoop_sim {N : List G → S → T → T} {N' : List G' → S → T → T} (hN : SimN θ N N') (hD : DropN (RingHom.id S) N)
    (hD' : DropN (RingHom.id S) N') (nmax : Nat) (m : List G) (c : S) (t : T) :
    Res θ (sortLoop N nmax m c t) (sortLoop N' nmax (m.map θ) c t) := by
  induction nmax generalizing m c t with
  | zero =>
    cases m with
    | nil => left; simp [sortLoop, mapRes]
    | cons x rest =>
      have hp := pass_sim h hθ hN hD hD' 0 [] x rest c false t
      simp only [sortLoop, List.map_cons]
      simp only [List.map_nil] at hp
      generalize pass N 0 [] x rest c false t = r at hp ⊢
      generalize pass N' 0 [] (θ x) (rest.map θ) c false t = r' at hp ⊢
      rcases hp with rfl | ⟨t0, h1, h2⟩
      · left
        cases r with
        | done t' => rfl
        | cont m' c' sw t' => cases sw <;> rfl
      · right
        refine ⟨t0, ?_, ?_⟩
        · cases r with
          | done t' => exact h1
          | cont m' c' sw t' => cases sw <;> exact h1
        · cases r' with
          | done t' => exact h2
          | cont m' c' sw t' => cases sw <;> exact h2
  | succ nmax ih =>
    cases m with
    | nil => left; simp [sortLoop, mapRes]
    | cons x rest =>
      have hp := pass_sim h hθ hN hD hD' (nmax + 1) [] x rest c false t
      simp only [sortLoop, List.map_cons]
      simp only [List.map_nil] at hp
      generalize pass N (nmax + 1) [] x rest c false t = r at hp ⊢
      generalize pass N' (nmax + 1) [] (θ x) (rest.map θ) c false t = r' at hp ⊢
      rcases hp with rfl | ⟨t0, h1, h2⟩
      · cases r with
        | done t' => left; rfl
        | cont m' c' sw t' =>
          cases sw with
          | false => left; rfl
          | true => exact ih _ _ _
      · right
        refine ⟨t0, ?_, ?_⟩
        · cases r with
          | done t' => exact h1
          | cont m' c' sw t' =>
            cases sw with
            | false => exact h1
            | true =>
              obtain ⟨rfl, hc⟩ := h1
              exact sortLoop_drop h.toRingScalar (RingHom.id S) hD nmax m' hc t'
        · cases r' with
          | done t' => exact h2
          | cont m' c' sw t' =>
            cases sw with
            | false => exact h2
            | true =>
              obtain ⟨rfl, hc⟩ := h2
              exact sortLoop_drop h.toRingScalar (RingHom.id S) hD' nmax m' hc t'

theorem normStep_sim {N R : List G → S → T → T} {N' R' : List G' → S → T → T} (hN : SimN θ N N') (hR : SimN θ R R')
    (hD : DropN (RingHom.id S) N) (hD' : DropN (RingHom.id S) N') :
    SimN θ (normStep N R) (normStep N' R') := by
  intro m c t
  simp only [normStep, List.length_map]
  split
  · have hp := sortLoop_sim h hθ hN hD hD' (m.length - 1) m c t
    generalize sortLoop N (m.length - 1) m c t = r at hp ⊢
    generalize sortLoop N' (m.length - 1) (m.map θ) c t = r' at hp ⊢
    rcases hp with rfl | ⟨t0, h1, h2⟩
    · cases r with
      | done t' => rfl
      | cont m' c' sw t' => simp only [mapRes, hR _ _ _]
    · have key1 : (match r with
          | .done t' => t'
          | .cont m' c' _ t' => if ScalarOps.isZero c' = true then t' else R m' c' t') = t0 := by
        cases r with
        | done t' => exact h1
        | cont m' c' sw t' =>
          obtain ⟨rfl, hc⟩ := h1
          rw [RingHom.id_apply] at hc
          simp only
          rw [if_pos ((h.isZero _).2 hc)]
      have key2 : (match r' with
          | .done t' => t'
          | .cont m' c' _ t' => if ScalarOps.isZero c' = true then t' else R' m' c' t') = t0 := by
        cases r' with
        | done t' => exact h2
        | cont m' c' sw t' =>
          obtain ⟨rfl, hc⟩ := h2
          rw [RingHom.id_apply] at hc
          simp only
          rw [if_pos ((h.isZero _).2 hc)]
      cases r <;> cases r' <;> simp_all
  · exact hR _ _ _

theorem vanishing_same {f : LinFun G} {f' : LinFun G'} (hf : f.SameNumbers θ f') : f'.vanishing = f.vanishing := by
  simp only [LinFun.vanishing, isZero_same hf.const]
  have := hf.terms
  generalize f.terms = l at this
  generalize f'.terms = l' at this
  cases this <;> rfl

theorem reduceLoop_sim {st N R : List G → S → T → T} {st' N' R' : List G' → S → T → T} (hst : SimN θ st st') (hN : SimN θ N N')
    (hR : SimN θ R R') (pre run : List G) (x : G) (rest : List G) {f : LinFun G} {f' : LinFun G'} (hf : f.SameNumbers θ f') (c : S) (t : T) :
    reduceLoop st' N' R' (pre.map θ) (run.map θ) (θ x) (rest.map θ) f' c t = reduceLoop st N R pre run x rest f c t := by
  induction rest generalizing pre run x f f' with
  | nil => simp only [reduceLoop, List.map_nil, ← List.map_append]; exact hst _ _ _
  | cons y rest ih =>
    have i1 := ih pre (run ++ [y]) y hf
    have i2 := ih (pre ++ run) [y] y hf
    obtain ⟨hb, hr⟩ := hθ.red x (run.length + 1) f f' hf
    have i3 := ih pre (run ++ [y]) y hr
    simp only [List.map_append, List.map_cons, List.map_nil] at i1 i2 i3
    simp only [reduceLoop, List.map_cons, hθ.eq, List.length_map, hb, vanishing_same h hθ hr, i1, i2, i3]
    congr 1
    congr 1
    congr 1
    congr 1
    rw [foldl_sim hr.terms]
    · rw [← h.same _ _ hr.const, ← List.map_append, hR]
    · intro t a b hab
      rw [hab.1, ← h.same _ _ hab.2, ← hN]
      simp

theorem zero_same : LinFun.SameNumbers θ (LinFun.zero : LinFun G) (LinFun.zero : LinFun G') :=
  ⟨⟨trivial, trivial, rfl⟩, .nil⟩

theorem both_sim {st : List G → S → T → T} {st' : List G' → S → T → T} (hst : SimN θ st st') (hD : DropN (RingHom.id S) st)
    (hD' : DropN (RingHom.id S) st') (n : Nat) :
    SimN θ (both st n).1 (both st' n).1 ∧ SimN θ (both st n).2 (both st' n).2 := by
  induction n with
  | zero => exact ⟨fun _ _ _ => rfl, fun _ _ _ => rfl⟩
  | succ n ih =>
    have hd := both_drop h.toRingScalar (RingHom.id S) hD n
    have hd' := both_drop h.toRingScalar (RingHom.id S) hD' n
    have hR : SimN θ (reduceStep st (both st n).1 (both st n).2) (reduceStep st' (both st' n).1 (both st' n).2) := by
      intro m c t
      cases m with
      | nil => exact hst [] _ _
      | cons x rest => exact reduceLoop_sim h hθ hst ih.1 ih.2 [] [x] x rest (zero_same h hθ) c t
    exact ⟨normStep_sim h hθ ih.1 hR hd.1 hd'.1, hR⟩

/-- What normalisation stores under `k`. -/
theorem emits_sim (m : List G) (c : S) (k : List G) : sumAt (emits (m.map θ) c) (k.map θ) = sumAt (emits m c) k := by
  classical
  have e := (both_sim (T := S) h hθ (st := fun m c a => a + c * (if k = m then 1 else 0))
    (st' := fun m c a => a + c * (if k.map θ = m then 1 else 0)) (fun m c t => by
      simp only [List.map_inj_right (fun _ _ e => θ.injective e)])
    (fun m c t hc => by simp only [RingHom.id_apply] at hc; simp [hc])
    (fun m c t hc => by simp only [RingHom.id_apply] at hc; simp [hc]) (m.length + 1)).1 m c 0
  have e : normalize (fun m c a => a + c * (if k.map θ = m then 1 else 0)) (m.map θ) c (0 : S)
      = normalize (fun m c a => a + c * (if k = m then 1 else 0)) m c (0 : S) := by
    simp only [normalize, List.length_map]; exact e
  rw [normalize_eq_foldl, normalize_eq_foldl] at e
  have e1 := foldl_sumAt (RingHom.id S) (k.map θ) (emits (m.map θ) c) 0
  have e2 := foldl_sumAt (RingHom.id S) k (emits m c) 0
  simp only [RingHom.id_apply, zero_add] at e1 e2
  rw [← e1, ← e2]
  exact e

end
section prog
variable [LawfulGen G] [LawfulGen G']

/-- Sorted, with the same coefficients. -/
structure Rel (θ : G ≃ G') (e : Expr G S) (e' : Expr G' S) : Prop where
  sorted : e.terms.Sorted
  sorted' : e'.terms.Sorted
  at_ : ∀ k, tat e'.terms (k.map θ) = tat e.terms k

variable (h : ValueScalar S) {θ : G ≃ G'} (hθ : SameAlgebra θ)
include h hθ

theorem rel_mul {a b : Expr G S} {a' b' : Expr G' S} (ha : Rel θ a a') (hb : Rel θ b b') :
    Rel θ (Any.mulAssign a b) (Any.mulAssign a' b') := by
  classical
  have hr := h.toRingScalar
  rw [mulAssign_eq, mulAssign_eq]
  refine ⟨sorted_storeAll hr _ List.Pairwise.nil, sorted_storeAll hr _ List.Pairwise.nil, fun k => ?_⟩
  let emb : List G ↪ List G' := ⟨List.map θ, List.map_injective_iff.2 θ.injective⟩
  let K : Finset (List G) := (a.terms.map Prod.fst ++ b.terms.map Prod.fst ++ a'.terms.map (fun p => p.1.map θ.symm) ++
    b'.terms.map (fun p => p.1.map θ.symm)).toFinset
  have hK : (∀ p ∈ a.terms, p.1 ∈ K) ∧ (∀ p ∈ b.terms, p.1 ∈ K) := by
    refine ⟨?_, ?_⟩ <;> intro p hp <;> simp only [K, List.mem_toFinset, List.mem_append] <;>
      have hm := List.mem_map_of_mem (f := Prod.fst) hp <;> tauto
  have hK' : (∀ p ∈ a'.terms, p.1 ∈ K.map emb) ∧ (∀ p ∈ b'.terms, p.1 ∈ K.map emb) := by
    refine ⟨?_, ?_⟩ <;> intro p hp <;> refine Finset.mem_map.2 ⟨p.1.map θ.symm, ?_, by simp [emb, Function.comp_def]⟩ <;>
      simp only [K, List.mem_toFinset, List.mem_append] <;>
      have hm := List.mem_map_of_mem (f := fun p : List G' × S => p.1.map θ.symm) hp <;> tauto
  rw [tat_mul hr ha.sorted hb.sorted K hK.1 hK.2, tat_mul hr ha.sorted' hb.sorted' (K.map emb) hK'.1 hK'.2, Finset.sum_map]
  refine Finset.sum_congr rfl fun i _ => ?_
  rw [Finset.sum_map]
  refine Finset.sum_congr rfl fun j _ => ?_
  show sumAt (emits (i.map θ ++ j.map θ) (tat a'.terms (i.map θ) * tat b'.terms (j.map θ))) _ = _
  rw [ha.at_, hb.at_, ← List.map_append, emits_sim h hθ]

theorem run_rel (lit : Int → S) (p : IntProg G) {e : Expr G S} {e' : Expr G' S} (he : p.run lit = some e)
    (he' : (p.map θ).run lit = some e') : Rel θ e e' := by
  have hr := h.toRingScalar
  classical
  induction p generalizing e e' with
  | const x =>
    cases he; cases he'
    refine ⟨(tat_const hr _ []).1, (tat_const hr _ []).1, fun k => ?_⟩
    rw [(tat_const hr _ k).2, (tat_const hr _ (k.map θ)).2]; simp only [List.map_eq_nil_iff]
  | monomial x m =>
    rw [thr_ofMonomial hr he, thr_ofMonomial hr he']
    refine ⟨(tat_ofMonomial hr _ _ []).1, (tat_ofMonomial hr _ _ []).1, fun k => ?_⟩
    rw [(tat_ofMonomial hr _ _ k).2, (tat_ofMonomial hr _ _ (k.map θ)).2, emits_sim h hθ]
  | add p q ihp ihq =>
    obtain ⟨a, ha, he⟩ := Option.bind_eq_some_iff.1 he
    obtain ⟨b, hb, rfl⟩ := Option.map_eq_some_iff.1 he
    obtain ⟨a', ha', he'⟩ := Option.bind_eq_some_iff.1 (show _ = some e' from he')
    obtain ⟨b', hb', rfl⟩ := Option.map_eq_some_iff.1 he'
    have ra := ihp ha ha'; have rb := ihq hb hb'
    exact ⟨sorted_addAssign ra.sorted, sorted_addAssign ra.sorted', fun k => by
      rw [tat_add hr ra.sorted rb.sorted, tat_add hr ra.sorted' rb.sorted', ra.at_, rb.at_]⟩
  | sub p q ihp ihq =>
    obtain ⟨a, ha, he⟩ := Option.bind_eq_some_iff.1 he
    obtain ⟨b, hb, rfl⟩ := Option.map_eq_some_iff.1 he
    obtain ⟨a', ha', he'⟩ := Option.bind_eq_some_iff.1 (show _ = some e' from he')
    obtain ⟨b', hb', rfl⟩ := Option.map_eq_some_iff.1 he'
    have ra := ihp ha ha'; have rb := ihq hb hb'
    exact ⟨sorted_subAssign ra.sorted, sorted_subAssign ra.sorted', fun k => by
      rw [tat_sub hr ra.sorted rb.sorted, tat_sub hr ra.sorted' rb.sorted', ra.at_, rb.at_]⟩
  | mul p q ihp ihq =>
    obtain ⟨a, ha, he⟩ := Option.bind_eq_some_iff.1 he
    obtain ⟨b, hb, he⟩ := Option.bind_eq_some_iff.1 he
    obtain ⟨a', ha', he'⟩ := Option.bind_eq_some_iff.1 (show _ = some e' from he')
    obtain ⟨b', hb', he'⟩ := Option.bind_eq_some_iff.1 (show _ = some e' from he')
    rw [thr_mul hr he, thr_mul hr he']
    exact rel_mul h hθ (ihp ha ha') (ihq hb hb')
  | neg p ih =>
    obtain ⟨a, ha, rfl⟩ := Option.map_eq_some_iff.1 he
    obtain ⟨a', ha', rfl⟩ := Option.map_eq_some_iff.1 he'
    have r := ih ha ha'
    exact ⟨sorted_mapV _ r.sorted, sorted_mapV _ r.sorted', fun k => by rw [tat_neg hr, tat_neg hr, r.at_]⟩
  | smul x p ih =>
    obtain ⟨a, ha, rfl⟩ := Option.map_eq_some_iff.1 he
    obtain ⟨a', ha', rfl⟩ := Option.map_eq_some_iff.1 he'
    have r := ih ha ha'
    exact ⟨sorted_smulPrefix hr _ r.sorted, sorted_smulPrefix hr _ r.sorted', fun k => by
      rw [tat_smulPrefix hr, tat_smulPrefix hr, r.at_]⟩
  | muls p x ih =>
    obtain ⟨a, ha, rfl⟩ := Option.map_eq_some_iff.1 he
    obtain ⟨a', ha', rfl⟩ := Option.map_eq_some_iff.1 he'
    have r := ih ha ha'
    exact ⟨sorted_smulPostfix hr _ r.sorted, sorted_smulPostfix hr _ r.sorted', fun k => by
      rw [tat_smulPostfix hr, tat_smulPostfix hr, r.at_]⟩
  | addScalar p x ih =>
    obtain ⟨a, ha, rfl⟩ := Option.map_eq_some_iff.1 he
    obtain ⟨a', ha', rfl⟩ := Option.map_eq_some_iff.1 he'
    have r := ih ha ha'
    refine ⟨(tat_addScalar hr r.sorted _ []).1, (tat_addScalar hr r.sorted' _ []).1, fun k => ?_⟩
    rw [(tat_addScalar hr r.sorted _ k).2, (tat_addScalar hr r.sorted' _ (k.map θ)).2, r.at_]; simp only [List.map_eq_nil_iff]
  | addAssignScalar p x ih =>
    obtain ⟨a, ha, rfl⟩ := Option.map_eq_some_iff.1 he
    obtain ⟨a', ha', rfl⟩ := Option.map_eq_some_iff.1 he'
    have r := ih ha ha'
    refine ⟨(tat_addAssignScalar hr r.sorted _ []).1, (tat_addAssignScalar hr r.sorted' _ []).1, fun k => ?_⟩
    rw [(tat_addAssignScalar hr r.sorted _ k).2, (tat_addAssignScalar hr r.sorted' _ (k.map θ)).2, r.at_]; simp only [List.map_eq_nil_iff]
  | subScalar p x ih =>
    obtain ⟨a, ha, rfl⟩ := Option.map_eq_some_iff.1 he
    obtain ⟨a', ha', rfl⟩ := Option.map_eq_some_iff.1 he'
    have r := ih ha ha'
    refine ⟨(tat_subScalar hr r.sorted _ []).1, (tat_subScalar hr r.sorted' _ []).1, fun k => ?_⟩
    rw [(tat_subScalar hr r.sorted _ k).2, (tat_subScalar hr r.sorted' _ (k.map θ)).2, r.at_]; simp only [List.map_eq_nil_iff]
  | scalarSub x p ih =>
    obtain ⟨a, ha, rfl⟩ := Option.map_eq_some_iff.1 he
    obtain ⟨a', ha', rfl⟩ := Option.map_eq_some_iff.1 he'
    have r := ih ha ha'
    refine ⟨(tat_scalarSub hr r.sorted _ []).1, (tat_scalarSub hr r.sorted' _ []).1, fun k => ?_⟩
    rw [(tat_scalarSub hr r.sorted _ k).2, (tat_scalarSub hr r.sorted' _ (k.map θ)).2, r.at_]; simp only [List.map_eq_nil_iff]

end prog
end LC.Any.ConstRepr
