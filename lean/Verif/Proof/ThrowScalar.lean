import Verif.Spec.ThrowScalar
import Verif.Proof.AnyNormalize
/-
Simulation of the throwing model by the total one, and absence of exceptions.
-/
set_option linter.unusedSectionVars false
set_option linter.unusedVariables false
namespace LC.Thr
open LC

section sim
variable {G S S' T T' : Type _} [GenOps G] [ThrowOps S] [ScalarOps S'] {φ : S → S'} {ψ : T → T'}

/-- `N'` does what `N` does, unless `N` throws. -/
def SimN (φ : S → S') (ψ : T → T') (N : List G → S → T → Option T) (N' : List G → S' → T' → T') : Prop :=
  ∀ m c t t', N m c t = some t' → N' m (φ c) (ψ t) = ψ t'

def mapRes (φ : S → S') (ψ : T → T') : PassRes G S T → PassRes G S' T'
  | .done t => .done (ψ t)
  | .cont m c sw t => .cont m (φ c) sw (ψ t)

theorem makeConst_some {v : VarNumber} {x : S} (h : makeConst v = some x) :
    ThrowOps.representable S v = true ∧ x = ScalarOps.makeConst v := by
  unfold makeConst at h
  split at h
  · cases h; exact ⟨by assumption, rfl⟩
  · cases h

theorem foldlM_sim {α : Type _} {f : T → α → Option T} {f' : T' → α → T'} (hf : ∀ t a t', f t a = some t' → f' (ψ t) a = ψ t')
    (l : List α) (t t' : T) (h : l.foldlM f t = some t') : l.foldl f' (ψ t) = ψ t' := by
  induction l generalizing t with
  | nil => simp only [List.foldlM_nil] at h; cases h; rfl
  | cons a l ih =>
    rw [List.foldlM_cons] at h
    obtain ⟨s, hs, h⟩ := Option.bind_eq_some_iff.1 h
    rw [List.foldl_cons, hf _ _ _ hs, ih _ h]

variable (hφ : ScalarEmbedding φ)
include hφ

theorem makeConst_sim {v : VarNumber} {x : S} (h : makeConst v = some x) : φ x = ScalarOps.makeConst v := by
  obtain ⟨h1, rfl⟩ := makeConst_some h
  exact hφ.makeConst v h1

theorem processF_sim {N : List G → S → T → Option T} {N' : List G → S' → T' → T'} (hN : SimN φ ψ N N') (pre post : List G)
    (f : LinFun G) (c : S) (t t' : T) (h : processF N pre post f c t = some t') :
    Any.processF N' pre post f (φ c) (ψ t) = ψ t' := by
  rw [processF] at h
  obtain ⟨s, hs, h⟩ := Option.bind_eq_some_iff.1 h
  have h0 : (if f.const.isZero then ψ t else N' (pre ++ post) (ScalarOps.mul (φ c) (ScalarOps.makeConst f.const)) (ψ t)) = ψ s := by
    split at hs
    · rename_i e; cases hs; rw [if_pos e]
    · rename_i e
      obtain ⟨v, hv, hs⟩ := Option.bind_eq_some_iff.1 hs
      rw [if_neg e, ← makeConst_sim hφ hv, ← hφ.mul]
      exact hN _ _ _ _ hs
  rw [Any.processF, h0]
  refine foldlM_sim (f' := fun t gv => N' (pre ++ gv.1 :: post) (ScalarOps.mul (φ c) (ScalarOps.makeConst gv.2)) t) ?_ _ _ _ h
  intro t a t' h
  obtain ⟨v, hv, h⟩ := Option.bind_eq_some_iff.1 h
  rw [← makeConst_sim hφ hv, ← hφ.mul]
  exact hN _ _ _ _ h

theorem pass_sim {N : List G → S → T → Option T} {N' : List G → S' → T' → T'} (hN : SimN φ ψ N N') (cnt : Nat) (pre : List G)
    (x : G) (rest : List G) (c : S) (sw : Bool) (t : T) (r : PassRes G S T) (h : pass N cnt pre x rest c sw t = some r) :
    Any.pass N' cnt pre x rest (φ c) sw (ψ t) = mapRes φ ψ r := by
  induction cnt generalizing pre x rest c sw t with
  | zero => simp only [pass] at h; cases h; rfl
  | succ cnt ih =>
    cases rest with
    | nil => simp only [pass] at h; cases h; rfl
    | cons y rest =>
      simp only [pass] at h
      simp only [Any.pass]
      split at h
      · rename_i hg
        rw [if_pos hg]
        obtain ⟨s, hs, h⟩ := Option.bind_eq_some_iff.1 h
        rw [processF_sim hφ hN _ _ _ _ _ _ hs]
        split at h
        · rename_i e; cases h; rw [if_pos e]; rfl
        · rename_i e
          obtain ⟨v, hv, h⟩ := Option.bind_eq_some_iff.1 h
          rw [if_neg e, ← makeConst_sim hφ hv, ← hφ.mul]
          exact ih _ _ _ _ _ _ h
      · rename_i hg
        rw [if_neg hg]
        cases hf : GenOps.simplifyProd x y with
        | some f =>
          rw [hf] at h
          obtain ⟨s, hs, rfl⟩ := Option.map_eq_some_iff.1 h
          simp only
          rw [processF_sim hφ hN _ _ _ _ _ _ hs]; rfl
        | none =>
          rw [hf] at h
          exact ih _ _ _ _ _ _ h

theorem sortLoop_sim {N : List G → S → T → Option T} {N' : List G → S' → T' → T'} (hN : SimN φ ψ N N') (nmax : Nat) (m : List G)
    (c : S) (t : T) (r : PassRes G S T) (h : sortLoop N nmax m c t = some r) :
    Any.sortLoop N' nmax m (φ c) (ψ t) = mapRes φ ψ r := by
  induction nmax generalizing m c t with
  | zero =>
    cases m with
    | nil => simp only [sortLoop] at h; cases h; rfl
    | cons x rest =>
      simp only [sortLoop] at h
      simp only [Any.sortLoop]
      split at h
      · cases h
      all_goals
        rename_i e
        rw [pass_sim hφ hN _ _ _ _ _ _ _ _ e]
        cases h; rfl
  | succ nmax ih =>
    cases m with
    | nil => simp only [sortLoop] at h; cases h; rfl
    | cons x rest =>
      simp only [sortLoop] at h
      simp only [Any.sortLoop]
      split at h
      · cases h
      · rename_i e
        rw [pass_sim hφ hN _ _ _ _ _ _ _ _ e]
        cases h; rfl
      · rename_i e
        rw [pass_sim hφ hN _ _ _ _ _ _ _ _ e]
        cases h; rfl
      · rename_i e
        rw [pass_sim hφ hN _ _ _ _ _ _ _ _ e]
        exact ih _ _ _ h

theorem normStep_sim {N R : List G → S → T → Option T} {N' R' : List G → S' → T' → T'} (hN : SimN φ ψ N N') (hR : SimN φ ψ R R') :
    SimN φ ψ (normStep N R) (Any.normStep N' R') := by
  intro m c t t' h
  simp only [normStep] at h
  simp only [Any.normStep]
  split at h
  · rename_i e
    rw [if_pos e]
    obtain ⟨r, hr, h⟩ := Option.bind_eq_some_iff.1 h
    rw [sortLoop_sim hφ hN _ _ _ _ _ hr]
    cases r with
    | done s => simp only at h; cases h; rfl
    | cont m' c' sw s =>
      simp only at h
      simp only [mapRes, hφ.isZero]
      split at h
      · rename_i e; cases h; rw [if_pos e]
      · rename_i e; rw [if_neg e]; exact hR _ _ _ _ h
  · rename_i e
    rw [if_neg e]
    exact hR _ _ _ _ h

theorem reduceLoop_sim {st : List G → S → T → T} {st' : List G → S' → T' → T'}
    (hst : ∀ m c t, st' m (φ c) (ψ t) = ψ (st m c t))
    {N R : List G → S → T → Option T} {N' R' : List G → S' → T' → T'} (hN : SimN φ ψ N N') (hR : SimN φ ψ R R')
    (pre run : List G) (x : G) (rest : List G) (f : LinFun G) (c : S) (t t' : T)
    (h : reduceLoop st N R pre run x rest f c t = some t') :
    Any.reduceLoop st' N' R' pre run x rest f (φ c) (ψ t) = ψ t' := by
  induction rest generalizing pre run x f with
  | nil => simp only [reduceLoop] at h; cases h; exact hst _ _ _
  | cons y rest ih =>
    simp only [reduceLoop] at h
    simp only [Any.reduceLoop]
    split at h
    · rename_i e1
      rw [if_pos e1]
      split at h
      · rename_i e2
        rw [if_pos e2]
        split at h
        · rename_i e3
          rw [if_pos e3]
          split at h
          · rename_i e4; rw [if_pos e4]; cases h; rfl
          · rename_i e4
            rw [if_neg e4]
            obtain ⟨v, hv, h⟩ := Option.bind_eq_some_iff.1 h
            obtain ⟨s, hs, h⟩ := Option.bind_eq_some_iff.1 h
            have h0 : (if ScalarOps.isZero (ScalarOps.makeConst (GenOps.reducePower x (run.length + 1) f).2.const : S') = true then ψ t else
                R' (pre ++ rest) (ScalarOps.mul (φ c) (ScalarOps.makeConst (GenOps.reducePower x (run.length + 1) f).2.const)) (ψ t)) = ψ s := by
              rw [← makeConst_sim hφ hv, hφ.isZero]
              split at hs
              · rename_i e; cases hs; rw [if_pos e]
              · rename_i e; rw [if_neg e, ← hφ.mul]; exact hR _ _ _ _ hs
            rw [h0]
            refine foldlM_sim (f' := fun t gv => if ScalarOps.isZero (ScalarOps.makeConst gv.2 : S') = true then t else
              N' (pre ++ gv.1 :: rest) (ScalarOps.mul (φ c) (ScalarOps.makeConst gv.2)) t) ?_ _ _ _ h
            intro t a t' h
            obtain ⟨v, hv, h⟩ := Option.bind_eq_some_iff.1 h
            rw [← makeConst_sim hφ hv, hφ.isZero]
            split at h
            · rename_i e; cases h; rw [if_pos e]
            · rename_i e; rw [if_neg e, ← hφ.mul]; exact hN _ _ _ _ h
        · rename_i e3; rw [if_neg e3]; exact ih _ _ _ _ h
      · rename_i e2; rw [if_neg e2]; exact ih _ _ _ _ h
    · rename_i e1; rw [if_neg e1]; exact ih _ _ _ _ h

theorem both_sim {st : List G → S → T → T} {st' : List G → S' → T' → T'} (hst : ∀ m c t, st' m (φ c) (ψ t) = ψ (st m c t)) (n : Nat) :
    SimN φ ψ (both st n).1 (Any.both st' n).1 ∧ SimN φ ψ (both st n).2 (Any.both st' n).2 := by
  induction n with
  | zero => exact ⟨fun m c t t' h => by cases h; rfl, fun m c t t' h => by cases h; rfl⟩
  | succ n ih =>
    have hR : SimN φ ψ (reduceStep st (both st n).1 (both st n).2) (Any.reduceStep st' (Any.both st' n).1 (Any.both st' n).2) := by
      intro m c t t' h
      cases m with
      | nil => simp only [reduceStep] at h; cases h; exact hst _ _ _
      | cons x rest => exact reduceLoop_sim hφ hst ih.1 ih.2 _ _ _ _ _ _ _ _ h
    exact ⟨normStep_sim hφ ih.1 hR, hR⟩

theorem normalize_sim {st : List G → S → T → T} {st' : List G → S' → T' → T'} (hst : ∀ m c t, st' m (φ c) (ψ t) = ψ (st m c t)) :
    SimN φ ψ (normalize st) (Any.normalize (G := G) st') := fun m c t t' h => (both_sim hφ hst _).1 m c t t' h

/-! ### expressions -/

/-- Conversion of the coefficients of a map. -/
abbrev cm (φ : S → S') (t : Terms G S) : Terms G S' := t.map fun p => (p.1, φ p.2)

section
omit [ThrowOps S] [ScalarOps S'] hφ
theorem find?_map (k : List G) (t : Terms G S) : Terms.find? k (cm φ t) = (Terms.find? k t).map φ := by
  induction t with
  | nil => rfl
  | cons p t ih => simp only [cm, List.map_cons, Terms.find?] at ih ⊢; rw [ih]; split_ifs <;> rfl
theorem emplace_map (k : List G) (v : S) (t : Terms G S) : Terms.emplace k (φ v) (cm φ t) = cm φ (Terms.emplace k v t) := by
  induction t with
  | nil => rfl
  | cons p t ih => simp only [cm, List.map_cons, Terms.emplace] at ih ⊢; rw [ih]; split_ifs <;> rfl
theorem assign_map (k : List G) (v : S) (t : Terms G S) : Terms.assign k (φ v) (cm φ t) = cm φ (Terms.assign k v t) := by
  induction t with
  | nil => rfl
  | cons p t ih => simp only [cm, List.map_cons, Terms.assign] at ih ⊢; rw [ih]; split_ifs <;> rfl
theorem erase_map (k : List G) (t : Terms G S) : Terms.erase k (cm φ t) = cm φ (Terms.erase k t) := by
  induction t with
  | nil => rfl
  | cons p t ih => simp only [cm, List.map_cons, Terms.erase] at ih ⊢; rw [ih]; split_ifs <;> rfl
end

/-- The common pattern "look up, combine, erase if zero, else insert". -/
theorem upd_map (k : List G) (c : S) (g : S → S) (g' : S' → S') (hg : ∀ v, g' (φ v) = φ (g v)) (t : Terms G S) :
    (match (cm φ t).find? k with
      | none => (cm φ t).emplace k (φ c)
      | some v => if ScalarOps.isZero (g' v) then (cm φ t).erase k else (cm φ t).assign k (g' v)) =
    cm φ (match t.find? k with
      | none => t.emplace k c
      | some v => if ScalarOps.isZero (g v) then t.erase k else t.assign k (g v)) := by
  rw [find?_map]
  cases t.find? k with
  | none => exact emplace_map k c t
  | some v =>
    simp only [Option.map_some, hg, hφ.isZero]
    split_ifs
    · exact erase_map k t
    · exact assign_map k _ t

theorem store_map (k : List G) (c : S) (t : Terms G S) : Any.store k (φ c) (cm φ t) = cm φ (Any.store k c t) :=
  upd_map hφ k c (fun v => ScalarOps.add v c) (fun v => ScalarOps.add v (φ c)) (fun v => (hφ.add v c).symm) t

theorem zero_map : φ Any.zero = Any.zero := hφ.makeConst _ hφ.zero

omit [GenOps G] [ThrowOps S] [ScalarOps S'] hφ in
theorem foldl_map {α β : Type _} (κ : α → β) {f : T → α → T} {f' : T' → β → T'} (hf : ∀ t a, f' (ψ t) (κ a) = ψ (f t a))
    (l : List α) (t : T) : (l.map κ).foldl f' (ψ t) = ψ (l.foldl f t) := by
  induction l generalizing t with
  | nil => rfl
  | cons a l ih => rw [List.map_cons, List.foldl_cons, hf, ih, List.foldl_cons]

theorem addAssign_map (a b : Expr G S) : Any.addAssign (a.mapCoeffs φ) (b.mapCoeffs φ) = (Any.addAssign a b).mapCoeffs φ := by
  refine congrArg Expr.mk (foldl_map (ψ := cm φ) _ (fun t p => ?_) _ _)
  exact upd_map hφ p.1 p.2 (fun v => ScalarOps.add v p.2) (fun v => ScalarOps.add v (φ p.2)) (fun v => (hφ.add v p.2).symm) t

theorem subAssign_map (a b : Expr G S) : Any.subAssign (a.mapCoeffs φ) (b.mapCoeffs φ) = (Any.subAssign a b).mapCoeffs φ := by
  refine congrArg Expr.mk (foldl_map (ψ := cm φ) _ (fun t p => ?_) _ _)
  have := upd_map hφ p.1 (ScalarOps.sub Any.zero p.2) (fun v => ScalarOps.sub v p.2) (fun v => ScalarOps.sub v (φ p.2))
    (fun v => (hφ.sub v p.2).symm) t
  rwa [hφ.sub, zero_map hφ] at this

theorem neg_map (a : Expr G S) : Any.neg (a.mapCoeffs φ) = (Any.neg a).mapCoeffs φ := by
  simp only [Any.neg, Expr.mapCoeffs, List.map_map, Function.comp_def, hφ.neg]

theorem smulPrefix_map (x : S) (a : Expr G S) : Any.smulPrefix (φ x) (a.mapCoeffs φ) = (Any.smulPrefix x a).mapCoeffs φ := by
  simp only [Any.smulPrefix, hφ.isZero]
  split
  · rfl
  · simp only [Expr.mapCoeffs, List.map_map, Function.comp_def, hφ.mul]

theorem smulPostfix_map (x : S) (a : Expr G S) : Any.smulPostfix (a.mapCoeffs φ) (φ x) = (Any.smulPostfix a x).mapCoeffs φ := by
  simp only [Any.smulPostfix, hφ.isZero]
  split
  · rfl
  · simp only [Expr.mapCoeffs, List.map_map, Function.comp_def, hφ.mul]

theorem const_map (x : S) : (Any.const (φ x) : Expr G S') = (Any.const x).mapCoeffs φ := by
  simp only [Any.const, hφ.isZero]
  split <;> rfl

theorem addScalar_map (x : S) (a : Expr G S) : Any.addScalar (a.mapCoeffs φ) (φ x) = (Any.addScalar a x).mapCoeffs φ := by
  simp only [Any.addScalar, hφ.isZero]
  split
  · rfl
  · exact congrArg Expr.mk (upd_map hφ [] x (fun v => ScalarOps.add v x) (fun v => ScalarOps.add v (φ x)) (fun v => (hφ.add v x).symm) _)

theorem addAssignScalar_map (x : S) (a : Expr G S) :
    Any.addAssignScalar (a.mapCoeffs φ) (φ x) = (Any.addAssignScalar a x).mapCoeffs φ := by
  simp only [Any.addAssignScalar, hφ.isZero]
  split
  · rfl
  · have := upd_map hφ [] (ScalarOps.add Any.zero x) (fun v => ScalarOps.add v x) (fun v => ScalarOps.add v (φ x))
      (fun v => (hφ.add v x).symm) a.terms
    rw [hφ.add, zero_map hφ] at this
    exact congrArg Expr.mk this

theorem subScalar_map (x : S) (a : Expr G S) : Any.subScalar (a.mapCoeffs φ) (φ x) = (Any.subScalar a x).mapCoeffs φ := by
  simp only [Any.subScalar, hφ.isZero]
  split
  · rfl
  · have := upd_map hφ [] (ScalarOps.sub Any.zero x) (fun v => ScalarOps.sub v x) (fun v => ScalarOps.sub v (φ x))
      (fun v => (hφ.sub v x).symm) a.terms
    rw [hφ.sub, zero_map hφ] at this
    exact congrArg Expr.mk this

theorem scalarSub_map (x : S) (a : Expr G S) : Any.scalarSub (φ x) (a.mapCoeffs φ) = (Any.scalarSub x a).mapCoeffs φ := by
  have h0 : (a.mapCoeffs φ).terms.foldl (fun (t : Terms G S') p => t.emplace p.1 (ScalarOps.sub Any.zero p.2)) [] =
      cm φ (a.terms.foldl (fun (t : Terms G S) p => t.emplace p.1 (ScalarOps.sub Any.zero p.2)) []) := by
    refine foldl_map (ψ := cm φ) (fun p : List G × S => (p.1, φ p.2)) (fun t p => ?_) a.terms []
    have := emplace_map (φ := φ) p.1 (ScalarOps.sub Any.zero p.2) t
    rwa [hφ.sub, zero_map hφ] at this
  simp only [Any.scalarSub, hφ.isZero]
  rw [h0]
  split
  · rfl
  · exact congrArg Expr.mk (upd_map hφ [] x (fun v => ScalarOps.add v x) (fun v => ScalarOps.add v (φ x)) (fun v => (hφ.add v x).symm) _)

theorem eqOp_map (a b : Expr G S) : Any.eqOp (a.mapCoeffs φ) (b.mapCoeffs φ) = Any.eqOp a b := by
  simp only [Any.eqOp, Expr.mapCoeffs, List.length_map]
  congr 1
  generalize a.terms = s
  generalize b.terms = t
  induction s generalizing t with
  | nil => simp
  | cons p s ih =>
    cases t with
    | nil => simp
    | cons q t =>
      simp only [List.map_cons, List.zipWith_cons_cons, List.all_cons, ih, hφ.eq]

theorem ofMonomial_sim (x : S) (m : List G) (e : Expr G S) (h : ofMonomial x m = some e) :
    Any.ofMonomial (φ x) m = e.mapCoeffs φ := by
  simp only [ofMonomial] at h
  simp only [Any.ofMonomial, hφ.isZero]
  split at h
  · rename_i e0; cases h; rw [if_pos e0]; rfl
  · rename_i e0
    obtain ⟨t, ht, rfl⟩ := Option.map_eq_some_iff.1 h
    rw [if_neg e0]
    exact congrArg Expr.mk (normalize_sim hφ (ψ := cm φ) (store_map hφ) m x [] t ht)

omit hφ in
theorem foldlM_sim' {α β : Type _} (κ : α → β) {f : T → α → Option T} {f' : T' → β → T'}
    (hf : ∀ t a t', f t a = some t' → f' (ψ t) (κ a) = ψ t')
    (l : List α) (t t' : T) (h : l.foldlM f t = some t') : (l.map κ).foldl f' (ψ t) = ψ t' := by
  rw [List.foldl_map]
  exact foldlM_sim (f' := fun t a => f' t (κ a)) hf l t t' h

theorem mulMap_sim (a b : Expr G S) (t : Terms G S)
    (h : a.terms.foldlM (fun t m1 =>
      b.terms.foldlM (fun t m2 => normalize Any.store (m1.1 ++ m2.1) (ScalarOps.mul m1.2 m2.2) t) t) [] = some t) :
    Any.mulAssign (a.mapCoeffs φ) (b.mapCoeffs φ) = ⟨cm φ t⟩ := by
  refine congrArg Expr.mk (foldlM_sim' (ψ := cm φ) _ ?_ _ _ _ h)
  intro t m1 t' h
  refine foldlM_sim' (ψ := cm φ) _ ?_ _ _ _ h
  intro t m2 t' h
  have := normalize_sim hφ (ψ := cm φ) (store_map hφ) _ _ _ _ h
  rwa [hφ.mul] at this

theorem mul_sim (a b e : Expr G S) (h : mul a b = some e) :
    Any.mulAssign (a.mapCoeffs φ) (b.mapCoeffs φ) = e.mapCoeffs φ := by
  obtain ⟨t, ht, rfl⟩ := Option.map_eq_some_iff.1 h
  exact mulMap_sim hφ a b t ht

theorem ofLinFun_sim (f : LinFun G) (e : Expr G S) (h : ofLinFun f = some e) : Any.ofLinFun f = e.mapCoeffs φ := by
  rw [ofLinFun] at h
  obtain ⟨s, hs, h⟩ := Option.bind_eq_some_iff.1 h
  have h0 : (⟨if f.const.isZero then [] else [([], ScalarOps.makeConst f.const)]⟩ : Expr G S') = s.mapCoeffs φ := by
    split at hs
    · rename_i e; cases hs; rw [if_pos e]; rfl
    · rename_i e
      obtain ⟨v, hv, rfl⟩ := Option.map_eq_some_iff.1 hs
      rw [if_neg e, ← makeConst_sim hφ hv]; rfl
  rw [Any.ofLinFun, h0]
  refine foldlM_sim (ψ := Expr.mapCoeffs φ) (f' := fun e gv => if ScalarOps.isZero (ScalarOps.makeConst gv.2 : S') = true then e
    else Any.addAssign e (Any.ofMonomial (ScalarOps.makeConst gv.2) [gv.1])) ?_ _ _ _ h
  intro e gv e' h
  obtain ⟨v, hv, h⟩ := Option.bind_eq_some_iff.1 h
  rw [← makeConst_sim hφ hv, hφ.isZero]
  split at h
  · rename_i e; cases h; rw [if_pos e]
  · rename_i e
    obtain ⟨e1, h1, rfl⟩ := Option.map_eq_some_iff.1 h
    rw [if_neg e, ofMonomial_sim hφ _ _ _ h1, addAssign_map hφ]

theorem conj_sim (a e : Expr G S) (h : conj a = some e) : Any.conj (a.mapCoeffs φ) = e.mapCoeffs φ := by
  obtain ⟨s, hs, rfl⟩ := Option.map_eq_some_iff.1 h
  refine congrArg Prod.fst (foldlM_sim' (ψ := fun s : Expr G S × Expr G S => (s.1.mapCoeffs φ, s.2.mapCoeffs φ)) _ ?_ _ _ _ hs)
  intro s m s' h
  obtain ⟨e1, h1, rfl⟩ := Option.map_eq_some_iff.1 h
  simp only
  have h2 : (if ScalarOps.isZero (ScalarOps.conj (φ m.2)) = true then s.2.mapCoeffs φ
      else m.1.reverse.foldl (fun e g => Any.mulAssign e (Any.ofLinFun (GenOps.conj g))) (Any.const (ScalarOps.conj (φ m.2)))) =
        e1.mapCoeffs φ := by
    rw [← hφ.conj, hφ.isZero]
    split at h1
    · rename_i e0; cases h1; rw [if_pos e0]
    · rename_i e0
      rw [if_neg e0, const_map hφ]
      refine foldlM_sim (ψ := Expr.mapCoeffs φ) (f' := fun e g => Any.mulAssign e (Any.ofLinFun (GenOps.conj g))) ?_ _ _ _ h1
      intro e g e' h
      obtain ⟨c, hc, h⟩ := Option.bind_eq_some_iff.1 h
      rw [ofLinFun_sim hφ _ _ hc, mul_sim hφ _ _ _ h]
  rw [h2, addAssign_map hφ]

end sim

/-! ### no exceptions -/

section safe
variable {G S T : Type _} [GenOps G] [ThrowOps S] {P : G → Prop}

/-- `N` does not throw for generators satisfying `P`. -/
def Safe (P : G → Prop) (N : List G → S → T → Option T) : Prop := ∀ m c t, (∀ g ∈ m, P g) → ∃ t', N m c t = some t'

theorem makeConst_ok {v : VarNumber} (h : ThrowOps.representable S v = true) :
    makeConst v = some (ScalarOps.makeConst v : S) := by simp [makeConst, h]

theorem foldlM_safe {α : Type _} {f : T → α → Option T} (I : T → Prop) (l : List α)
    (hf : ∀ t, I t → ∀ a ∈ l, ∃ t', f t a = some t' ∧ I t') (t : T) (h0 : I t) : ∃ t', l.foldlM f t = some t' ∧ I t' := by
  induction l generalizing t with
  | nil => exact ⟨t, rfl, h0⟩
  | cons a l ih =>
    obtain ⟨s, hs, hI⟩ := hf t h0 a (by simp)
    rw [List.foldlM_cons, hs]
    exact ih (fun t ht a ha => hf t ht a (by simp [ha])) s hI

theorem processF_safe {N : List G → S → T → Option T} (hN : Safe P N) {pre post : List G} {f : LinFun G} (c : S) (t : T)
    (hf : f.Representable S) (hP : ∀ p ∈ f.terms, P p.1) (h1 : ∀ g ∈ pre, P g) (h2 : ∀ g ∈ post, P g) :
    ∃ t', processF N pre post f c t = some t' := by
  have h12 : ∀ g ∈ pre ++ post, P g := fun g hg => (List.mem_append.1 hg).elim (h1 g) (h2 g)
  have h0 : ∃ t', (if f.const.isZero then some t
    else (makeConst f.const).bind fun v => N (pre ++ post) (ScalarOps.mul c v) t) = some t' := by
    split
    · exact ⟨t, rfl⟩
    · rw [makeConst_ok hf.1]; exact hN _ _ _ h12
  obtain ⟨s, hs⟩ := h0
  rw [processF, hs]
  obtain ⟨t', h, -⟩ := foldlM_safe (fun _ => True) f.terms (f := fun t gv => (makeConst gv.2).bind fun v =>
    N (pre ++ gv.1 :: post) (ScalarOps.mul c v) t) (fun t _ p hp => by
      rw [makeConst_ok (hf.2 p hp)]
      obtain ⟨t', h⟩ := hN (pre ++ p.1 :: post) (ScalarOps.mul c (ScalarOps.makeConst p.2)) t (by
        intro g hg
        simp only [List.mem_append, List.mem_cons] at hg
        rcases hg with hg | rfl | hg
        · exact h1 g hg
        · exact hP p hp
        · exact h2 g hg)
      exact ⟨t', h, trivial⟩) s trivial
  exact ⟨t', h⟩

theorem pass_safe (hC : ConvertibleGen S P) {N : List G → S → T → Option T} (hN : Safe P N) (cnt : Nat) (pre : List G) (x : G)
    (rest : List G) (c : S) (sw : Bool) (t : T) (h1 : ∀ g ∈ pre, P g) (hx : P x) (h2 : ∀ g ∈ rest, P g) :
    ∃ r, pass N cnt pre x rest c sw t = some r ∧ ∀ m' c' sw' t', r = .cont m' c' sw' t' → ∀ g ∈ m', P g := by
  induction cnt generalizing pre x rest c sw t with
  | zero =>
    refine ⟨_, rfl, fun m' c' sw' t' e g hg => ?_⟩
    cases e
    simp only [List.mem_append, List.mem_cons] at hg
    rcases hg with hg | rfl | hg
    · exact h1 g hg
    · exact hx
    · exact h2 g hg
  | succ cnt ih =>
    cases rest with
    | nil =>
      refine ⟨_, rfl, fun m' c' sw' t' e g hg => ?_⟩
      cases e
      simp only [List.mem_append, List.mem_singleton] at hg
      rcases hg with hg | rfl
      · exact h1 g hg
      · exact hx
    | cons y rest =>
      have hy := h2 y (by simp)
      have h2' : ∀ g ∈ rest, P g := fun g hg => h2 g (by simp [hg])
      simp only [pass]
      by_cases hg : GenOps.gt x y = true
      · rw [if_pos hg]
        obtain ⟨hs1, hs2⟩ := hC.swap x y hx hy hg
        obtain ⟨s, hs⟩ := processF_safe hN (pre := pre) (post := rest) c t hs1 hs2 h1 h2'
        rw [hs]
        simp only [Option.bind_some]
        split
        · exact ⟨_, rfl, fun _ _ _ _ e => by cases e⟩
        · rw [makeConst_ok (hC.swap_const x y hx hy hg)]
          exact ih _ _ _ _ _ _ (fun g hg => (List.mem_append.1 hg).elim (h1 g) fun hg => by simp at hg; rw [hg]; exact hy) hx h2'
      · rw [if_neg hg]
        cases hf : GenOps.simplifyProd x y with
        | some f =>
          obtain ⟨hs1, hs2⟩ := hC.simp x y f hx hy hf
          obtain ⟨s, hs⟩ := processF_safe hN (pre := pre) (post := rest) c t hs1 hs2 h1 h2'
          simp only [hs, Option.map_some]
          exact ⟨_, rfl, fun _ _ _ _ e => by cases e⟩
        | none =>
          exact ih _ _ _ _ _ _ (fun g hg => (List.mem_append.1 hg).elim (h1 g) fun hg => by simp at hg; rw [hg]; exact hx) hy h2'

theorem sortLoop_safe (hC : ConvertibleGen S P) {N : List G → S → T → Option T} (hN : Safe P N) (nmax : Nat) (m : List G)
    (c : S) (t : T) (hm : ∀ g ∈ m, P g) :
    ∃ r, sortLoop N nmax m c t = some r ∧ ∀ m' c' sw' t', r = .cont m' c' sw' t' → ∀ g ∈ m', P g := by
  induction nmax generalizing m c t with
  | zero =>
    cases m with
    | nil => exact ⟨_, rfl, fun m' _ _ _ e => by cases e; simp⟩
    | cons x rest =>
      obtain ⟨r, hr, hp⟩ := pass_safe hC hN 0 [] x rest c false t (by simp) (hm x (by simp)) fun g hg => hm g (by simp [hg])
      simp only [sortLoop, hr]
      cases r with
      | done t' => exact ⟨_, rfl, fun _ _ _ _ e => by cases e⟩
      | cont m' c' sw t' => cases sw <;> exact ⟨_, rfl, fun _ _ _ _ e => by cases e; exact hp _ _ _ _ rfl⟩
  | succ nmax ih =>
    cases m with
    | nil => exact ⟨_, rfl, fun m' _ _ _ e => by cases e; simp⟩
    | cons x rest =>
      obtain ⟨r, hr, hp⟩ := pass_safe hC hN (nmax + 1) [] x rest c false t (by simp) (hm x (by simp)) fun g hg => hm g (by simp [hg])
      simp only [sortLoop, hr]
      cases r with
      | done t' => exact ⟨_, rfl, fun _ _ _ _ e => by cases e⟩
      | cont m' c' sw t' =>
        cases sw
        · exact ⟨_, rfl, fun _ _ _ _ e => by cases e; exact hp _ _ _ _ rfl⟩
        · exact ih _ _ _ (hp _ _ _ _ rfl)

theorem normStep_safe (hC : ConvertibleGen S P) {N R : List G → S → T → Option T} (hN : Safe P N) (hR : Safe P R) :
    Safe P (normStep N R) := by
  intro m c t hm
  simp only [normStep]
  split
  · obtain ⟨r, hr, hp⟩ := sortLoop_safe hC hN (m.length - 1) m c t hm
    rw [hr]
    cases r with
    | done t' => exact ⟨_, rfl⟩
    | cont m' c' sw t' =>
      simp only [Option.bind_some]
      split
      · exact ⟨_, rfl⟩
      · exact hR _ _ _ (hp _ _ _ _ rfl)
  · exact hR _ _ _ hm

theorem reduceLoop_safe (hC : ConvertibleGen S P) (st : List G → S → T → T) {N R : List G → S → T → Option T} (hN : Safe P N)
    (hR : Safe P R) (pre run : List G) (x : G) (rest : List G) (f : LinFun G) (c : S) (t : T) (h1 : ∀ g ∈ pre, P g)
    (hr : ∀ g ∈ run, P g) (hx : P x) (h2 : ∀ g ∈ rest, P g) (hf : f.Representable S) (hfP : ∀ p ∈ f.terms, P p.1) :
    ∃ t', reduceLoop st N R pre run x rest f c t = some t' := by
  induction rest generalizing pre run x f with
  | nil => exact ⟨_, rfl⟩
  | cons y rest ih =>
    have hy := h2 y (by simp)
    have h2' : ∀ g ∈ rest, P g := fun g hg => h2 g (by simp [hg])
    have hry : ∀ g ∈ run ++ [y], P g := fun g hg => (List.mem_append.1 hg).elim (hr g) fun hg => by simp at hg; rw [hg]; exact hy
    simp only [reduceLoop]
    split
    · split
      · obtain ⟨hq1, hq2⟩ := hC.red x (run.length + 1) f hx hf hfP
        split
        · split
          · exact ⟨_, rfl⟩
          · rw [makeConst_ok hq1.1]
            simp only [Option.bind_some]
            have h0 : ∃ t', (if ScalarOps.isZero (ScalarOps.makeConst (GenOps.reducePower x (run.length + 1) f).2.const : S) = true
                then some t else R (pre ++ rest) (ScalarOps.mul c (ScalarOps.makeConst (GenOps.reducePower x (run.length + 1) f).2.const)) t) = some t' := by
              split
              · exact ⟨_, rfl⟩
              · exact hR _ _ _ fun g hg => (List.mem_append.1 hg).elim (h1 g) (h2' g)
            obtain ⟨s, hs⟩ := h0
            rw [hs]
            simp only [Option.bind_some]
            obtain ⟨t', h, -⟩ := foldlM_safe (fun _ => True) (GenOps.reducePower x (run.length + 1) f).2.terms
              (f := fun t gv => (makeConst gv.2).bind fun v =>
                if ScalarOps.isZero v then some t else N (pre ++ gv.1 :: rest) (ScalarOps.mul c v) t) (fun t _ p hp => by
                rw [makeConst_ok (hq1.2 p hp)]
                simp only [Option.bind_some]
                split
                · exact ⟨_, rfl, trivial⟩
                · obtain ⟨t', h⟩ := hN (pre ++ p.1 :: rest) (ScalarOps.mul c (ScalarOps.makeConst p.2)) t (by
                    intro g hg
                    simp only [List.mem_append, List.mem_cons] at hg
                    rcases hg with hg | rfl | hg
                    · exact h1 g hg
                    · exact hq2 p hp
                    · exact h2' g hg)
                  exact ⟨t', h, trivial⟩) s trivial
            exact ⟨t', h⟩
        · exact ih _ _ _ _ h1 hry hy h2' hq1 hq2
      · exact ih _ _ _ _ h1 hry hy h2' hf hfP
    · exact ih _ _ _ _ (fun g hg => (List.mem_append.1 hg).elim (h1 g) (hr g)) (by simpa using hy) hy h2' hf hfP

theorem both_safe (hC : ConvertibleGen S P) (h0 : ThrowOps.representable S (.integer 0) = true) (st : List G → S → T → T) (n : Nat) :
    Safe P (both st n).1 ∧ Safe P (both st n).2 := by
  induction n with
  | zero => exact ⟨fun m c t _ => ⟨_, rfl⟩, fun m c t _ => ⟨_, rfl⟩⟩
  | succ n ih =>
    have hR : Safe P (reduceStep st (both st n).1 (both st n).2) := by
      intro m c t hm
      cases m with
      | nil => exact ⟨_, rfl⟩
      | cons x rest =>
        exact reduceLoop_safe hC st ih.1 ih.2 _ _ _ _ _ _ _ (by simp) (by simpa using hm x (by simp)) (hm x (by simp))
          (fun g hg => hm g (by simp [hg])) ⟨h0, by simp [LinFun.zero]⟩ (by simp [LinFun.zero])
    exact ⟨normStep_safe hC ih.1 hR, hR⟩

theorem normalize_safe (hC : ConvertibleGen S P) (h0 : ThrowOps.representable S (.integer 0) = true) (st : List G → S → T → T) :
    Safe P (normalize st) := fun m c t hm => (both_safe hC h0 st _).1 m c t hm

end safe
end LC.Thr
