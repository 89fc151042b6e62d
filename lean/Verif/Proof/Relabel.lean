import Mathlib.Order.Monotone.Defs
import Mathlib.Order.Monotone.Basic
import Verif.Spec.Relabel
/-
Naturality of the whole expression layer under maps of generators that commute with the virtual interface, and of Hilbert
spaces and operators under strictly monotone maps of indices.
-/
set_option linter.unusedSectionVars false
set_option linter.unusedSimpArgs false
namespace LC

/-- A linear function of the renamed generators. -/
abbrev LinFun.mapGen {G H : Type _} (φ : G → H) (f : LinFun G) : LinFun H := ⟨f.const, f.terms.map fun p => (φ p.1, p.2)⟩

/-- `φ` commutes with every virtual function of generators. -/
structure GenHom {G H : Type _} [GenOps G] [GenOps H] (φ : G → H) : Prop where
  eq : ∀ a b, GenOps.eq (φ a) (φ b) = GenOps.eq a b
  lt : ∀ a b, GenOps.lt (φ a) (φ b) = GenOps.lt a b
  gt : ∀ a b, GenOps.gt (φ a) (φ b) = GenOps.gt a b
  swapWith : ∀ a b, GenOps.swapWith (φ a) (φ b) = ((GenOps.swapWith a b).1, (GenOps.swapWith a b).2.mapGen φ)
  simplifyProd : ∀ a b, GenOps.simplifyProd (φ a) (φ b) = (GenOps.simplifyProd a b).map (LinFun.mapGen φ)
  reducePower : ∀ a n f, GenOps.reducePower (φ a) n (f.mapGen φ) =
    ((GenOps.reducePower a n f).1, (GenOps.reducePower a n f).2.mapGen φ)
  conj : ∀ a, GenOps.conj (φ a) = (GenOps.conj a).mapGen φ

namespace Relabel
variable {G H S : Type _} [GenOps G] [GenOps H] {φ : G → H} (hφ : GenHom φ)
include hφ

theorem lexLt (a b : List G) : lexCompare GenOps.lt (a.map φ) (b.map φ) = lexCompare GenOps.lt a b := by
  induction a generalizing b with
  | nil => cases b <;> simp [lexCompare]
  | cons x a ih => cases b with
    | nil => simp [lexCompare]
    | cons y b => simp [lexCompare, hφ.lt, ih]

theorem monLt_map (a b : List G) : monLt (a.map φ) (b.map φ) = monLt a b := by
  simp [monLt, lexLt hφ]

theorem monEq_map (a b : List G) : monEq (a.map φ) (b.map φ) = monEq a b := by
  simp only [monEq, List.length_map]
  congr 1
  induction a generalizing b with
  | nil => simp
  | cons x a ih => cases b with
    | nil => simp
    | cons y b => simp [hφ.eq, ih]

/-- Renaming of a map of monomials. -/
def ren (φ : G → H) (t : Terms G S) : Terms H S := t.map fun p => (p.1.map φ, p.2)

omit hφ [GenOps G] [GenOps H] in
@[simp] theorem ren_nil : ren φ ([] : Terms G S) = [] := rfl
omit hφ [GenOps G] [GenOps H] in
@[simp] theorem ren_cons (p : List G × S) (t : Terms G S) : ren φ (p :: t) = (p.1.map φ, p.2) :: ren φ t := rfl

theorem find?_ren (k : List G) (t : Terms G S) : (ren φ t).find? (k.map φ) = t.find? k := by
  induction t with
  | nil => rfl
  | cons p t ih => obtain ⟨k', v⟩ := p; simp [Terms.find?, monLt_map hφ, ih]

theorem emplace_ren (k : List G) (v : S) (t : Terms G S) :
    (ren φ t).emplace (k.map φ) v = ren φ (t.emplace k v) := by
  induction t with
  | nil => rfl
  | cons p t ih =>
    obtain ⟨k', v'⟩ := p
    simp only [ren_cons, Terms.emplace, monLt_map hφ, ih]
    split
    · rfl
    · split <;> rfl

theorem assign_ren (k : List G) (v : S) (t : Terms G S) :
    (ren φ t).assign (k.map φ) v = ren φ (t.assign k v) := by
  induction t with
  | nil => rfl
  | cons p t ih =>
    obtain ⟨k', v'⟩ := p
    simp only [ren_cons, Terms.assign, monLt_map hφ, ih]
    split
    · rfl
    · split <;> rfl

theorem erase_ren (k : List G) (t : Terms G S) : (ren φ t).erase (k.map φ) = ren φ (t.erase k) := by
  induction t with
  | nil => rfl
  | cons p t ih =>
    obtain ⟨k', v'⟩ := p
    simp only [ren_cons, Terms.erase, monLt_map hφ, ih]
    split
    · rfl
    · split <;> rfl

variable [CommRing S] [DecidableEq S]

theorem store_ren (k : List G) (c : S) (t : Terms G S) :
    (ren φ t).store (k.map φ) c = ren φ (t.store k c) := by
  simp only [Terms.store, find?_ren hφ]
  cases t.find? k with
  | none => exact emplace_ren hφ k c t
  | some v => dsimp only; split
              · exact erase_ren hφ k t
              · exact assign_ren hφ k _ t

variable [ConstScalar S] {T T' : Type _} {h : T → T'}

/-- Two functions writing to targets do so compatibly with the renaming. -/
def Compat (φ : G → H) (h : T → T') (N : List G → S → T → T) (N' : List H → S → T' → T') : Prop :=
  ∀ m c t, N' (m.map φ) c (h t) = h (N m c t)

section
variable {N R st : List G → S → T → T} {N' R' st' : List H → S → T' → T'}

theorem processF_ren (hN : Compat φ h N N') (pre post : List G) (f : LinFun G) (c : S) (t : T) :
    processF N' (pre.map φ) (post.map φ) (f.mapGen φ) c (h t) = h (processF N pre post f c t) := by
  unfold processF
  have key : ∀ (l : List (G × VarNumber)) (t : T),
      (l.map fun p => (φ p.1, p.2)).foldl
        (fun t gv => N' (pre.map φ ++ gv.1 :: post.map φ) (c * ConstScalar.makeConst gv.2) t) (h t)
      = h (l.foldl (fun t gv => N (pre ++ gv.1 :: post) (c * ConstScalar.makeConst gv.2) t) t) := by
    intro l
    induction l with
    | nil => intro t; rfl
    | cons p l ih =>
      intro t
      simp only [List.map_cons, List.foldl_cons]
      rw [← ih, ← hN]
      simp
  simp only [LinFun.mapGen]
  rw [← key]
  congr 1
  by_cases hz : f.const.isZero = true
  · rw [if_pos hz, if_pos hz]
  · rw [if_neg hz, if_neg hz, ← hN]; simp

/-- Renaming of the outcome of a pass. -/
def PassRes.ren (φ : G → H) (h : T → T') : PassRes G S T → PassRes H S T'
  | .done t => .done (h t)
  | .cont m c s t => .cont (m.map φ) c s (h t)

theorem pass_ren (hN : Compat φ h N N') (cnt : Nat) (pre : List G) (x : G) (rest : List G) (c : S) (sw : Bool) (t : T) :
    pass N' cnt (pre.map φ) (φ x) (rest.map φ) c sw (h t) = PassRes.ren φ h (pass N cnt pre x rest c sw t) := by
  induction cnt generalizing pre x rest c sw t with
  | zero => simp [pass, PassRes.ren]
  | succ cnt ih =>
    cases rest with
    | nil => simp [pass, PassRes.ren]
    | cons y rest =>
      simp only [List.map_cons, pass, hφ.gt, hφ.swapWith, hφ.simplifyProd]
      split
      · rw [processF_ren hφ hN]
        split
        · rfl
        · rw [← ih]; simp
      · cases GenOps.simplifyProd x y with
        | some f => simp only [Option.map_some, PassRes.ren]; rw [processF_ren hφ hN]
        | none => simp only [Option.map_none]; rw [← ih]; simp

theorem sortLoop_ren (hN : Compat φ h N N') (nmax : Nat) (m : List G) (c : S) (t : T) :
    sortLoop N' nmax (m.map φ) c (h t) = PassRes.ren φ h (sortLoop N nmax m c t) := by
  induction nmax generalizing m c t with
  | zero =>
    cases m with
    | nil => simp [sortLoop, PassRes.ren]
    | cons x rest =>
      simp only [List.map_cons, sortLoop]
      have := pass_ren hφ hN 0 [] x rest c false t
      simp only [List.map_nil] at this
      rw [this]
      cases pass N 0 [] x rest c false t with
      | done t => rfl
      | cont m c s t => cases s <;> rfl
  | succ nmax ih =>
    cases m with
    | nil => simp [sortLoop, PassRes.ren]
    | cons x rest =>
      simp only [List.map_cons, sortLoop]
      have := pass_ren hφ hN (nmax + 1) [] x rest c false t
      simp only [List.map_nil] at this
      rw [this]
      cases pass N (nmax + 1) [] x rest c false t with
      | done t => rfl
      | cont m c s t =>
        cases s with
        | false => rfl
        | true => simp only [PassRes.ren]; exact ih m c t

theorem normStep_ren (hN : Compat φ h N N') (hR : Compat φ h R R') : Compat φ h (normStep N R) (normStep N' R') := by
  intro m c t
  simp only [normStep, List.length_map]
  split
  · rw [sortLoop_ren hφ hN]
    cases sortLoop N (m.length - 1) m c t with
    | done t => rfl
    | cont m c s t => simp only [PassRes.ren]; split
                      · rfl
                      · exact hR m c t
  · exact hR m c t

theorem reduceLoop_ren (hst : Compat φ h st st') (hN : Compat φ h N N') (hR : Compat φ h R R') (rest : List G) :
    ∀ (pre run : List G) (x : G) (f : LinFun G) (c : S) (t : T),
    reduceLoop st' N' R' (pre.map φ) (run.map φ) (φ x) (rest.map φ) (f.mapGen φ) c (h t)
      = h (reduceLoop st N R pre run x rest f c t) := by
  induction rest with
  | nil => intro pre run x f c t; simp only [List.map_nil, reduceLoop]; rw [← hst]; simp
  | cons y rest ih =>
    intro pre run x f c t
    simp only [List.map_cons, reduceLoop, hφ.eq, hφ.reducePower, List.length_map]
    have e1 : ∀ (pre run : List G), pre.map φ ++ run.map φ = (pre ++ run).map φ := by simp
    have e2 : [φ y] = [y].map φ := rfl
    split
    · split
      · split
        · have ev : ∀ g : LinFun G, (g.mapGen φ).vanishing = g.vanishing := by
            intro g; simp [LinFun.mapGen, LinFun.vanishing]
          rw [ev]
          split
          · rfl
          · generalize hr : GenOps.reducePower x (run.length + 1) f = rf
            have key : ∀ (l : List (G × VarNumber)) (t : T),
                (l.map fun p => (φ p.1, p.2)).foldl
                  (fun t gv => if (ConstScalar.makeConst gv.2 : S) = 0 then t
                    else N' (pre.map φ ++ gv.1 :: rest.map φ) (c * ConstScalar.makeConst gv.2) t) (h t)
                = h (l.foldl (fun t gv => if (ConstScalar.makeConst gv.2 : S) = 0 then t
                    else N (pre ++ gv.1 :: rest) (c * ConstScalar.makeConst gv.2) t) t) := by
              intro l
              induction l with
              | nil => intro t; rfl
              | cons p l ih =>
                intro t
                simp only [List.map_cons, List.foldl_cons]
                rw [← ih]
                congr 1
                split
                · rfl
                · rw [← hN]; simp
            rw [← key]
            congr 1
            by_cases hz : (ConstScalar.makeConst rf.2.const : S) = 0
            · rw [if_pos hz, if_pos hz]
            · rw [if_neg hz, if_neg hz, ← hR]; simp
        · rw [← ih, e2, e1]
      · rw [← ih, e2, e1]
    · rw [← ih, e2, e1]

theorem reduceStep_ren (hst : Compat φ h st st') (hN : Compat φ h N N') (hR : Compat φ h R R') :
    Compat φ h (reduceStep st N R) (reduceStep st' N' R') := by
  intro m c t
  cases m with
  | nil => exact hst [] c t
  | cons x rest =>
    simp only [List.map_cons, reduceStep]
    exact reduceLoop_ren hφ hst hN hR rest [] [x] x LinFun.zero c t

theorem both_ren (hst : Compat φ h st st') (n : Nat) :
    Compat φ h (both st n).1 (both st' n).1 ∧ Compat φ h (both st n).2 (both st' n).2 := by
  induction n with
  | zero => exact ⟨fun _ _ _ => rfl, fun _ _ _ => rfl⟩
  | succ n ih =>
    have hr := reduceStep_ren hφ hst ih.1 ih.2
    exact ⟨normStep_ren hφ ih.1 hr, hr⟩

theorem normalize_ren (hst : Compat φ h st st') : Compat φ h (normalize st) (normalize st') := by
  intro m c t
  simp only [normalize, List.length_map]
  exact (both_ren hφ hst _).1 m c t

end

theorem norm_store (m : List G) (c : S) (t : Terms G S) :
    normalize Terms.store (m.map φ) c (ren φ t) = ren φ (normalize Terms.store m c t) :=
  normalize_ren hφ (fun m c t => store_ren hφ m c t) m c t

/-! ### Expressions -/

/-- Renaming of an expression. -/
def renE (φ : G → H) (e : Expr G S) : Expr H S := ⟨ren φ e.terms⟩

omit hφ [GenOps G] [GenOps H] [ConstScalar S] [DecidableEq S] [CommRing S] in
@[simp] theorem renE_terms (e : Expr G S) : (renE φ e).terms = ren φ e.terms := rfl

theorem const_ren (x : S) : (Expr.const x : Expr H S) = renE φ (Expr.const x) := by
  unfold Expr.const renE; split <;> rfl

theorem ofMonomial_ren (x : S) (m : List G) : Expr.ofMonomial x (m.map φ) = renE φ (Expr.ofMonomial x m) := by
  unfold Expr.ofMonomial renE
  split
  · rfl
  · rw [← norm_store hφ]; rfl

theorem foldl_ren {α β : Type _} {A B : Type _} (r : A → B) (k : α → β) (f : A → α → A) (g : B → β → B)
    (hfg : ∀ a x, g (r a) (k x) = r (f a x)) (l : List α) (a : A) : (l.map k).foldl g (r a) = r (l.foldl f a) := by
  induction l generalizing a with
  | nil => rfl
  | cons x l ih => simp only [List.map_cons, List.foldl_cons, hfg, ih]

theorem add_ren (a b : Expr G S) : renE φ a + renE φ b = renE φ (a + b) := by
  show Expr.addAssign (renE φ a) (renE φ b) = renE φ (Expr.addAssign a b)
  simp only [Expr.addAssign, renE]
  congr 1
  refine foldl_ren hφ (ren φ) (fun p : List G × S => (p.1.map φ, p.2)) _ _ (fun t p => ?_) b.terms a.terms
  simp only [find?_ren hφ]
  cases t.find? p.1 with
  | none => exact emplace_ren hφ _ _ t
  | some v => dsimp only; split
              · exact erase_ren hφ _ t
              · exact assign_ren hφ _ _ t

theorem sub_ren (a b : Expr G S) : renE φ a - renE φ b = renE φ (a - b) := by
  show Expr.subAssign (renE φ a) (renE φ b) = renE φ (Expr.subAssign a b)
  simp only [Expr.subAssign, renE]
  congr 1
  refine foldl_ren hφ (ren φ) (fun p : List G × S => (p.1.map φ, p.2)) _ _ (fun t p => ?_) b.terms a.terms
  simp only [find?_ren hφ]
  cases t.find? p.1 with
  | none => exact emplace_ren hφ _ _ t
  | some v => dsimp only; split
              · exact erase_ren hφ _ t
              · exact assign_ren hφ _ _ t

theorem mul_ren (a b : Expr G S) : renE φ a * renE φ b = renE φ (a * b) := by
  show Expr.mulAssign (renE φ a) (renE φ b) = renE φ (Expr.mulAssign a b)
  simp only [Expr.mulAssign, renE]
  congr 1
  refine foldl_ren hφ (ren φ) (fun p : List G × S => (p.1.map φ, p.2)) _ _ (fun t p => ?_) a.terms []
  refine foldl_ren hφ (ren φ) (fun p : List G × S => (p.1.map φ, p.2)) _ _ (fun t q => ?_) b.terms t
  simp only
  rw [← norm_store hφ, List.map_append]

theorem neg_ren (a : Expr G S) : -renE φ a = renE φ (-a) := by
  show (⟨_⟩ : Expr H S) = ⟨_⟩
  simp [ren, renE, Neg.neg]

theorem smulPrefix_ren (x : S) (a : Expr G S) : Expr.smulPrefix x (renE φ a) = renE φ (Expr.smulPrefix x a) := by
  unfold Expr.smulPrefix renE; split
  · rfl
  · simp [ren]

theorem smulPostfix_ren (x : S) (a : Expr G S) : Expr.smulPostfix (renE φ a) x = renE φ (Expr.smulPostfix a x) := by
  unfold Expr.smulPostfix renE; split
  · rfl
  · simp [ren]

theorem addAt_ren (t : Terms G S) (x : S) (g : S → S) :
    (match (ren φ t).find? [] with
      | none => (ren φ t).emplace [] x
      | some v => if g v = 0 then (ren φ t).erase [] else (ren φ t).assign [] (g v))
    = ren φ (match t.find? [] with
      | none => t.emplace [] x
      | some v => if g v = 0 then t.erase [] else t.assign [] (g v)) := by
  have h1 := find?_ren hφ [] t
  have h2 := emplace_ren hφ [] x t
  have h3 := erase_ren hφ [] t
  simp only [List.map_nil] at h1 h2 h3
  rw [h1]
  cases t.find? [] with
  | none => exact h2
  | some v =>
    have h4 := assign_ren hφ [] (g v) t
    simp only [List.map_nil] at h4
    dsimp only; split
    · exact h3
    · exact h4

theorem addScalar_ren (a : Expr G S) (x : S) : (renE φ a).addScalar x = renE φ (a.addScalar x) := by
  unfold Expr.addScalar
  split
  · rfl
  · simp only [renE_terms, renE]
    congr 1
    exact addAt_ren hφ a.terms x (· + x)

theorem scalarAdd_ren (a : Expr G S) (x : S) : Expr.scalarAdd x (renE φ a) = renE φ (Expr.scalarAdd x a) :=
  addScalar_ren hφ a x

theorem subScalar_ren (a : Expr G S) (x : S) : (renE φ a).subScalar x = renE φ (a.subScalar x) := by
  unfold Expr.subScalar
  split
  · rfl
  · simp only [renE_terms, renE]
    congr 1
    exact addAt_ren hφ a.terms (0 - x) (· - x)

theorem scalarSub_ren (a : Expr G S) (x : S) : Expr.scalarSub x (renE φ a) = renE φ (Expr.scalarSub x a) := by
  unfold Expr.scalarSub
  have key : (renE φ a).terms.foldl (fun (t : Terms H S) p => t.emplace p.1 (0 - p.2)) []
      = ren φ (a.terms.foldl (fun (t : Terms G S) p => t.emplace p.1 (0 - p.2)) []) :=
    foldl_ren hφ (ren φ) (fun p : List G × S => (p.1.map φ, p.2)) _ _
      (fun t p => emplace_ren hφ p.1 (0 - p.2) t) a.terms []
  simp only [key]
  split
  · rfl
  · simp only [renE]
    congr 1
    exact addAt_ren hφ _ x (· + x)

theorem eqOp_ren (a b : Expr G S) : (renE φ a).eqOp (renE φ b) = a.eqOp b := by
  obtain ⟨a⟩ := a; obtain ⟨b⟩ := b
  simp only [Expr.eqOp, renE, ren, List.length_map]
  congr 1
  induction a generalizing b with
  | nil => simp
  | cons x a ih => cases b with
    | nil => simp
    | cons y b => simp [monEq_map hφ, ih]

theorem ofLinFun_ren (f : LinFun G) : (Expr.ofLinFun (f.mapGen φ) : Expr H S) = renE φ (Expr.ofLinFun f) := by
  unfold Expr.ofLinFun
  simp only [LinFun.mapGen]
  have h0 : (⟨if f.const.isZero then [] else [([], ConstScalar.makeConst f.const)]⟩ : Expr H S)
      = renE φ ⟨if f.const.isZero then [] else [([], ConstScalar.makeConst f.const)]⟩ := by
    unfold renE; split <;> rfl
  rw [h0]
  refine foldl_ren hφ (renE φ) (fun p : G × VarNumber => (φ p.1, p.2)) _ _ (fun e p => ?_) f.terms _
  simp only
  split
  · rfl
  · have := ofMonomial_ren hφ (ConstScalar.makeConst p.2 : S) [p.1]
    simp only [List.map_cons, List.map_nil] at this
    rw [this]
    exact add_ren hφ e _

theorem conj_ren [Star S] (a : Expr G S) : (renE φ a).conj = renE φ a.conj := by
  unfold Expr.conj
  have key := foldl_ren hφ (fun s : Expr G S × Expr G S => (renE φ s.1, renE φ s.2))
    (fun p : List G × S => (p.1.map φ, p.2))
    (fun (s : Expr G S × Expr G S) m =>
      let co := star m.2
      let contrib :=
        if co = 0 then s.2
        else m.1.reverse.foldl (fun e g => Expr.mulAssign e (Expr.ofLinFun (GenOps.conj g))) (Expr.const co)
      (Expr.addAssign s.1 contrib, contrib))
    (fun (s : Expr H S × Expr H S) m =>
      let co := star m.2
      let contrib :=
        if co = 0 then s.2
        else m.1.reverse.foldl (fun e g => Expr.mulAssign e (Expr.ofLinFun (GenOps.conj g))) (Expr.const co)
      (Expr.addAssign s.1 contrib, contrib)) ?_ a.terms (⟨[]⟩, ⟨[]⟩)
  · exact congrArg Prod.fst key
  · intro s p
    dsimp only
    have hc : (if star p.2 = 0 then renE φ s.2
        else (p.1.map φ).reverse.foldl (fun e g => Expr.mulAssign e (Expr.ofLinFun (GenOps.conj g))) (Expr.const (star p.2)))
      = renE φ (if star p.2 = 0 then s.2
        else p.1.reverse.foldl (fun e g => Expr.mulAssign e (Expr.ofLinFun (GenOps.conj g))) (Expr.const (star p.2))) := by
      split
      · rfl
      · rw [← List.map_reverse, const_ren hφ]
        refine foldl_ren hφ (renE φ) φ _ _ (fun e g => ?_) _ _
        rw [hφ.conj, ofLinFun_ren hφ]
        exact mul_ren hφ e _
    rw [hc]
    have := add_ren hφ s.1 (if star p.2 = 0 then s.2
        else p.1.reverse.foldl (fun e g => Expr.mulAssign e (Expr.ofLinFun (GenOps.conj g))) (Expr.const (star p.2)))
    exact congrArg₂ Prod.mk this rfl

end Relabel

/-! ### The predefined generators -/

section
variable {ι κ : Type _} [LinearOrder ι] [LinearOrder κ] {f : ι → κ} (hf : StrictMono f)
include hf

theorem relabel_genHom : GenHom (Gen.relabel f) where
  eq a b := by
    cases a <;> cases b <;> simp [GenOps.eq, Gen.eqOp, Gen.equal, Gen.relabel, Gen.algebraId, hf.injective.eq_iff]
  lt a b := by
    cases a <;> cases b <;>
      simp [GenOps.lt, Gen.ltOp, Gen.less, Gen.relabel, Gen.algebraId, hf.injective.eq_iff, hf.lt_iff_lt]
  gt a b := by
    cases a <;> cases b <;>
      simp [GenOps.gt, Gen.gtOp, Gen.greater, Gen.relabel, Gen.algebraId, hf.injective.eq_iff, hf.lt_iff_lt]
  swapWith a b := by
    cases a with
    | fermion d i => cases b <;> simp [GenOps.swapWith, Gen.swapWith, Gen.relabel, hf.injective.eq_iff]
    | boson d i => cases b <;> simp [GenOps.swapWith, Gen.swapWith, Gen.relabel, hf.injective.eq_iff]
    | spin m c i =>
      cases b with
      | fermion d j => simp [GenOps.swapWith, Gen.swapWith, Gen.relabel]
      | boson d j => simp [GenOps.swapWith, Gen.swapWith, Gen.relabel]
      | spin n e j =>
        simp only [GenOps.swapWith, Gen.swapWith, Gen.relabel, hf.injective.eq_iff, Gen.swapSpinHalf, Gen.swapHigherSpin]
        (repeat' split) <;> simp_all [Gen.relabel]
  simplifyProd a b := by
    cases a with
    | fermion d i =>
      cases b <;> simp [GenOps.simplifyProd, Gen.simplifyProd, Gen.relabel, Gen.eqOp, Gen.equal, Gen.algebraId,
        hf.injective.eq_iff]
      split <;> rfl
    | boson d i => cases b <;> simp [GenOps.simplifyProd, Gen.simplifyProd, Gen.relabel]
    | spin m c i =>
      cases b with
      | fermion d j => simp [GenOps.simplifyProd, Gen.simplifyProd, Gen.relabel]
      | boson d j => simp [GenOps.simplifyProd, Gen.simplifyProd, Gen.relabel]
      | spin n e j =>
        simp only [GenOps.simplifyProd, Gen.simplifyProd, Gen.relabel, hf.injective.eq_iff]
        (repeat' split) <;> simp_all [Gen.relabel]
  reducePower a n g := by cases a <;> simp [GenOps.reducePower, Gen.reducePower, Gen.relabel]
  conj a := by cases a <;> simp [GenOps.conj, Gen.conj, Gen.relabel]

end
end LC
