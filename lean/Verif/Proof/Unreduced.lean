import Verif.Proof.Predefined
import Verif.Proof.Reachable
import Verif.Proof.Conj
import Verif.Spec.Scalars
/-
Normalisation without the removal of ladder powers. The library's normal form is the one of the universal enveloping
algebra followed by dropping the monomials that contain a ladder power `S_±^p`, `p ≥ 2S+1`.
-/
set_option linter.unusedSectionVars false
set_option linter.unusedSimpArgs false
set_option linter.unusedTactic false
set_option linter.unusedVariables false
namespace LC
open ConstScalar

/-- The generators with `reduce_power` switched off (a proof device, not part of the code). -/
@[reducible] def genOpsU (ι : Type _) [LinearOrder ι] : GenOps (Gen ι) where
  eq := Gen.eqOp
  lt := Gen.ltOp
  gt := Gen.gtOp
  swapWith := Gen.swapWith
  simplifyProd := Gen.simplifyProd
  reducePower := fun _ _ f => (false, f)
  conj := Gen.conj

section
variable {ι : Type _} [LinearOrder ι]

theorem lawfulU : @LawfulGen (Gen ι) (genOpsU ι) := @LawfulGen.mk _ (genOpsU ι)
  Gen.eqOp_iff Gen.ltOp_irrefl Gen.ltOp_trans Gen.ltOp_tri Gen.gtOp_eq

theorem goodU : @GoodGen (Gen ι) (genOpsU ι) := @GoodGen.mk _ (genOpsU ι)
  (GoodGen.swap_const (G := Gen ι)) (GoodGen.swap_lin (G := Gen ι)) (GoodGen.simp_lin (G := Gen ι))

theorem nfGenU (M : Nat → ι → Prop) (hM : HalfAlone M) : @NFGen (Gen ι) (genOpsU ι) (Allowed M) :=
  @NFGen.mk _ (genOpsU ι) _ (nfGen M hM).swap_mem (nfGen M hM).simp_mem (nfGen M hM).swap_ok
    (fun _ _ _ _ _ _ => rfl) (fun _ _ _ _ h => by cases h)

theorem conjOKU (M : Nat → ι → Prop) : @ConjOK (Gen ι) (genOpsU ι) (Allowed M) :=
  @ConjOK.mk _ (genOpsU ι) _ (conjOK M).good (conjOK M).mem

theorem representsU {S A : Type _} [CommRing S] [DecidableEq S] [ConstScalar S] [ScalarLaws S] [Ring A] [Algebra S A]
    {M : Nat → ι → Prop} (hM : HalfAlone M) {ρ : Gen ι → A} (h : TextbookCore S M ρ) :
    @Represents (Gen ι) A (genOpsU ι) _ S _ _ _ (Allowed M) ρ :=
  @Represents.mk _ _ (genOpsU ι) _ _ _ _ _ _ _ h.swap (h.simp hM) (fun _ _ _ _ _ _ => rfl)
    (fun _ _ _ _ h => by cases h) (nfGen M hM).swap_mem (nfGen M hM).simp_mem (fun _ _ _ _ h => by cases h)

end

section Agree
variable {G S T : Type _} [CommRing S] [DecidableEq S] [ConstScalar S]

theorem pass_agree {i₁ i₂ : GenOps G} (h1 : i₁.gt = i₂.gt) (h2 : i₁.swapWith = i₂.swapWith)
    (h3 : i₁.simplifyProd = i₂.simplifyProd) (N : List G → S → T → T) (cnt : Nat) (pre : List G) (x : G) (rest : List G)
    (c : S) (sw : Bool) (t : T) :
    @pass G S T i₁ _ _ N cnt pre x rest c sw t = @pass G S T i₂ _ _ N cnt pre x rest c sw t := by
  induction cnt generalizing pre x rest c sw t with
  | zero => rfl
  | succ cnt ih =>
    cases rest with
    | nil => rfl
    | cons y rest =>
      unfold pass
      simp only [h1, h2, h3, ih]

theorem sortLoop_agree {i₁ i₂ : GenOps G} (h1 : i₁.gt = i₂.gt) (h2 : i₁.swapWith = i₂.swapWith)
    (h3 : i₁.simplifyProd = i₂.simplifyProd) (N : List G → S → T → T) (n : Nat) (m : List G) (c : S) (t : T) :
    @sortLoop G S T i₁ _ _ N n m c t = @sortLoop G S T i₂ _ _ N n m c t := by
  induction n generalizing m c t with
  | zero =>
    rw [@sortLoop.eq_def _ _ _ i₁, @sortLoop.eq_def _ _ _ i₂]
    simp only [pass_agree h1 h2 h3]
  | succ n ih =>
    rw [@sortLoop.eq_def _ _ _ i₁, @sortLoop.eq_def _ _ _ i₂]
    simp only [pass_agree h1 h2 h3, ih]

theorem normStep_agree {i₁ i₂ : GenOps G} (h1 : i₁.gt = i₂.gt) (h2 : i₁.swapWith = i₂.swapWith)
    (h3 : i₁.simplifyProd = i₂.simplifyProd) (N R : List G → S → T → T) (m : List G) (c : S) (t : T) :
    @normStep G S T i₁ _ _ _ N R m c t = @normStep G S T i₂ _ _ _ N R m c t := by
  simp only [normStep, sortLoop_agree h1 h2 h3]

end Agree

section Drop
variable {ι S T : Type _} [LinearOrder ι] [CommRing S] [DecidableEq S] [ConstScalar S]

theorem reduceLoop_U (st N R : List (Gen ι) → S → T → T) (pre run : List (Gen ι)) (x : Gen ι)
    (rest : List (Gen ι)) (f : LinFun (Gen ι)) (c : S) (t : T) :
    @reduceLoop (Gen ι) S T (genOpsU ι) _ _ _ st N R pre run x rest f c t = st (pre ++ run ++ rest) c t := by
  induction rest generalizing pre run x f with
  | nil => simp [reduceLoop]
  | cons y rest ih =>
    unfold reduceLoop
    simp only [ih]
    simp

theorem reduceStep_U (st N R : List (Gen ι) → S → T → T) (m : List (Gen ι)) (c : S) (t : T) :
    @reduceStep (Gen ι) S T (genOpsU ι) _ _ _ st N R m c t = st m c t := by
  cases m with
  | nil => rfl
  | cons x rest => simp [reduceStep, reduceLoop_U]

/-- Does `reduce_powers_and_store` keep the monomial? -/
def keeps (m : List (Gen ι)) : Bool :=
  reduceStep (G := Gen ι) (S := ℚ) (T := Bool) (fun _ _ _ => true) (fun _ _ t => t) (fun _ _ t => t) m 1 false

theorem reduceLoop_keeps (st N R : List (Gen ι) → S → T → T) (pre run : List (Gen ι)) (x : Gen ι)
    (rest : List (Gen ι)) (c : S) (t : T) :
    reduceLoop (G := Gen ι) st N R pre run x rest LinFun.zero c t =
      if reduceLoop (G := Gen ι) (S := ℚ) (T := Bool) (fun _ _ _ => true) (fun _ _ t => t) (fun _ _ t => t) pre run x
        rest LinFun.zero 1 false
      then st (pre ++ run ++ rest) c t else t := by
  induction rest generalizing pre run x with
  | nil => simp [reduceLoop]
  | cons y rest ih =>
    have h : ∀ p, (GenOps.reducePower x p (LinFun.zero : LinFun (Gen ι))).2 = LinFun.zero := by
      intro p; cases x <;> rfl
    have h' : (LinFun.zero : LinFun (Gen ι)).vanishing = true := rfl
    unfold reduceLoop
    simp only [h, h', ih, if_true, List.append_assoc, List.cons_append, List.nil_append]
    split
    · split
      · split
        · simp
        · rfl
      · rfl
    · rfl

theorem reduceStep_keeps (st N R : List (Gen ι) → S → T → T) (m : List (Gen ι)) (c : S) (t : T) :
    reduceStep (G := Gen ι) st N R m c t = if keeps m then st m c t else t := by
  cases m with
  | nil => rfl
  | cons x rest =>
    simp only [reduceStep, keeps]
    rw [reduceLoop_keeps]
    rfl

theorem both_U (st : List (Gen ι) → S → T → T) (n : Nat) :
    @both (Gen ι) S T (genOpsU ι) _ _ _ (fun m c t => if keeps m then st m c t else t) n = both (G := Gen ι) st n := by
  induction n with
  | zero => rfl
  | succ n ih =>
    have hR : @reduceStep (Gen ι) S T (genOpsU ι) _ _ _ (fun m c t => if keeps m then st m c t else t)
        (@both (Gen ι) S T (genOpsU ι) _ _ _ (fun m c t => if keeps m then st m c t else t) n).1
        (@both (Gen ι) S T (genOpsU ι) _ _ _ (fun m c t => if keeps m then st m c t else t) n).2
        = reduceStep (G := Gen ι) st (both (G := Gen ι) st n).1 (both (G := Gen ι) st n).2 := by
      funext m c t
      rw [reduceStep_U, reduceStep_keeps]
    simp only [both]
    rw [hR, ih]
    refine Prod.ext ?_ rfl
    funext m c t
    exact normStep_agree (i₁ := genOpsU ι) (i₂ := Gen.instGenOps) rfl rfl rfl _ _ m c t

/-- Normalisation in the library = normalisation without power reduction, followed by dropping. -/
theorem emits_drop (m : List (Gen ι)) (c : S) :
    emits (G := Gen ι) m c = (@emits (Gen ι) S (genOpsU ι) _ _ _ m c).filter fun p => keeps (ι := ι) p.1 := by
  have h1 : emits (G := Gen ι) m c = @normalize (Gen ι) S _ (genOpsU ι) _ _ _
      (fun m c t => if keeps (ι := ι) m then logStore (G := Gen ι) m c t else t) m c [] := by
    simp only [emits, normalize]
    rw [both_U]
  rw [h1, @normalize_eq_foldl (Gen ι) S _ (genOpsU ι)]
  have : ∀ (l r : List (List (Gen ι) × S)),
      l.foldl (fun t p => if keeps (ι := ι) p.1 then logStore (G := Gen ι) p.1 p.2 t else t) r
        = r ++ l.filter fun p => keeps (ι := ι) p.1 := by
    intro l
    induction l with
    | nil => intro r; simp
    | cons p l ih =>
      intro r
      rw [List.foldl_cons, ih, List.filter_cons]
      cases h : keeps (ι := ι) p.1
      · simp
      · simp [logStore]
  exact this _ []

/-- On sorted monomials the test is the power condition of canonical monomials. -/
theorem keeps_iff {M : Nat → ι → Prop} (hM : HalfAlone M) {m : List (Gen ι)} (hP : ∀ g ∈ m, Allowed M g)
    (hc : m.IsChain (OKPair (G := Gen ι))) : keeps m = true ↔ CanonMon (Allowed M) m := by
  constructor
  · intro h
    by_contra hn
    cases m with
    | nil => exact hn Expr.canonMon_nil
    | cons x rest =>
      have := reduceLoop_canon (nfGen M hM) (S := ℚ) (T := Bool) (I := fun t => t = false)
        (st := fun _ _ _ => true) (N := fun _ _ t => t) (R := fun _ _ t => t) 1 false rfl (x :: rest) hP hc
        (fun h => absurd h hn) [] 0 x rest (by simp) (by simp) (by intro p; omega)
      have e : keeps (x :: rest) = false := this
      rw [e] at h
      cases h
  · intro h
    cases m with
    | nil => rfl
    | cons x rest =>
      have := reduceLoop_of_canon (nfGen M hM) (S := ℚ) (T := Bool) 
        (st := fun _ _ _ => true) (N := fun _ _ t => t) (R := fun _ _ t => t) 1 false (x :: rest) h
        [] 0 x rest (by simp)
      exact this

end Drop
end LC
