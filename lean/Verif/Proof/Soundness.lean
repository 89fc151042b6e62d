import Mathlib.Tactic.Ring
import Mathlib.Tactic.NoncommRing
import Verif.Proof.Normalize
import Verif.Spec.Algebra
/-
Normalisation preserves denotations.
-/
set_option linter.unusedSectionVars false
set_option linter.unusedSimpArgs false
namespace LC
variable {G S A : Type _} [GenOps G] [CommRing S] [DecidableEq S] [ConstScalar S] [ScalarLaws S] [Ring A] [Algebra S A]

@[simp] theorem evalMon_nil (ρ : G → A) : evalMon ρ [] = 1 := rfl
@[simp] theorem evalMon_cons (ρ : G → A) (g : G) (m : List G) : evalMon ρ (g :: m) = ρ g * evalMon ρ m := by
  simp [evalMon]
@[simp] theorem evalMon_append (ρ : G → A) (m m' : List G) : evalMon ρ (m ++ m') = evalMon ρ m * evalMon ρ m' := by
  simp [evalMon]
@[simp] theorem evalTerms_nil (ρ : G → A) : evalTerms ρ ([] : List (List G × S)) = 0 := rfl
@[simp] theorem evalTerms_cons (ρ : G → A) (p : List G × S) (t) :
    evalTerms ρ (p :: t) = p.2 • evalMon ρ p.1 + evalTerms ρ t := by simp [evalTerms]
@[simp] theorem evalTerms_append (ρ : G → A) (t t' : List (List G × S)) :
    evalTerms ρ (t ++ t') = evalTerms ρ t + evalTerms ρ t' := by simp [evalTerms]

variable (P : G → Prop) (ρ : G → A)

theorem foldl_add_sum {α : Type _} (F : α → A) (l : List α) (a : A) :
    l.foldl (fun a x => a + F x) a = a + (l.map F).sum := by
  induction l generalizing a with
  | nil => simp
  | cons x l ih => simp [ih, add_assoc]

theorem foldl_congr_mem {α β : Type _} (f g : β → α → β) (l : List α) (h : ∀ b, ∀ a ∈ l, f b a = g b a) (b : β) :
    l.foldl f b = l.foldl g b := by
  induction l generalizing b with
  | nil => rfl
  | cons x l ih =>
    rw [List.foldl_cons, List.foldl_cons, h b x (by simp), ih fun b a ha => h b a (by simp [ha])]

theorem sum_mul_mul {α : Type _} (F : α → A) (l : List α) (a b : A) :
    (l.map fun x => a * F x * b).sum = a * (l.map F).sum * b := by
  induction l with
  | nil => simp
  | cons x l ih => simp [ih, mul_add, add_mul]

theorem smul_sum_list {α : Type _} (F : α → A) (l : List α) (c : S) :
    (l.map fun x => c • F x).sum = c • (l.map F).sum := by
  induction l with
  | nil => simp
  | cons x l ih => simp [ih, smul_add]

theorem processF_sound {N : List G → S → A → A} {L : Nat}
    (h : ∀ m c a, m.length < L → (∀ g ∈ m, P g) → N m c a = a + c • evalMon ρ m) (pre post : List G)
    (hl : pre.length + post.length + 1 < L) (hpre : ∀ g ∈ pre, P g) (hpost : ∀ g ∈ post, P g)
    (f : LinFun G) (hf : ∀ p ∈ f.terms, P p.1) (c : S) (a : A) :
    processF N pre post f c a = a + c • (evalMon ρ pre * evalLin S ρ f * evalMon ρ post) := by
  simp only [processF]
  rw [foldl_congr_mem _ (fun t gv => t + c • (evalMon ρ pre *
      ((ConstScalar.makeConst gv.2 : S) • ρ gv.1) * evalMon ρ post))]
  rotate_left
  · intro b p hp
    rw [h _ _ _ (by simp; omega) (by
      intro g hg
      simp only [List.mem_append, List.mem_cons] at hg
      rcases hg with hg | hg | hg
      · exact hpre g hg
      · rw [hg]; exact hf p hp
      · exact hpost g hg)]
    simp [mul_smul, mul_assoc]
  rw [foldl_add_sum, smul_sum_list, sum_mul_mul]
  have : (if f.const.isZero = true then a else N (pre ++ post) (c * ConstScalar.makeConst f.const) a)
      = a + c • (evalMon ρ pre * algebraMap S A (ConstScalar.makeConst f.const) * evalMon ρ post) := by
    split
    · rename_i h'
      rw [ScalarLaws.mk_isZero _ h']; simp
    · rw [h _ _ _ (by simp; omega) (by
        intro g hg
        rcases List.mem_append.1 hg with hg | hg
        · exact hpre g hg
        · exact hpost g hg)]
      rw [mul_smul, evalMon_append, Algebra.algebraMap_eq_smul_one]
      simp
  rw [this, evalLin]
  simp only [mul_add, add_mul, smul_add]
  abel

/-- Denotation of an intermediate state of the sorting loops. -/
def PassRes.val (ρ : G → A) : PassRes G S A → A
  | .done a => a
  | .cont m c _ a => a + c • evalMon ρ m

theorem VarNumber.eq_zero {v : VarNumber} (h : v.eq (.integer 0) = true) : (ConstScalar.makeConst v : S) = 0 := by
  cases v with
  | integer i => apply ScalarLaws.mk_isZero; simpa [VarNumber.eq, VarNumber.isZero] using h
  | rational a b => simp [VarNumber.eq] at h
  | real x => simp [VarNumber.eq] at h

variable {P ρ} in
theorem pass_sound (hρ : Represents S P ρ) {N : List G → S → A → A} {L : Nat}
    (h : ∀ m c a, m.length < L → (∀ g ∈ m, P g) → N m c a = a + c • evalMon ρ m) (cnt : Nat) (pre : List G) (x : G)
    (rest : List G) (hl : pre.length + 1 + rest.length ≤ L) (hP : ∀ g ∈ pre ++ x :: rest, P g)
    (c : S) (sw : Bool) (a : A) :
    (pass N cnt pre x rest c sw a).val ρ = a + c • evalMon ρ (pre ++ x :: rest) := by
  induction cnt generalizing pre x rest c sw a with
  | zero => simp [pass, PassRes.val]
  | succ cnt ih =>
    cases rest with
    | nil => simp [pass, PassRes.val]
    | cons y rest =>
      simp only [List.length_cons] at hl
      have hx : P x := hP x (by simp)
      have hy : P y := hP y (by simp)
      have hpre : ∀ g ∈ pre, P g := fun g hg => hP g (by simp [hg])
      have hrest : ∀ g ∈ rest, P g := fun g hg => hP g (by simp [hg])
      simp only [pass]
      split
      · rename_i hgt
        rw [processF_sound P ρ h _ _ (by omega) hpre hrest _ (hρ.swap_mem x y hx hy hgt)]
        have hs := hρ.swap x y hx hy hgt
        have e : evalMon ρ (pre ++ x :: y :: rest) = evalMon ρ pre * (ρ x * ρ y) * evalMon ρ rest := by
          simp [mul_assoc]
        split
        · rename_i h0
          rw [VarNumber.eq_zero h0] at hs
          simp only [zero_smul, zero_add] at hs
          simp only [PassRes.val]
          rw [e, hs]
        · rw [ih _ _ _ (by simp; omega) (by
            intro g hg
            apply hP
            simp only [List.mem_append, List.mem_cons, List.not_mem_nil, or_false] at hg ⊢
            tauto), e, hs]
          simp only [evalMon_append, evalMon_cons, evalMon_nil, mul_add, add_mul, smul_add, mul_smul, mul_assoc,
            mul_smul_comm, smul_mul_assoc, one_mul, mul_one]
          abel
      · rename_i hgt
        have hgt : GenOps.gt x y = false := by simpa using hgt
        split
        · rename_i f hf
          simp only [PassRes.val]
          rw [processF_sound P ρ h _ _ (by omega) hpre hrest _ (hρ.simp_mem x y f hx hy hgt hf),
            ← hρ.simp x y f hx hy hgt hf]
          simp [mul_assoc]
        · rw [ih _ _ _ (by simp; omega) (by simpa using hP)]
          simp

variable {P ρ} in
theorem sortLoop_sound (hρ : Represents S P ρ) {N : List G → S → A → A} {L : Nat}
    (h : ∀ m c a, m.length < L → (∀ g ∈ m, P g) → N m c a = a + c • evalMon ρ m) (nmax : Nat) (m : List G)
    (hl : m.length ≤ L) (hP : ∀ g ∈ m, P g) (c : S) (a : A) :
    (sortLoop N nmax m c a).val ρ = a + c • evalMon ρ m := by
  induction nmax generalizing m c a with
  | zero =>
    cases m with
    | nil => simp [sortLoop, PassRes.val]
    | cons x rest =>
      simp only [sortLoop]
      have := pass_sound hρ h 0 [] x rest (by simp at hl ⊢; omega) (by simpa using hP) c false a
      simp only [List.nil_append] at this
      rw [← this]
      cases pass N 0 [] x rest c false a with
      | done t' => rfl
      | cont m' c' sw t' => cases sw <;> rfl
  | succ nmax ih =>
    cases m with
    | nil => simp [sortLoop, PassRes.val]
    | cons x rest =>
      simp only [sortLoop]
      have := pass_sound hρ h (nmax + 1) [] x rest (by simp at hl ⊢; omega) (by simpa using hP) c false a
      simp only [List.nil_append] at this
      rw [← this]
      cases hp : pass N (nmax + 1) [] x rest c false a with
      | done t' => rfl
      | cont m' c' sw t' =>
        cases sw
        · rfl
        · simp only
          have hperm := pass_perm _ _ _ _ _ _ _ hp
          rw [ih _ (by rw [pass_length _ _ _ _ _ _ _ hp]; simp at hl ⊢; omega)
            (fun g hg => hP g (by simpa using hperm.mem_iff.1 hg))]
          rfl

variable {P ρ} in
theorem normStep_sound (hρ : Represents S P ρ) {N R : List G → S → A → A} {L : Nat}
    (h : ∀ m c a, m.length < L → (∀ g ∈ m, P g) → N m c a = a + c • evalMon ρ m)
    (hR : ∀ m c a, m.length ≤ L → (∀ g ∈ m, P g) → R m c a = a + c • evalMon ρ m) (m : List G)
    (hl : m.length ≤ L) (hP : ∀ g ∈ m, P g) (c : S) (a : A) : normStep N R m c a = a + c • evalMon ρ m := by
  simp only [normStep]
  split
  · have := sortLoop_sound hρ h (m.length - 1) m hl hP c a
    cases hp : sortLoop N (m.length - 1) m c a with
    | done t' => rw [hp] at this; simpa [PassRes.val] using this
    | cont m' c' sw t' =>
      rw [hp] at this
      simp only [PassRes.val] at this
      simp only
      split
      · rename_i h0; subst h0; simpa using this
      · rw [hR _ _ _ (by rw [sortLoop_length _ _ _ _ hp]; exact hl)
          (fun g hg => hP g ((sortLoop_perm _ _ _ _ hp).mem_iff.1 hg)), this]
  · exact hR _ _ _ hl hP

variable {P ρ} [LawfulGen G] in
theorem reduceLoop_sound (hρ : Represents S P ρ) {N R : List G → S → A → A} {L : Nat}
    (h : ∀ m c a, m.length < L → (∀ g ∈ m, P g) → N m c a = a + c • evalMon ρ m)
    (hR : ∀ m c a, m.length < L → (∀ g ∈ m, P g) → R m c a = a + c • evalMon ρ m)
    (pre : List G) (n : Nat) (x : G) (rest : List G)
    (hl : pre.length + (n + 1) + rest.length ≤ L) (hpre : ∀ g ∈ pre, P g) (hx : P x) (hrest : ∀ g ∈ rest, P g)
    (c : S) (a : A) :
    reduceLoop (fun m c a => a + c • evalMon ρ m) N R pre (List.replicate (n + 1) x) x rest LinFun.zero c a =
      a + c • evalMon ρ (pre ++ List.replicate (n + 1) x ++ rest) := by
  have evr : ∀ k, evalMon ρ (List.replicate k x) = ρ x ^ k := fun k => by simp [evalMon]
  induction rest generalizing pre n x with
  | nil => simp [reduceLoop]
  | cons y rest ih =>
    simp only [List.length_cons] at hl
    have hy' : P y := hrest y (by simp)
    have hrest' : ∀ g ∈ rest, P g := fun g hg => hrest g (by simp [hg])
    simp only [reduceLoop]
    split
    · rename_i hy
      have hy := (LawfulGen.eq_iff _ _).1 hy
      subst hy
      have e1 : List.replicate (n + 1) y ++ [y] = List.replicate (n + 1 + 1) y := (List.replicate_succ' ..).symm
      have e : evalMon ρ (pre ++ List.replicate (n + 1) y ++ y :: rest)
          = evalMon ρ pre * ρ y ^ (n + 1 + 1) * evalMon ρ rest := by
        rw [← evr, ← e1]; simp [mul_assoc]
      have hnext : reduceLoop (fun m c a => a + c • evalMon ρ m) N R pre (List.replicate (n + 1) y ++ [y]) y rest
          LinFun.zero c a = a + c • evalMon ρ (pre ++ List.replicate (n + 1) y ++ y :: rest) := by
        rw [e1, ih pre (n+1) y (by omega) hpre hy' hrest' (fun k => by simp [evalMon]), e, ← evr]; simp [mul_assoc]
      split
      · rename_i hlen
        simp only [List.length_replicate] at hlen ⊢
        split
        · rename_i hr
          have hred := hρ.red_true y (n + 1 + 1) hy' hlen hr
          have hmem := hρ.red_mem y (n + 1 + 1) hy' hlen hr
          generalize hf : (GenOps.reducePower y (n + 1 + 1) LinFun.zero).2 = f at hred hmem ⊢
          rw [e, hred]
          split
          · rename_i hv
            simp only [LinFun.vanishing, Bool.and_eq_true] at hv
            have h2 : f.terms = [] := by simpa using hv.2
            simp [evalLin, ScalarLaws.mk_isZero _ hv.1, h2]
          · rw [foldl_congr_mem _ (fun t gv => t + c • (evalMon ρ pre *
                ((ConstScalar.makeConst gv.2 : S) • ρ gv.1) * evalMon ρ rest))]
            rotate_left
            · intro b p hp
              split
              · rename_i h0; simp [h0]
              · rw [h _ _ _ (by simp; omega) (by
                  intro g hg
                  simp only [List.mem_append, List.mem_cons] at hg
                  rcases hg with hg | hg | hg
                  · exact hpre g hg
                  · rw [hg]; exact hmem p hp
                  · exact hrest' g hg)]
                simp [mul_smul, mul_assoc]
            rw [foldl_add_sum, smul_sum_list, sum_mul_mul]
            have : (if (ConstScalar.makeConst f.const : S) = 0 then a
                else R (pre ++ rest) (c * ConstScalar.makeConst f.const) a)
                = a + c • (evalMon ρ pre * algebraMap S A (ConstScalar.makeConst f.const) * evalMon ρ rest) := by
              split
              · rename_i h'; rw [h']; simp
              · rw [hR _ _ _ (by simp; omega) (by
                  intro g hg
                  rcases List.mem_append.1 hg with hg | hg
                  · exact hpre g hg
                  · exact hrest' g hg)]
                rw [mul_smul, evalMon_append, Algebra.algebraMap_eq_smul_one]
                simp
            rw [this, evalLin]
            simp only [mul_add, add_mul, smul_add]
            abel
        · rename_i hr
          rw [hρ.red_false y _ _ hy' hlen (by simpa using hr)]
          exact hnext
      · exact hnext
    · have := ih (pre ++ List.replicate (n + 1) x) 0 y (by simp; omega) (by
        intro g hg
        rcases List.mem_append.1 hg with hg | hg
        · exact hpre g hg
        · rw [List.eq_of_mem_replicate hg]; exact hx) hy' hrest' (fun k => by simp [evalMon])
      simp only [Nat.zero_add, List.replicate_one] at this
      rw [this]; simp

variable {P ρ} [LawfulGen G] in
theorem both_sound (hρ : Represents S P ρ) (L : Nat) : ∀ m : List G, m.length < L → (∀ g ∈ m, P g) →
    ∀ (c : S) (a : A),
    normalize (fun m c a => a + c • evalMon ρ m) m c a = a + c • evalMon ρ m ∧
    reduce (fun m c a => a + c • evalMon ρ m) m c a = a + c • evalMon ρ m := by
  induction L with
  | zero => intro m h; omega
  | succ L ih =>
    have hR : ∀ (m : List G) (c : S) (a : A), m.length ≤ L → (∀ g ∈ m, P g) →
        reduce (fun m c a => a + c • evalMon ρ m) m c a = a + c • evalMon ρ m := by
      intro m c a hl hP
      rw [reduce_eq]
      cases m with
      | nil => simp [reduceStep]
      | cons x rest =>
        have := reduceLoop_sound hρ (fun m c a h hP => (ih m h hP c a).1) (fun m c a h hP => (ih m h hP c a).2) [] 0 x
          rest (by simp at hl ⊢; omega) (by simp) (hP x (by simp)) (fun g hg => hP g (by simp [hg])) c a
        simpa [reduceStep] using this
    intro m hl hP c a
    refine ⟨?_, hR m c a (by omega) hP⟩
    rw [normalize_eq]
    exact normStep_sound hρ (fun m c a h hP => (ih m h hP c a).1) hR m (by omega) hP c a

variable {P ρ} [LawfulGen G] in
/-- The stored pairs denote the coefficient times the product. -/
theorem emits_sound (hρ : Represents S P ρ) (m : List G) (hP : ∀ g ∈ m, P g) (c : S) :
    evalTerms ρ (emits m c) = c • evalMon ρ m := by
  have h1 := (both_sound hρ (m.length + 1) m (by omega) hP c 0).1
  rw [normalize_eq_foldl, foldl_add_sum (fun p : List G × S => p.2 • evalMon ρ p.1)] at h1
  simpa [evalTerms] using h1

theorem evalTerms_eq (t : List (List G × S)) : evalTerms ρ t = Terms.evalWith (evalMon ρ) t := rfl

theorem evalTerms_store [LawfulGen G] (k : List G) (c : S) (t : Terms G S) :
    evalTerms ρ (t.store k c) = evalTerms ρ t + c • evalMon ρ k := Terms.evalWith_store _ k c t

theorem evalTerms_storeAll [LawfulGen G] (l : List (List G × S)) (t : Terms G S) :
    evalTerms ρ (Terms.storeAll l t) = evalTerms ρ t + evalTerms ρ l := Terms.evalWith_storeAll _ l t

theorem evalTerms_normalize [LawfulGen G] {P : G → Prop} {ρ : G → A} (hρ : Represents S P ρ) (m : List G)
    (hP : ∀ g ∈ m, P g) (c : S) (t : Terms G S) :
    evalTerms ρ (normalize Terms.store m c t) = evalTerms ρ t + c • evalMon ρ m := by
  rw [normalize_store, evalTerms_storeAll, emits_sound hρ m hP]

end LC
