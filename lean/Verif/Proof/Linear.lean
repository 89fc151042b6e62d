import Mathlib.Algebra.Module.Basic
import Mathlib.Algebra.Module.Pi
import Mathlib.Algebra.CharZero.Defs
import Mathlib.Data.Int.Cast.Lemmas
import Verif.Proof.Soundness
/-
`normalize` is linear in the coefficient and, for well-behaved constants, never stores a zero coefficient.
-/
set_option linter.unusedSectionVars false
set_option linter.unusedSimpArgs false
namespace LC
variable {G S : Type _} [GenOps G] [CommRing S] [DecidableEq S] [ConstScalar S] [ScalarLaws S]

section Linear
variable {M : Type _} [AddCommGroup M] [Module S M]

theorem foldl_linear {α : Type _} (F : S → M → α → M) (l : List α)
    (h : ∀ x ∈ l, ∃ W : M, ∀ c a, F c a x = a + c • W) :
    ∃ W : M, ∀ c a, l.foldl (F c) a = a + c • W := by
  induction l with
  | nil => exact ⟨0, by simp⟩
  | cons x l ih =>
    obtain ⟨W, hW⟩ := ih fun y hy => h y (by simp [hy])
    obtain ⟨V, hV⟩ := h x (by simp)
    exact ⟨V + W, fun c a => by rw [List.foldl_cons, hV, hW, smul_add, add_assoc]⟩

theorem processF_linear {N : List G → S → M → M} {L : Nat}
    (h : ∀ m, m.length < L → ∃ V : M, ∀ c a, N m c a = a + c • V) (pre post : List G)
    (hl : pre.length + post.length + 1 < L) (f : LinFun G) :
    ∃ W : M, ∀ (c : S) (a : M), processF N pre post f c a = a + c • W := by
  obtain ⟨W, hW⟩ := foldl_linear (S := S) (M := M)
    (fun c t (gv : G × VarNumber) => N (pre ++ gv.1 :: post) (c * ConstScalar.makeConst gv.2) t) f.terms (by
      intro x _
      obtain ⟨V, hV⟩ := h (pre ++ x.1 :: post) (by simp; omega)
      exact ⟨(ConstScalar.makeConst x.2 : S) • V, fun c a => by rw [hV, mul_smul]⟩)
  obtain ⟨V, hV⟩ := h (pre ++ post) (by simp; omega)
  by_cases hz : f.const.isZero = true
  · exact ⟨W, fun c a => by simp only [processF, if_pos hz]; exact hW c a⟩
  · refine ⟨(ConstScalar.makeConst f.const : S) • V + W, fun c a => ?_⟩
    simp only [processF, if_neg hz]
    rw [hW, hV, mul_smul, smul_add, add_assoc]

theorem pass_linear {N : List G → S → M → M} {L : Nat}
    (h : ∀ m, m.length < L → ∃ V : M, ∀ c a, N m c a = a + c • V) (cnt : Nat) (pre : List G) (x : G) (rest : List G)
    (hl : pre.length + 1 + rest.length ≤ L) (sw : Bool) :
    (∃ W : M, ∀ (c : S) (a : M), pass N cnt pre x rest c sw a = .done (a + c • W)) ∨
    (∃ (m' : List G) (d : S) (sw' : Bool) (W : M), m'.length = pre.length + 1 + rest.length ∧
      ∀ (c : S) (a : M), pass N cnt pre x rest c sw a = .cont m' (c * d) sw' (a + c • W)) := by
  induction cnt generalizing pre x rest sw with
  | zero => right; exact ⟨pre ++ x :: rest, 1, sw, 0, by simp; omega, by simp [pass]⟩
  | succ cnt ih =>
    cases rest with
    | nil => right; exact ⟨pre ++ [x], 1, sw, 0, by simp, by simp [pass]⟩
    | cons y rest =>
      simp only [List.length_cons] at hl
      simp only [pass]
      split
      · obtain ⟨W, hW⟩ := processF_linear h pre rest (by omega) (GenOps.swapWith x y).2
        split
        · left; exact ⟨W, fun c a => by rw [hW]⟩
        · rcases ih (pre ++ [y]) x rest (by simp; omega) true with ⟨V, hV⟩ | ⟨m', d, sw', V, hm, hV⟩
          · left
            refine ⟨W + (ConstScalar.makeConst (GenOps.swapWith x y).1 : S) • V, fun c a => ?_⟩
            rw [hV, hW, mul_smul, smul_add, add_assoc]
          · right
            refine ⟨m', ConstScalar.makeConst (GenOps.swapWith x y).1 * d, sw',
              W + (ConstScalar.makeConst (GenOps.swapWith x y).1 : S) • V, by rw [hm]; simp; omega, fun c a => ?_⟩
            rw [hV, hW, mul_smul, smul_add, add_assoc, mul_assoc]
      · split
        · rename_i f _
          obtain ⟨W, hW⟩ := processF_linear h pre rest (by omega) f
          left; exact ⟨W, fun c a => by rw [hW]⟩
        · rcases ih (pre ++ [x]) y rest (by simp; omega) sw with ⟨V, hV⟩ | ⟨m', d, sw', V, hm, hV⟩
          · left; exact ⟨V, hV⟩
          · right; exact ⟨m', d, sw', V, by rw [hm]; simp; omega, hV⟩

theorem sortLoop_linear {N : List G → S → M → M} {L : Nat}
    (h : ∀ m, m.length < L → ∃ V : M, ∀ c a, N m c a = a + c • V) (nmax : Nat) (m : List G)
    (hl : m.length ≤ L) :
    (∃ W : M, ∀ (c : S) (a : M), sortLoop N nmax m c a = .done (a + c • W)) ∨
    (∃ (m' : List G) (d : S) (sw' : Bool) (W : M), m'.length = m.length ∧
      ∀ (c : S) (a : M), sortLoop N nmax m c a = .cont m' (c * d) sw' (a + c • W)) := by
  induction nmax generalizing m with
  | zero =>
    cases m with
    | nil => right; exact ⟨[], 1, false, 0, rfl, by simp [sortLoop]⟩
    | cons x rest =>
      right
      exact ⟨x :: rest, 1, false, 0, rfl, by simp [sortLoop, pass]⟩
  | succ nmax ih =>
    cases m with
    | nil => right; exact ⟨[], 1, false, 0, rfl, by simp [sortLoop]⟩
    | cons x rest =>
      simp only [sortLoop]
      rcases pass_linear h (nmax + 1) [] x rest (by simp at hl ⊢; omega) false with ⟨V, hV⟩ | ⟨m', d, sw', V, hm, hV⟩
      · left; exact ⟨V, fun c a => by rw [hV]⟩
      · have hm' : m'.length = (x :: rest).length := by rw [hm]; simp; omega
        cases sw' with
        | false => right; exact ⟨m', d, false, V, hm', fun c a => by rw [hV]⟩
        | true =>
          rcases ih m' (by omega) with ⟨W, hW⟩ | ⟨m'', e, sw'', W, hm2, hW⟩
          · left
            refine ⟨V + d • W, fun c a => ?_⟩
            rw [hV]; simp only; rw [hW, mul_smul, smul_add, add_assoc]
          · right
            refine ⟨m'', d * e, sw'', V + d • W, by omega, fun c a => ?_⟩
            rw [hV]; simp only; rw [hW, mul_smul, smul_add, add_assoc, mul_assoc]

theorem normStep_linear {N R : List G → S → M → M} {L : Nat}
    (h : ∀ m, m.length < L → ∃ V : M, ∀ c a, N m c a = a + c • V)
    (hR : ∀ m, m.length ≤ L → ∃ V : M, ∀ c a, R m c a = a + c • V) (m : List G)
    (hl : m.length ≤ L) : ∃ V : M, ∀ (c : S) (a : M), normStep N R m c a = a + c • V := by
  simp only [normStep]
  split
  · rcases sortLoop_linear h (m.length - 1) m hl with ⟨V, hV⟩ | ⟨m', d, sw', W, hm, hW⟩
    · exact ⟨V, fun c a => by rw [hV]⟩
    · obtain ⟨V, hV⟩ := hR m' (by omega)
      refine ⟨W + d • V, fun c a => ?_⟩
      rw [hW]; simp only
      split
      · rename_i h0
        rw [smul_add, ← mul_smul, h0]; simp
      · rw [hV, mul_smul, smul_add, add_assoc]
  · exact hR m hl

theorem reduceLoop_linear {s : List G → M} {N R : List G → S → M → M} {L : Nat}
    (h : ∀ m, m.length < L → ∃ V : M, ∀ c a, N m c a = a + c • V)
    (hR : ∀ m, m.length < L → ∃ V : M, ∀ c a, R m c a = a + c • V)
    (pre run : List G) (x : G) (rest : List G) (hr : 1 ≤ run.length)
    (hl : pre.length + run.length + rest.length ≤ L) (f : LinFun G) :
    ∃ V : M, ∀ (c : S) (a : M), reduceLoop (fun m c a => a + c • s m) N R pre run x rest f c a = a + c • V := by
  induction rest generalizing pre run x f with
  | nil => exact ⟨s (pre ++ run), by simp [reduceLoop]⟩
  | cons y rest ih =>
    simp only [List.length_cons] at hl
    simp only [reduceLoop]
    split
    · split
      · split
        · split
          · exact ⟨0, by simp⟩
          · generalize (GenOps.reducePower x (run.length + 1) f).2 = f'
            obtain ⟨W, hW⟩ := foldl_linear (S := S) (M := M)
              (fun c t (gv : G × VarNumber) => if (ConstScalar.makeConst gv.2 : S) = 0 then t else
                N (pre ++ gv.1 :: rest) (c * ConstScalar.makeConst gv.2) t) f'.terms (by
                intro x _
                by_cases h0 : (ConstScalar.makeConst x.2 : S) = 0
                · exact ⟨0, fun c a => by simp [h0]⟩
                · obtain ⟨V, hV⟩ := h (pre ++ x.1 :: rest) (by simp; omega)
                  exact ⟨(ConstScalar.makeConst x.2 : S) • V, fun c a => by
                    simp only [if_neg h0]; rw [hV, mul_smul]⟩)
            obtain ⟨V, hV⟩ := hR (pre ++ rest) (by simp; omega)
            by_cases h0 : (ConstScalar.makeConst f'.const : S) = 0
            · exact ⟨W, fun c a => by simp only [if_pos h0]; exact hW c a⟩
            · refine ⟨(ConstScalar.makeConst f'.const : S) • V + W, fun c a => ?_⟩
              simp only [if_neg h0]
              have := hW c (R (pre ++ rest) (c * ConstScalar.makeConst f'.const) a)
              rw [this, hV, mul_smul, smul_add, add_assoc]
        · exact ih _ _ _ (by simp) (by simp; omega) _
      · exact ih _ _ _ (by simp) (by simp; omega) _
    · exact ih _ _ _ (by simp) (by simp; omega) _

theorem normalize_linear (s : List G → M) (L : Nat) : ∀ m : List G, m.length < L →
    (∃ V : M, ∀ (c : S) (a : M), normalize (fun m c a => a + c • s m) m c a = a + c • V) ∧
    (∃ V : M, ∀ (c : S) (a : M), reduce (fun m c a => a + c • s m) m c a = a + c • V) := by
  induction L with
  | zero => intro m h; omega
  | succ L ih =>
    have hR : ∀ m : List G, m.length ≤ L → ∃ V : M, ∀ (c : S) (a : M),
        reduce (fun m c a => a + c • s m) m c a = a + c • V := by
      intro m hl
      cases m with
      | nil => exact ⟨s [], fun c a => by rw [reduce_eq]; rfl⟩
      | cons x rest =>
        obtain ⟨V, hV⟩ := reduceLoop_linear (s := s) (fun m h => (ih m h).1) (fun m h => (ih m h).2) [] [x] x rest
          (by simp) (by simp at hl ⊢; omega) LinFun.zero
        exact ⟨V, fun c a => by rw [reduce_eq]; exact hV c a⟩
    intro m hl
    refine ⟨?_, hR m (by omega)⟩
    obtain ⟨V, hV⟩ := normStep_linear (fun m h => (ih m h).1) hR m (by omega)
    exact ⟨V, fun c a => by rw [normalize_eq]; exact hV c a⟩

end Linear

open Terms

open Classical in
/-- The total coefficient with which `k` is stored is proportional to the input coefficient. -/
theorem sumAt_emits (m : List G) (c : S) (k : List G) : sumAt (emits m c) k = c * sumAt (emits m 1) k := by
  have key : ∀ c : S, sumAt (emits m c) k
      = normalize (T := S) (fun m c a => a + c • (if k = m then (1 : S) else 0)) m c 0 := by
    intro c
    rw [normalize_eq_foldl, sumAt]
    generalize emits m c = l
    have : ∀ (l : List (List G × S)) (a : S),
        List.foldl (fun t p => t + p.2 • if k = p.1 then (1:S) else 0) a l
        = a + (l.map fun p => if k = p.1 then p.2 else 0).sum := by
      intro l
      induction l with
      | nil => simp
      | cons p l ih => intro a; rw [List.foldl_cons, ih]; simp [add_assoc]
    rw [this]; simp
  obtain ⟨V, hV⟩ := (normalize_linear (S := S) (fun m : List G => if k = m then (1 : S) else 0) (m.length + 1) m
    (by omega)).1
  rw [key, key, hV, hV]; simp

/-! ### No zero coefficient is stored -/

/-- A `var_number` with a non-zero value (and a non-zero denominator). -/
def VarNumber.Good : VarNumber → Prop
  | .integer i => i ≠ 0
  | .rational a b => a ≠ 0 ∧ b ≠ 0
  | .real x => x ≠ 0

theorem VarNumber.Good.ne_zero [IsDomain S] [CharZero S] {v : VarNumber} (h : v.Good) :
    (ConstScalar.makeConst v : S) ≠ 0 := by
  cases v with
  | integer i => rw [ConstScalar.mk_integer]; simpa [VarNumber.Good] using h
  | rational a b =>
    intro h0
    have := ConstScalar.mk_rational (S := S) a b h.2
    rw [h0, zero_mul] at this
    exact h.1 (by exact_mod_cast this.symm)
  | real x =>
    intro h0
    have := ConstScalar.mk_real (S := S) x
    rw [h0, zero_mul] at this
    have h1 : x.num = 0 := by exact_mod_cast this.symm
    exact h (Rat.num_eq_zero.1 h1)

/-- A linear function whose listed coefficients do not vanish. -/
def LinFun.Good (f : LinFun G) : Prop := (f.const.isZero = true ∨ f.const.Good) ∧ ∀ p ∈ f.terms, p.2.Good

/-- The rewriting data contain no spurious zeros. -/
class GoodGen (G : Type _) [GenOps G] : Prop where
  swap_const : ∀ g h : G, GenOps.gt g h = true → (GenOps.swapWith g h).1.eq (.integer 0) = true ∨ (GenOps.swapWith g h).1.Good
  swap_lin : ∀ g h : G, GenOps.gt g h = true → (GenOps.swapWith g h).2.Good
  simp_lin : ∀ (g h : G) f, GenOps.gt g h = false → GenOps.simplifyProd g h = some f → f.Good

section Inv
variable {T : Type _} [IsDomain S] [CharZero S] [GoodGen G] {I : T → Prop} {st : List G → S → T → T}

theorem foldl_inv {α : Type _} (F : T → α → T) (l : List α) (h : ∀ x ∈ l, ∀ t, I t → I (F t x)) (t : T) (ht : I t) :
    I (l.foldl F t) := by
  induction l generalizing t with
  | nil => exact ht
  | cons x l ih => exact ih (fun y hy => h y (by simp [hy])) _ (h x (by simp) t ht)

theorem processF_inv {N : List G → S → T → T} {L : Nat}
    (h : ∀ m c t, m.length < L → c ≠ 0 → I t → I (N m c t)) (pre post : List G)
    (hl : pre.length + post.length + 1 < L) (f : LinFun G) (hf : f.Good) (c : S) (hc : c ≠ 0) (t : T) (ht : I t) :
    I (processF N pre post f c t) := by
  simp only [processF]
  apply foldl_inv
  · intro p hp t ht
    exact h _ _ _ (by simp; omega) (mul_ne_zero hc (hf.2 p hp).ne_zero) ht
  · split
    · exact ht
    · rename_i h0
      exact h _ _ _ (by simp; omega) (mul_ne_zero hc (hf.1.resolve_left h0).ne_zero) ht

def PassRes.Inv (I : T → Prop) : PassRes G S T → Prop
  | .done t => I t
  | .cont _ c _ t => c ≠ 0 ∧ I t

theorem pass_inv {N : List G → S → T → T} {L : Nat}
    (h : ∀ m c t, m.length < L → c ≠ 0 → I t → I (N m c t)) (cnt : Nat) (pre : List G) (x : G) (rest : List G)
    (hl : pre.length + 1 + rest.length ≤ L) (c : S) (hc : c ≠ 0) (sw : Bool) (t : T) (ht : I t) :
    (pass N cnt pre x rest c sw t).Inv I := by
  induction cnt generalizing pre x rest c sw t with
  | zero => simp [pass, PassRes.Inv, ht, hc]
  | succ cnt ih =>
    cases rest with
    | nil => simp [pass, PassRes.Inv, ht, hc]
    | cons y rest =>
      simp only [List.length_cons] at hl
      simp only [pass]
      split
      · rename_i hgt
        have := processF_inv (I := I) h pre rest (by omega) _ (GoodGen.swap_lin x y hgt) c hc t ht
        split
        · exact this
        · rename_i h0
          exact ih _ _ _ (by simp; omega) _
            (mul_ne_zero hc ((GoodGen.swap_const x y hgt).resolve_left h0).ne_zero) _ _ this
      · rename_i hgt
        split
        · rename_i f hf
          exact processF_inv (I := I) h pre rest (by omega) _ (GoodGen.simp_lin x y f (by simpa using hgt) hf) c hc t ht
        · exact ih _ _ _ (by simp; omega) _ hc _ _ ht

theorem sortLoop_inv {N : List G → S → T → T} {L : Nat}
    (h : ∀ m c t, m.length < L → c ≠ 0 → I t → I (N m c t)) (nmax : Nat) (m : List G)
    (hl : m.length ≤ L) (c : S) (hc : c ≠ 0) (t : T) (ht : I t) : (sortLoop N nmax m c t).Inv I := by
  induction nmax generalizing m c t with
  | zero =>
    cases m with
    | nil => simp [sortLoop, PassRes.Inv, ht, hc]
    | cons x rest => simp [sortLoop, pass, PassRes.Inv, ht, hc]
  | succ nmax ih =>
    cases m with
    | nil => simp [sortLoop, PassRes.Inv, ht, hc]
    | cons x rest =>
      simp only [sortLoop]
      have := pass_inv (I := I) h (nmax + 1) [] x rest (by simp at hl ⊢; omega) c hc false t ht
      cases hp : pass N (nmax + 1) [] x rest c false t with
      | done t' => rw [hp] at this; exact this
      | cont m' c' sw t' =>
        rw [hp] at this
        cases sw
        · exact this
        · exact ih _ (by rw [pass_length _ _ _ _ _ _ _ hp]; simp at hl ⊢; omega) _ this.1 _ this.2

theorem normalize_inv (hst : ∀ m c t, c ≠ 0 → I t → I (st m c t)) (L : Nat) : ∀ m : List G, m.length < L →
    ∀ (c : S) (t : T), c ≠ 0 → I t → I (normalize st m c t) ∧ I (reduce st m c t) := by
  induction L with
  | zero => intro m h; omega
  | succ L ih =>
    have hR : ∀ (m : List G) (c : S) (t : T), m.length ≤ L → c ≠ 0 → I t → I (reduce st m c t) := by
      intro m c t hl hc ht
      rw [reduce_eq]
      cases m with
      | nil => exact hst _ _ _ hc ht
      | cons x rest =>
        simp only [reduceStep]
        have : ∀ (pre run : List G) (x : G) (rest : List G) (hr : 1 ≤ run.length)
            (hl : pre.length + run.length + rest.length ≤ L) (f : LinFun G),
            I (reduceLoop st (normalize st) (reduce st) pre run x rest f c t) := by
          intro pre run x rest
          induction rest generalizing pre run x with
          | nil => intro hr hl f; exact hst _ _ _ hc ht
          | cons y rest ih2 =>
            intro hr hl f
            simp only [List.length_cons] at hl
            simp only [reduceLoop]
            split
            · split
              · split
                · split
                  · exact ht
                  · apply foldl_inv
                    · intro p hp t ht
                      split
                      · exact ht
                      · rename_i h0
                        exact (ih _ (by simp; omega) _ _ (mul_ne_zero hc h0) ht).1
                    · split
                      · exact ht
                      · rename_i h0
                        exact (ih _ (by simp; omega) _ _ (mul_ne_zero hc h0) ht).2
                · exact ih2 _ _ _ (by simp) (by simp; omega) _
              · exact ih2 _ _ _ (by simp) (by simp; omega) _
            · exact ih2 _ _ _ (by simp) (by simp; omega) _
        exact this _ _ _ _ (by simp) (by simp at hl ⊢; omega) _
    intro m hl c t hc ht
    refine ⟨?_, hR m c t (by omega) hc ht⟩
    rw [normalize_eq]
    simp only [normStep]
    split
    · have := sortLoop_inv (I := I) (fun m c t h hc ht => (ih m h c t hc ht).1) (m.length - 1) m (by omega) c hc t ht
      cases hp : sortLoop (normalize st) (m.length - 1) m c t with
      | done t' => rw [hp] at this; exact this
      | cont m' c' sw t' =>
        rw [hp] at this
        simp only
        rw [if_neg this.1]
        exact hR _ _ _ (by rw [sortLoop_length _ _ _ _ hp]; omega) this.1 this.2
    · exact hR _ _ _ (by omega) hc ht

theorem emits_nonzero (m : List G) (c : S) (hc : c ≠ 0) : ∀ p ∈ emits m c, p.2 ≠ 0 :=
  (normalize_inv (I := fun l : List (List G × S) => ∀ p ∈ l, p.2 ≠ 0) (st := logStore)
    (by
      intro m c t hc ht p hp
      rcases List.mem_append.1 hp with h | h
      · exact ht p h
      · simp at h; simp [h, hc]) (m.length + 1) m (by omega) c [] hc (by simp)).1

theorem canon_normalize [LawfulGen G] (m : List G) (c : S) (hc : c ≠ 0) (t : Terms G S) (ht : t.Canon) :
    (normalize Terms.store m c t).Canon := by
  rw [normalize_store]; exact canon_storeAll _ (emits_nonzero m c hc) ht

end Inv

instance {ι : Type _} [LinearOrder ι] : GoodGen (Gen ι) where
  swap_const g h _ := by
    cases g <;> cases h <;>
      simp only [GenOps.swapWith, Gen.swapWith, Gen.swapSpinHalf, Gen.swapHigherSpin] <;>
      repeat' split
    all_goals simp [VarNumber.eq, VarNumber.Good]
  swap_lin g h _ := by
    cases g <;> cases h <;>
      simp only [GenOps.swapWith, Gen.swapWith, Gen.swapSpinHalf, Gen.swapHigherSpin] <;>
      repeat' split
    all_goals simp [LinFun.Good, VarNumber.isZero, VarNumber.Good]
  simp_lin g h f _ hf := by
    cases g <;> cases h <;>
      simp only [GenOps.simplifyProd, Gen.simplifyProd] at hf <;>
      repeat' split at hf
    all_goals simp at hf
    all_goals subst hf
    all_goals simp [LinFun.Good, VarNumber.isZero, VarNumber.Good]
end LC
