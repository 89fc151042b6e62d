import Verif.Proof.AnyCanonical
/-
A canonical monomial is left unchanged by normalisation, for any scalar type.
-/
set_option linter.unusedSectionVars false
set_option linter.unusedSimpArgs false
namespace LC.Any
variable {G S T : Type _} [GenOps G] [LawfulGen G] [ScalarOps S]

theorem pass_of_chain (N : List G → S → T → T) (cnt : Nat) (pre : List G) (x : G) (rest : List G)
    (h : (x :: rest).IsChain OKPair) (c : S) (sw : Bool) (t : T) :
    pass N cnt pre x rest c sw t = .cont (pre ++ x :: rest) c sw t := by
  induction cnt generalizing pre x rest with
  | zero => rfl
  | succ cnt ih =>
    cases rest with
    | nil => rfl
    | cons y rest =>
      rw [List.isChain_cons_cons] at h
      simp only [pass, h.1.1, h.1.2, Bool.false_eq_true, if_false]
      rw [ih _ _ _ h.2]; simp

theorem sortLoop_of_chain (N : List G → S → T → T) (n : Nat) (m : List G)
    (h : m.IsChain OKPair) (c : S) (t : T) :
    sortLoop N n m c t = .cont m c false t := by
  cases m with
  | nil => unfold sortLoop; rfl
  | cons x rest => unfold sortLoop; simp only [pass_of_chain N n [] x rest h]; rfl

theorem reduceLoop_of_canon {P : G → Prop} (hN : NFGen P) {st N R : List G → S → T → T} (c : S) (t : T) (m : List G)
    (hc : CanonMon P m) (pre : List G) (n : Nat) (x : G) (rest : List G)
    (hm : m = pre ++ List.replicate (n + 1) x ++ rest) :
    reduceLoop st N R pre (List.replicate (n + 1) x) x rest LinFun.zero c t = st m c t := by
  have eqr : ∀ a : G, GenOps.eq a a = true := fun a => (LawfulGen.eq_iff a a).2 rfl
  induction rest generalizing pre n x with
  | nil => simp only [reduceLoop, hm, List.append_nil]
  | cons y rest ih =>
    simp only [reduceLoop, List.length_replicate]
    by_cases hyx : GenOps.eq y x = true
    · have hyx' : y = x := (LawfulGen.eq_iff _ _).1 hyx
      subst hyx'
      have hrep : List.replicate (n + 1) y ++ [y] = List.replicate (n + 1 + 1) y := by
        rw [List.replicate_succ' (n := n+1)]
      have hm' : m = pre ++ List.replicate (n + 1 + 1) y ++ rest := by rw [hm, ← hrep]; simp
      rw [if_pos hyx]
      by_cases h2 : n + 1 + 1 > 2
      · rw [if_pos h2]
        have hred := hc.pow y (by rw [hm]; simp) (n + 1 + 1) h2 (by
          rw [hm', List.countP_append, List.countP_append, List.countP_replicate]
          simp [eqr]; omega)
        have hf := hN.red_false y (n + 1 + 1) LinFun.zero (hc.mem y (by rw [hm]; simp)) h2 hred
        simp only [hred, Bool.false_eq_true, if_false, hf, hrep]
        exact ih _ _ _ hm'
      · rw [if_neg h2, hrep]; exact ih _ _ _ hm'
    · rw [if_neg hyx]
      exact ih (pre ++ List.replicate (n + 1) x) 0 y (by rw [hm]; simp)

theorem normalize_of_canon {P : G → Prop} (hN : NFGen P) (st : List G → S → T → T) (m : List G)
    (hc : CanonMon P m) (c : S) (h0 : 2 ≤ m.length → ScalarOps.isZero c = false) (t : T) : normalize st m c t = st m c t := by
  have hR : reduce st m c t = st m c t := by
    rw [reduce_eq]
    cases m with
    | nil => rfl
    | cons x rest => exact reduceLoop_of_canon hN c t (x :: rest) hc [] 0 x rest (by simp)
  rw [normalize_eq]
  simp only [normStep, sortLoop_of_chain _ _ _ hc.chain, hR]
  by_cases h2 : 2 ≤ m.length
  · rw [if_pos h2, if_neg (by rw [h0 h2]; simp)]
  · rw [if_neg h2]

theorem emits_of_canon {P : G → Prop} (hN : NFGen P) (m : List G) (hc : CanonMon P m) (c : S) (h0 : 2 ≤ m.length → ScalarOps.isZero c = false) :
    emits m c = [(m, c)] := by
  rw [emits, normalize_of_canon hN _ m hc c h0]; rfl

/-- A canonical monomial of two or more generators with a negligible coefficient is dropped. -/
theorem emits_of_canon_drop {P : G → Prop} (m : List G) (hc : CanonMon P m) (c : S)
    (h2 : 2 ≤ m.length) (h0 : ScalarOps.isZero c = true) : emits m c = [] := by
  rw [emits, normalize_eq]
  simp only [normStep, sortLoop_of_chain _ _ _ hc.chain, if_pos h2, if_pos h0]

end LC.Any
