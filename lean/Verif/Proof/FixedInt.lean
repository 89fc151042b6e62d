import Mathlib.Algebra.BigOperators.Group.Finset.Piecewise
import Verif.Spec.FixedInt
import Verif.Proof.AnyCoeff
import Verif.Proof.ThrowScalar
import Verif.Proof.ThrowSafe
/-
Normalisation commutes with ring homomorphisms of the coefficients.
-/
set_option linter.unusedSectionVars false
set_option linter.unusedSimpArgs false
set_option linter.unusedVariables false
namespace LC.Any.FixedInt
open Terms

variable {G S S' T : Type _} [GenOps G] [CommRing S] [ThrowOps S] [CommRing S'] [ThrowOps S']

section drop
variable (h : RingScalar S) (φ : S →+* S')
include h

/-- Coefficients in the kernel of `φ` have no effect. -/
def DropN (φ : S →+* S') (N : List G → S → T → T) : Prop := ∀ m c t, φ c = 0 → N m c t = t

theorem foldl_drop {α : Type _} {f : T → α → T} (l : List α) (hf : ∀ t a, f t a = t) (t : T) : l.foldl f t = t := by
  induction l generalizing t with
  | nil => rfl
  | cons a l ih => rw [List.foldl_cons, hf, ih]

theorem ker_mul {c : S} (hc : φ c = 0) (v : S) : φ (ScalarOps.mul c v) = 0 := by rw [h.mul, map_mul, hc, zero_mul]

theorem processF_drop {N : List G → S → T → T} (hN : DropN φ N) (pre post : List G) (f : LinFun G) {c : S} (hc : φ c = 0) (t : T) :
    processF N pre post f c t = t := by
  rw [processF, foldl_drop h]
  · split
    · rfl
    · exact hN _ _ _ (ker_mul h φ hc _)
  · intro t a; exact hN _ _ _ (ker_mul h φ hc _)

/-- The outcome of a pass that had no effect on the target. -/
def Idle (φ : S →+* S') (t : T) : PassRes G S T → Prop
  | .done t' => t' = t
  | .cont _ c _ t' => t' = t ∧ φ c = 0

theorem pass_drop {N : List G → S → T → T} (hN : DropN φ N) (cnt : Nat) (pre : List G) (x : G) (rest : List G) {c : S} (hc : φ c = 0)
    (sw : Bool) (t : T) : Idle φ t (pass N cnt pre x rest c sw t) := by
  induction cnt generalizing pre x rest c sw t with
  | zero => exact ⟨rfl, hc⟩
  | succ cnt ih =>
    cases rest with
    | nil => exact ⟨rfl, hc⟩
    | cons y rest =>
      simp only [pass]
      split
      · rw [processF_drop h φ hN _ _ _ hc]
        split
        · exact rfl
        · exact ih _ _ _ (ker_mul h φ hc _) _ _
      · split
        · rw [processF_drop h φ hN _ _ _ hc]; exact rfl
        · exact ih _ _ _ hc _ _

theorem sortLoop_drop {N : List G → S → T → T} (hN : DropN φ N) (nmax : Nat) (m : List G) {c : S} (hc : φ c = 0) (t : T) :
    Idle φ t (sortLoop N nmax m c t) := by
  induction nmax generalizing m c t with
  | zero =>
    cases m with
    | nil => unfold sortLoop; exact ⟨rfl, hc⟩
    | cons x rest =>
      have hp := pass_drop h φ hN 0 [] x rest hc false t
      simp only [sortLoop]
      generalize pass N 0 [] x rest c false t = r at hp ⊢
      cases r with
      | done t' => exact hp
      | cont m' c' sw t' => cases sw <;> exact hp
  | succ nmax ih =>
    cases m with
    | nil => unfold sortLoop; exact ⟨rfl, hc⟩
    | cons x rest =>
      have hp := pass_drop h φ hN (nmax + 1) [] x rest hc false t
      simp only [sortLoop]
      generalize pass N (nmax + 1) [] x rest c false t = r at hp ⊢
      cases r with
      | done t' => exact hp
      | cont m' c' sw t' =>
        cases sw with
        | false => exact hp
        | true =>
          obtain ⟨rfl, hc'⟩ := hp
          exact ih _ hc' _

theorem normStep_drop {N R : List G → S → T → T} (hN : DropN φ N) (hR : DropN φ R) : DropN φ (normStep N R) := by
  intro m c t hc
  simp only [normStep]
  split
  · have hp := sortLoop_drop h φ hN (m.length - 1) m hc t
    generalize sortLoop N (m.length - 1) m c t = r at hp ⊢
    cases r with
    | done t' => exact hp
    | cont m' c' sw t' =>
      obtain ⟨rfl, hc'⟩ := hp
      simp only
      split
      · rfl
      · exact hR _ _ _ hc'
  · exact hR _ _ _ hc

theorem reduceLoop_drop {st N R : List G → S → T → T} (hst : DropN φ st) (hN : DropN φ N) (hR : DropN φ R) (pre run : List G) (x : G)
    (rest : List G) (f : LinFun G) {c : S} (hc : φ c = 0) (t : T) : reduceLoop st N R pre run x rest f c t = t := by
  induction rest generalizing pre run x f with
  | nil => exact hst _ _ _ hc
  | cons y rest ih =>
    simp only [reduceLoop]
    split
    · split
      · split
        · split
          · rfl
          · rw [foldl_drop h]
            · split
              · rfl
              · exact hR _ _ _ (ker_mul h φ hc _)
            · intro t a
              split
              · rfl
              · exact hN _ _ _ (ker_mul h φ hc _)
        · exact ih _ _ _ _
      · exact ih _ _ _ _
    · exact ih _ _ _ _

theorem both_drop {st : List G → S → T → T} (hst : DropN φ st) (n : Nat) : DropN φ (both st n).1 ∧ DropN φ (both st n).2 := by
  induction n with
  | zero => exact ⟨fun _ _ _ _ => rfl, fun _ _ _ _ => rfl⟩
  | succ n ih =>
    have hR : DropN φ (reduceStep st (both st n).1 (both st n).2) := by
      intro m c t hc
      cases m with
      | nil => exact hst _ _ _ hc
      | cons x rest => exact reduceLoop_drop h φ hst ih.1 ih.2 _ _ _ _ _ hc _
    exact ⟨normStep_drop h φ ih.1 hR, hR⟩

end drop

section sim
variable (h : RingScalar S) (h' : RingScalar S') (φ : S →+* S') (hc : ∀ v, φ (ScalarOps.makeConst v) = ScalarOps.makeConst v)
include h h' hc

/-- The two functions agree. -/
def SimN (φ : S →+* S') (N : List G → S → T → T) (N' : List G → S' → T → T) : Prop := ∀ m c t, N' m (φ c) t = N m c t

def mapRes (φ : S →+* S') : PassRes G S T → PassRes G S' T
  | .done t => .done t
  | .cont m c sw t => .cont m (φ c) sw t

theorem mul_sim (c : S) (v : VarNumber) : ScalarOps.mul (φ c) (ScalarOps.makeConst v) = φ (ScalarOps.mul c (ScalarOps.makeConst v)) := by
  rw [h.mul, h'.mul, map_mul, hc]

theorem processF_sim {N : List G → S → T → T} {N' : List G → S' → T → T} (hN : SimN φ N N') (pre post : List G) (f : LinFun G) (c : S)
    (t : T) : processF N' pre post f (φ c) t = processF N pre post f c t := by
  simp only [processF, mul_sim h h' φ hc, hN _ _ _]

theorem pass_sim {N : List G → S → T → T} {N' : List G → S' → T → T} (hN : SimN φ N N') (cnt : Nat) (pre : List G) (x : G)
    (rest : List G) (c : S) (sw : Bool) (t : T) : pass N' cnt pre x rest (φ c) sw t = mapRes φ (pass N cnt pre x rest c sw t) := by
  induction cnt generalizing pre x rest c sw t with
  | zero => rfl
  | succ cnt ih =>
    cases rest with
    | nil => rfl
    | cons y rest =>
      simp only [pass, processF_sim h h' φ hc hN, mul_sim h h' φ hc]
      split
      · split
        · rfl
        · exact ih _ _ _ _ _ _
      · cases GenOps.simplifyProd x y with
        | some f => rfl
        | none => exact ih _ _ _ _ _ _

theorem sortLoop_sim {N : List G → S → T → T} {N' : List G → S' → T → T} (hN : SimN φ N N') (nmax : Nat) (m : List G) (c : S) (t : T) :
    sortLoop N' nmax m (φ c) t = mapRes φ (sortLoop N nmax m c t) := by
  induction nmax generalizing m c t with
  | zero =>
    cases m with
    | nil => unfold sortLoop; rfl
    | cons x rest =>
      simp only [sortLoop, pass_sim h h' φ hc hN]
      generalize pass N 0 [] x rest c false t = r
      cases r with
      | done t' => rfl
      | cont m' c' sw t' => cases sw <;> rfl
  | succ nmax ih =>
    cases m with
    | nil => unfold sortLoop; rfl
    | cons x rest =>
      simp only [sortLoop, pass_sim h h' φ hc hN]
      generalize pass N (nmax + 1) [] x rest c false t = r
      cases r with
      | done t' => rfl
      | cont m' c' sw t' =>
        cases sw with
        | false => rfl
        | true => exact ih _ _ _

theorem normStep_sim {N R : List G → S → T → T} {N' R' : List G → S' → T → T} (hN : SimN φ N N') (hR : SimN φ R R') (hD : DropN φ R) :
    SimN φ (normStep N R) (normStep N' R') := by
  intro m c t
  simp only [normStep, sortLoop_sim h h' φ hc hN]
  split
  · generalize sortLoop N (m.length - 1) m c t = r
    cases r with
    | done t' => rfl
    | cont m' c' sw t' =>
      simp only [mapRes]
      by_cases e : c' = 0
      · subst e
        rw [if_pos ((h.isZero _).2 rfl), if_pos ((h'.isZero _).2 (map_zero φ))]
      · rw [if_neg (fun q => e ((h.isZero _).1 q))]
        by_cases e' : φ c' = 0
        · rw [if_pos ((h'.isZero _).2 e'), hD _ _ _ e']
        · rw [if_neg (fun q => e' ((h'.isZero _).1 q)), hR]
  · exact hR _ _ _

theorem reduceLoop_sim {st N R : List G → S → T → T} {st' N' R' : List G → S' → T → T} (hst : SimN φ st st') (hN : SimN φ N N')
    (hR : SimN φ R R') (hDN : DropN φ N) (hDR : DropN φ R) (pre run : List G) (x : G) (rest : List G) (f : LinFun G) (c : S) (t : T) :
    reduceLoop st' N' R' pre run x rest f (φ c) t = reduceLoop st N R pre run x rest f c t := by
  have key : ∀ {N : List G → S → T → T} {N' : List G → S' → T → T} (_ : SimN φ N N') (_ : DropN φ N) (m : List G) (v : VarNumber) (t : T),
      (if ScalarOps.isZero (ScalarOps.makeConst v : S') = true then t else N' m (ScalarOps.mul (φ c) (ScalarOps.makeConst v)) t) =
      (if ScalarOps.isZero (ScalarOps.makeConst v : S) = true then t else N m (ScalarOps.mul c (ScalarOps.makeConst v)) t) := by
    intro N N' hN hD m v t
    rw [mul_sim h h' φ hc, hN, ← hc v]
    by_cases e : (ScalarOps.makeConst v : S) = 0
    · rw [e, if_pos ((h.isZero _).2 rfl), if_pos ((h'.isZero _).2 (map_zero φ))]
    · rw [if_neg (c := ScalarOps.isZero (ScalarOps.makeConst v : S) = true) (fun q => e ((h.isZero _).1 q))]
      split
      · rename_i e'
        rw [hD]
        rw [h.mul, map_mul, (h'.isZero _).1 e', mul_zero]
      · rfl
  induction rest generalizing pre run x f with
  | nil => exact hst _ _ _
  | cons y rest ih =>
    simp only [reduceLoop, key hR hDR, key hN hDN, ih]

theorem both_sim {st : List G → S → T → T} {st' : List G → S' → T → T} (hst : SimN φ st st') (hD : DropN φ st) (n : Nat) :
    SimN φ (both st n).1 (both st' n).1 ∧ SimN φ (both st n).2 (both st' n).2 := by
  induction n with
  | zero => exact ⟨fun _ _ _ => rfl, fun _ _ _ => rfl⟩
  | succ n ih =>
    have hd := both_drop h φ hD n
    have hR : SimN φ (reduceStep st (both st n).1 (both st n).2) (reduceStep st' (both st' n).1 (both st' n).2) := by
      intro m c t
      cases m with
      | nil => exact hst _ _ _
      | cons x rest => exact reduceLoop_sim h h' φ hc hst ih.1 ih.2 hd.1 hd.2 _ _ _ _ _ _ _
    exact ⟨normStep_sim h h' φ hc ih.1 hR (both_drop h φ hD (n + 1)).2, hR⟩

theorem normalize_sim {st : List G → S → T → T} {st' : List G → S' → T → T} (hst : SimN φ st st') (hD : DropN φ st) (m : List G) (c : S)
    (t : T) : normalize st' m (φ c) t = normalize st m c t := (both_sim h h' φ hc hst hD _).1 m c t

end sim

/-! ### Coefficients -/

open Classical in
theorem foldl_sumAt {R : Type _} [CommRing R] (ψ : S →+* R) (k : List G) (l : List (List G × S)) (a : R) :
    l.foldl (fun a p => a + ψ p.2 * (if k = p.1 then 1 else 0)) a = a + ψ (sumAt l k) := by
  induction l generalizing a with
  | nil => simp
  | cons p l ih =>
    rw [List.foldl_cons, ih, sumAt_cons, map_add]
    split <;> simp [add_assoc]

open Classical in
/-- What normalisation stores under `k` commutes with `φ`. -/
theorem emits_sim (h : RingScalar S) (h' : RingScalar S') (φ : S →+* S') (hc : ∀ v, φ (ScalarOps.makeConst v) = ScalarOps.makeConst v)
    (m : List G) (c : S) (k : List G) : sumAt (emits m (φ c)) k = φ (sumAt (emits m c) k) := by
  have e := normalize_sim (T := S') h h' φ hc (st := fun m c a => a + φ c * (if k = m then 1 else 0))
    (st' := fun m c a => a + c * (if k = m then 1 else 0)) (fun _ _ _ => rfl) (fun m c t hc => by simp [hc]) m c 0
  rw [normalize_eq_foldl, normalize_eq_foldl] at e
  have e1 := foldl_sumAt (RingHom.id S') k (emits m (φ c)) 0
  have e2 := foldl_sumAt φ k (emits m c) 0
  simp only [RingHom.id_apply, zero_add] at e1 e2
  rw [← e1, ← e2]
  exact e

theorem emits_zero (h : RingScalar S) (m : List G) (k : List G) : sumAt (emits m (0 : S)) k = 0 := by
  classical
  have e := (both_drop h (RingHom.id S) (st := fun m c a => a + c * (if k = m then 1 else 0)) (fun m c t hc => by
    simp only [RingHom.id_apply] at hc; simp [hc]) (m.length + 1)).1 m 0 (0 : S) (by simp)
  have e : normalize (fun m c a => a + c * (if k = m then 1 else 0)) m (0 : S) (0 : S) = 0 := e
  rw [normalize_eq_foldl] at e
  have e1 := foldl_sumAt (RingHom.id S) k (emits m (0 : S)) 0
  simp only [RingHom.id_apply, zero_add] at e1
  rw [← e1]
  exact e

/-! ### Coefficients of the results of all operations -/

section coeff
variable [LawfulGen G]

/-- The coefficient in a map. -/
def tat (t : Terms G S) (k : List G) : S := (t.find? k).getD 0

open Classical in
theorem tat_upd (h : RingScalar S) {t : Terms G S} (ht : t.Sorted) (k l : List G) (n c : S) (hn : n = c) :
    tat (t.upd k n (fun v => plus v c)) l = tat t l + if l = k then c else 0 := by
  simp only [tat]
  rw [find?_upd ht]
  by_cases e : l = k
  · subst e
    simp only [if_true]
    cases t.find? l with
    | none => simp [updOpt, hn]
    | some v =>
      simp only [updOpt, plus, h.add]
      split
      · rename_i e; rw [h.isZero] at e; simp [e]
      · simp
  · simp [e]

open Classical in
theorem tat_upd_sub (h : RingScalar S) {t : Terms G S} (ht : t.Sorted) (k l : List G) (n c : S) (hn : n = - c) :
    tat (t.upd k n (fun v => minus v c)) l = tat t l - if l = k then c else 0 := by
  simp only [tat]
  rw [find?_upd ht]
  by_cases e : l = k
  · subst e
    simp only [if_true]
    cases t.find? l with
    | none => simp [updOpt, hn]
    | some v =>
      simp only [updOpt, minus, h.sub]
      split
      · rename_i e; rw [h.isZero] at e; simp [e]
      · simp
  · simp [e]

theorem tat_storeAll (h : RingScalar S) (l : List (List G × S)) {t : Terms G S} (ht : t.Sorted) (k : List G) :
    tat (storeAll l t) k = tat t k + sumAt l k := by
  classical
  induction l generalizing t with
  | nil => simp [storeAll]
  | cons p l ih =>
    have : storeAll (p :: l) t = storeAll l (t.upd p.1 p.2 (fun v => plus v p.2)) := by
      simp only [storeAll, List.foldl_cons, store_upd]
    rw [this, ih (sorted_upd ht _ _ _), tat_upd h ht _ _ _ _ rfl, sumAt_cons, add_assoc]

theorem tat_of_none {t : Terms G S} {k : List G} (hk : ∀ p ∈ t, p.1 ≠ k) : tat t k = 0 := by
  rw [tat, find?_none_of_not_mem hk]; rfl

open Classical in
theorem tat_cons {p : List G × S} {t : Terms G S} (hs : Sorted (p :: t)) (k : List G) :
    tat (p :: t) k = (if k = p.1 then p.2 else 0) + tat t k := by
  have h0 : tat t p.1 = 0 := by
    refine tat_of_none ?_
    intro q hq e
    have h1 := (List.pairwise_cons.1 hs).1 q hq
    rw [e] at h1
    exact absurd h1 (by rw [monLt_irrefl]; decide)
  simp only [tat]
  rw [find?_cons hs]
  by_cases e : k = p.1
  · subst e; simp only [if_true, Option.getD_some]; simp only [tat] at h0; rw [h0, add_zero]
  · simp [e]

open Classical in
/-- A sum over the terms is a sum over any set of monomials that contains them. -/
theorem sum_terms {M : Type _} [AddCommMonoid M] {t : Terms G S} (hs : t.Sorted) (f : List G → S → M) (hf : ∀ k, f k 0 = 0)
    (K : Finset (List G)) (hK : ∀ p ∈ t, p.1 ∈ K) : (t.map fun p => f p.1 p.2).sum = ∑ k ∈ K, f k (tat t k) := by
  induction t with
  | nil => simp [tat, find?, hf]
  | cons p t ih =>
    have h0 : tat t p.1 = 0 := by
      refine tat_of_none ?_
      intro q hq e
      have h1 := (List.pairwise_cons.1 hs).1 q hq
      rw [e] at h1
      exact absurd h1 (by rw [monLt_irrefl]; decide)
    rw [List.map_cons, List.sum_cons, ih (List.Pairwise.of_cons hs) (fun q hq => hK q (List.mem_cons_of_mem _ hq))]
    have : ∀ k ∈ K, f k (tat (p :: t) k) = (if k = p.1 then f p.1 p.2 else 0) + f k (tat t k) := by
      intro k _
      rw [tat_cons hs]
      by_cases e : k = p.1
      · subst e; simp [h0, hf]
      · simp [e]
    rw [Finset.sum_congr rfl this, Finset.sum_add_distrib, Finset.sum_ite_eq' , if_pos (hK p List.mem_cons_self)]

theorem sumAt_flatMap {α : Type _} (l : List α) (f : α → List (List G × S)) (k : List G) :
    sumAt (l.flatMap f) k = (l.map fun a => sumAt (f a) k).sum := by
  induction l with
  | nil => simp
  | cons a l ih => simp [ih]

open Classical in
/-- Coefficients of a product. -/
theorem tat_mul (h : RingScalar S) {a b : Terms G S} (ha : a.Sorted) (hb : b.Sorted) (K : Finset (List G)) (hKa : ∀ p ∈ a, p.1 ∈ K)
    (hKb : ∀ p ∈ b, p.1 ∈ K) (k : List G) :
    tat (storeAll (mulLog a b) []) k = ∑ i ∈ K, ∑ j ∈ K, sumAt (emits (i ++ j) (tat a i * tat b j)) k := by
  rw [tat_storeAll h _ List.Pairwise.nil, mulLog, sumAt_flatMap]
  have h0 : tat ([] : Terms G S) k = 0 := rfl
  rw [h0, zero_add]
  simp only [sumAt_flatMap, h.mul]
  rw [sum_terms ha (fun i x => (b.map fun q => sumAt (emits (i ++ q.1) (x * q.2)) k).sum) ?_ K hKa]
  · refine Finset.sum_congr rfl fun i _ => ?_
    exact sum_terms hb (fun j y => sumAt (emits (i ++ j) (tat a i * y)) k) (fun j => by rw [mul_zero, emits_zero h]) K hKb
  · intro i
    simp [emits_zero h]

variable (h : RingScalar S)
include h

theorem sorted_storeAll (l : List (List G × S)) {t : Terms G S} (ht : t.Sorted) : (storeAll l t).Sorted := by
  rw [storeAll_updAll]; exact sorted_updAll _ _ _ ht

open Classical in
theorem tat_const (x : S) (k : List G) :
    (Any.const x : Expr G S).terms.Sorted ∧ tat (Any.const x : Expr G S).terms k = if k = [] then x else 0 := by
  simp only [Any.const]
  split
  · rename_i e; rw [h.isZero] at e; exact ⟨List.Pairwise.nil, by simp [e, tat, find?]⟩
  · refine ⟨List.pairwise_singleton _ _, ?_⟩
    rw [tat_cons (List.pairwise_singleton _ _)]; simp [tat, find?]

theorem tat_ofMonomial (x : S) (m k : List G) :
    (Any.ofMonomial x m).terms.Sorted ∧ tat (Any.ofMonomial x m).terms k = sumAt (emits m x) k := by
  simp only [Any.ofMonomial]
  split
  · rename_i e; rw [h.isZero] at e
    exact ⟨List.Pairwise.nil, by simp [e, tat, find?, emits_zero h]⟩
  · rw [normalize_store]
    refine ⟨sorted_storeAll h _ List.Pairwise.nil, ?_⟩
    rw [tat_storeAll h _ List.Pairwise.nil]; simp [tat, find?]

theorem tat_add {a b : Expr G S} (ha : a.terms.Sorted) (hb : b.terms.Sorted) (k : List G) :
    tat (addAssign a b).terms k = tat a.terms k + tat b.terms k := by
  simp only [tat, find?_addAssign ha hb]
  cases b.terms.find? k with
  | none => simp
  | some y =>
    cases a.terms.find? k with
    | none => simp [updOpt]
    | some v =>
      simp only [updOpt, plus, h.add]
      split
      · rename_i e; rw [h.isZero] at e; simp [e]
      · simp

theorem tat_sub {a b : Expr G S} (ha : a.terms.Sorted) (hb : b.terms.Sorted) (k : List G) :
    tat (subAssign a b).terms k = tat a.terms k - tat b.terms k := by
  have h0 : (Any.zero : S) = 0 := h.zero.2
  simp only [tat, find?_subAssign ha hb]
  cases b.terms.find? k with
  | none => simp
  | some y =>
    cases a.terms.find? k with
    | none => simp [updOpt, h.sub, h0]
    | some v =>
      simp only [updOpt, minus, h.sub]
      split
      · rename_i e; rw [h.isZero] at e; simp [e]
      · simp

theorem tat_map {a : Terms G S} (f : S → S) (f0 : f 0 = 0) (k : List G) : tat (a.map fun p => (p.1, f p.2)) k = f (tat a k) := by
  simp only [tat, find?_mapV]
  cases find? k a <;> simp [f0]

theorem tat_neg (a : Expr G S) (k : List G) : tat (Any.neg a).terms k = - tat a.terms k := by
  simp only [Any.neg, h.neg]; exact tat_map h _ neg_zero k

theorem tat_smulPrefix (x : S) (a : Expr G S) (k : List G) : tat (Any.smulPrefix x a).terms k = x * tat a.terms k := by
  simp only [Any.smulPrefix, h.mul]
  split
  · rename_i e; rw [h.isZero] at e; simp [e, tat, find?]
  · exact tat_map h (fun y => x * y) (mul_zero x) k

theorem tat_smulPostfix (x : S) (a : Expr G S) (k : List G) : tat (Any.smulPostfix a x).terms k = tat a.terms k * x := by
  simp only [Any.smulPostfix, h.mul]
  split
  · rename_i e; rw [h.isZero] at e; simp [e, tat, find?]
  · exact tat_map h (fun y => y * x) (zero_mul x) k

theorem sorted_smulPrefix (x : S) {a : Expr G S} (ha : a.terms.Sorted) : (Any.smulPrefix x a).terms.Sorted := by
  simp only [Any.smulPrefix]
  split
  · exact List.Pairwise.nil
  · exact sorted_mapV (fun v => ScalarOps.mul x v) ha
theorem sorted_smulPostfix (x : S) {a : Expr G S} (ha : a.terms.Sorted) : (Any.smulPostfix a x).terms.Sorted := by
  simp only [Any.smulPostfix]
  split
  · exact List.Pairwise.nil
  · exact sorted_mapV (fun v => ScalarOps.mul v x) ha

open Classical in
theorem tat_addScalar {a : Expr G S} (ha : a.terms.Sorted) (x : S) (k : List G) :
    (Any.addScalar a x).terms.Sorted ∧ tat (Any.addScalar a x).terms k = tat a.terms k + if k = [] then x else 0 := by
  rw [addScalar_upd]
  split
  · rename_i e; rw [h.isZero] at e; exact ⟨ha, by simp [e]⟩
  · exact ⟨sorted_upd ha _ _ _, tat_upd h ha _ _ _ _ rfl⟩

open Classical in
theorem tat_addAssignScalar {a : Expr G S} (ha : a.terms.Sorted) (x : S) (k : List G) :
    (Any.addAssignScalar a x).terms.Sorted ∧ tat (Any.addAssignScalar a x).terms k = tat a.terms k + if k = [] then x else 0 := by
  have h0 : (Any.zero : S) = 0 := h.zero.2
  rw [addAssignScalar_upd]
  split
  · rename_i e; rw [h.isZero] at e; exact ⟨ha, by simp [e]⟩
  · exact ⟨sorted_upd ha _ _ _, tat_upd h ha _ _ _ _ (by rw [h.add, h0, zero_add])⟩

open Classical in
theorem tat_subScalar {a : Expr G S} (ha : a.terms.Sorted) (x : S) (k : List G) :
    (Any.subScalar a x).terms.Sorted ∧ tat (Any.subScalar a x).terms k = tat a.terms k - if k = [] then x else 0 := by
  have h0 : (Any.zero : S) = 0 := h.zero.2
  rw [subScalar_upd]
  split
  · rename_i e; rw [h.isZero] at e; exact ⟨ha, by simp [e]⟩
  · exact ⟨sorted_upd ha _ _ _, tat_upd_sub h ha _ _ _ _ (by rw [h.sub, h0, zero_sub])⟩

open Classical in
theorem tat_scalarSub {a : Expr G S} (ha : a.terms.Sorted) (x : S) (k : List G) :
    (Any.scalarSub x a).terms.Sorted ∧ tat (Any.scalarSub x a).terms k = (if k = [] then x else 0) - tat a.terms k := by
  have h0 : (Any.zero : S) = 0 := h.zero.2
  have hs := sorted_mapV (fun v : S => ScalarOps.sub Any.zero v) ha
  have ht : tat (a.terms.map fun p => (p.1, ScalarOps.sub Any.zero p.2)) k = - tat a.terms k := by
    rw [tat_map h (fun v => ScalarOps.sub Any.zero v) (by rw [h.sub, h0, sub_zero]), h.sub, h0, zero_sub]
  rw [scalarSub_upd, foldl_emplace_all (fun p => ScalarOps.sub Any.zero p.2) ha]
  split
  · rename_i e; rw [h.isZero] at e; exact ⟨hs, by simp only [e, ite_self, zero_sub]; exact ht⟩
  · refine ⟨sorted_upd hs _ _ _, ?_⟩
    show tat (Terms.upd _ _ _ _) k = _
    rw [tat_upd h hs _ _ _ _ rfl, ht]; ring

end coeff

/-! ### Programs -/

section prog
variable [LawfulGen G]

/-- Sorted, and the coefficients are images. -/
structure Rel (φ : S →+* S') (e : Expr G S) (e' : Expr G S') : Prop where
  sorted : e.terms.Sorted
  sorted' : e'.terms.Sorted
  at_ : ∀ k, tat e'.terms k = φ (tat e.terms k)

omit [LawfulGen G] in
theorem embedId {R : Type _} [ThrowOps R] (h0 : ThrowOps.representable R (.integer 0) = true) : ScalarEmbedding (id : R → R) where
  isZero x := rfl
  add x y := rfl
  sub x y := rfl
  mul x y := rfl
  neg x := rfl
  conj x := rfl
  eq x y := rfl
  makeConst v h := rfl
  zero := h0

omit [GenOps G] [LawfulGen G] in
theorem mapCoeffs_id' {R : Type _} (a : Expr G R) : a.mapCoeffs id = a := by
  cases a with
  | mk t => simp [Expr.mapCoeffs]

omit [LawfulGen G] in
theorem thr_mul (h : RingScalar S) {a b e : Expr G S} (he : Thr.mul a b = some e) : e = Any.mulAssign a b := by
  have := Thr.mul_sim (embedId h.zero.1) a b e he
  simpa only [mapCoeffs_id'] using this.symm

omit [LawfulGen G] in
theorem thr_ofMonomial (h : RingScalar S) {x : S} {m : List G} {e : Expr G S} (he : Thr.ofMonomial x m = some e) :
    e = Any.ofMonomial x m := by
  have := Thr.ofMonomial_sim (embedId h.zero.1) x m e he
  simpa only [mapCoeffs_id', id] using this.symm

variable (h : RingScalar S) (h' : RingScalar S') (φ : S →+* S') (hc : ∀ v, φ (ScalarOps.makeConst v) = ScalarOps.makeConst v)
include h h' hc

theorem rel_mul {a b : Expr G S} {a' b' : Expr G S'} (ha : Rel φ a a') (hb : Rel φ b b') :
    Rel φ (Any.mulAssign a b) (Any.mulAssign a' b') := by
  classical
  rw [mulAssign_eq, mulAssign_eq]
  refine ⟨sorted_storeAll h _ List.Pairwise.nil, sorted_storeAll h' _ List.Pairwise.nil, fun k => ?_⟩
  let K : Finset (List G) := (a.terms.map Prod.fst ++ b.terms.map Prod.fst ++ a'.terms.map Prod.fst ++ b'.terms.map Prod.fst).toFinset
  have hK : (∀ p ∈ a.terms, p.1 ∈ K) ∧ (∀ p ∈ b.terms, p.1 ∈ K) ∧ (∀ p ∈ a'.terms, p.1 ∈ K) ∧ (∀ p ∈ b'.terms, p.1 ∈ K) := by
    refine ⟨?_, ?_, ?_, ?_⟩ <;> intro p hp <;> simp only [K, List.mem_toFinset, List.mem_append] <;>
      have hm := List.mem_map_of_mem (f := Prod.fst) hp <;> tauto
  rw [tat_mul h ha.sorted hb.sorted K hK.1 hK.2.1, tat_mul h' ha.sorted' hb.sorted' K hK.2.2.1 hK.2.2.2, map_sum]
  refine Finset.sum_congr rfl fun i _ => ?_
  rw [map_sum]
  refine Finset.sum_congr rfl fun j _ => ?_
  rw [ha.at_, hb.at_, ← map_mul, emits_sim h h' φ hc]

theorem run_rel (lit : Int → S) (p : IntProg G) {e : Expr G S} {e' : Expr G S'} (he : p.run lit = some e)
    (he' : p.run (fun i => φ (lit i)) = some e') : Rel φ e e' := by
  classical
  induction p generalizing e e' with
  | const x =>
    cases he; cases he'
    refine ⟨(tat_const h _ []).1, (tat_const h' _ []).1, fun k => ?_⟩
    rw [(tat_const h _ k).2, (tat_const h' _ k).2]; split <;> simp
  | monomial x m =>
    rw [thr_ofMonomial h he, thr_ofMonomial h' he']
    refine ⟨(tat_ofMonomial h _ _ []).1, (tat_ofMonomial h' _ _ []).1, fun k => ?_⟩
    rw [(tat_ofMonomial h _ _ k).2, (tat_ofMonomial h' _ _ k).2, emits_sim h h' φ hc]
  | add p q ihp ihq =>
    obtain ⟨a, ha, he⟩ := Option.bind_eq_some_iff.1 he
    obtain ⟨b, hb, rfl⟩ := Option.map_eq_some_iff.1 he
    obtain ⟨a', ha', he'⟩ := Option.bind_eq_some_iff.1 he'
    obtain ⟨b', hb', rfl⟩ := Option.map_eq_some_iff.1 he'
    have ra := ihp ha ha'; have rb := ihq hb hb'
    exact ⟨sorted_addAssign ra.sorted, sorted_addAssign ra.sorted', fun k => by
      rw [tat_add h ra.sorted rb.sorted, tat_add h' ra.sorted' rb.sorted', ra.at_, rb.at_, map_add]⟩
  | sub p q ihp ihq =>
    obtain ⟨a, ha, he⟩ := Option.bind_eq_some_iff.1 he
    obtain ⟨b, hb, rfl⟩ := Option.map_eq_some_iff.1 he
    obtain ⟨a', ha', he'⟩ := Option.bind_eq_some_iff.1 he'
    obtain ⟨b', hb', rfl⟩ := Option.map_eq_some_iff.1 he'
    have ra := ihp ha ha'; have rb := ihq hb hb'
    exact ⟨sorted_subAssign ra.sorted, sorted_subAssign ra.sorted', fun k => by
      rw [tat_sub h ra.sorted rb.sorted, tat_sub h' ra.sorted' rb.sorted', ra.at_, rb.at_, map_sub]⟩
  | mul p q ihp ihq =>
    obtain ⟨a, ha, he⟩ := Option.bind_eq_some_iff.1 he
    obtain ⟨b, hb, he⟩ := Option.bind_eq_some_iff.1 he
    obtain ⟨a', ha', he'⟩ := Option.bind_eq_some_iff.1 he'
    obtain ⟨b', hb', he'⟩ := Option.bind_eq_some_iff.1 he'
    rw [thr_mul h he, thr_mul h' he']
    exact rel_mul h h' φ hc (ihp ha ha') (ihq hb hb')
  | neg p ih =>
    obtain ⟨a, ha, rfl⟩ := Option.map_eq_some_iff.1 he
    obtain ⟨a', ha', rfl⟩ := Option.map_eq_some_iff.1 he'
    have r := ih ha ha'
    exact ⟨sorted_mapV _ r.sorted, sorted_mapV _ r.sorted', fun k => by rw [tat_neg h, tat_neg h', r.at_, map_neg]⟩
  | smul x p ih =>
    obtain ⟨a, ha, rfl⟩ := Option.map_eq_some_iff.1 he
    obtain ⟨a', ha', rfl⟩ := Option.map_eq_some_iff.1 he'
    have r := ih ha ha'
    exact ⟨sorted_smulPrefix h _ r.sorted, sorted_smulPrefix h' _ r.sorted', fun k => by
      rw [tat_smulPrefix h, tat_smulPrefix h', r.at_, map_mul]⟩
  | muls p x ih =>
    obtain ⟨a, ha, rfl⟩ := Option.map_eq_some_iff.1 he
    obtain ⟨a', ha', rfl⟩ := Option.map_eq_some_iff.1 he'
    have r := ih ha ha'
    exact ⟨sorted_smulPostfix h _ r.sorted, sorted_smulPostfix h' _ r.sorted', fun k => by
      rw [tat_smulPostfix h, tat_smulPostfix h', r.at_, map_mul]⟩
  | addScalar p x ih =>
    obtain ⟨a, ha, rfl⟩ := Option.map_eq_some_iff.1 he
    obtain ⟨a', ha', rfl⟩ := Option.map_eq_some_iff.1 he'
    have r := ih ha ha'
    refine ⟨(tat_addScalar h r.sorted _ []).1, (tat_addScalar h' r.sorted' _ []).1, fun k => ?_⟩
    rw [(tat_addScalar h r.sorted _ k).2, (tat_addScalar h' r.sorted' _ k).2, r.at_]; split <;> simp
  | addAssignScalar p x ih =>
    obtain ⟨a, ha, rfl⟩ := Option.map_eq_some_iff.1 he
    obtain ⟨a', ha', rfl⟩ := Option.map_eq_some_iff.1 he'
    have r := ih ha ha'
    refine ⟨(tat_addAssignScalar h r.sorted _ []).1, (tat_addAssignScalar h' r.sorted' _ []).1, fun k => ?_⟩
    rw [(tat_addAssignScalar h r.sorted _ k).2, (tat_addAssignScalar h' r.sorted' _ k).2, r.at_]; split <;> simp
  | subScalar p x ih =>
    obtain ⟨a, ha, rfl⟩ := Option.map_eq_some_iff.1 he
    obtain ⟨a', ha', rfl⟩ := Option.map_eq_some_iff.1 he'
    have r := ih ha ha'
    refine ⟨(tat_subScalar h r.sorted _ []).1, (tat_subScalar h' r.sorted' _ []).1, fun k => ?_⟩
    rw [(tat_subScalar h r.sorted _ k).2, (tat_subScalar h' r.sorted' _ k).2, r.at_]; split <;> simp
  | scalarSub x p ih =>
    obtain ⟨a, ha, rfl⟩ := Option.map_eq_some_iff.1 he
    obtain ⟨a', ha', rfl⟩ := Option.map_eq_some_iff.1 he'
    have r := ih ha ha'
    refine ⟨(tat_scalarSub h r.sorted _ []).1, (tat_scalarSub h' r.sorted' _ []).1, fun k => ?_⟩
    rw [(tat_scalarSub h r.sorted _ k).2, (tat_scalarSub h' r.sorted' _ k).2, r.at_]; split <;> simp

end prog

section safe
universe u
variable {S : Type u} [CommRing S] [ThrowOps S] [LawfulGen G] {P : G → Prop} {Q : List G → Prop}

omit [LawfulGen G] [CommRing S] in
theorem good_inP {P : G → Prop} {Q : List G → Prop} (hQ : ∀ m, Q m → ∀ g ∈ m, P g) {a : Expr G S} (h : Good Q a) : a.InP P :=
  fun p hp => hQ _ (h.canon p hp)

/-- Programs without unconvertible structure constants do not throw. -/
theorem run_safe (h : RingScalar S) (hN : MonInv.{u} P Q) (hC : ConvertibleGen S P) (lit : Int → S) (p : IntProg G) (hp : p.All P) :
    ∃ e : Expr G S, p.run lit = some e ∧ Good Q e := by
  induction p with
  | const x => exact ⟨_, rfl, good_const hN.nil _⟩
  | monomial x m =>
    obtain ⟨e, he⟩ := Thr.ofMonomial_safe hC h.zero.1 (lit x) hp
    exact ⟨e, he, by rw [thr_ofMonomial h he]; exact good_ofMonomial hN _ _ hp⟩
  | add p q ihp ihq =>
    obtain ⟨a, ha, ga⟩ := ihp hp.1; obtain ⟨b, hb, gb⟩ := ihq hp.2
    exact ⟨_, by simp only [IntProg.run, ha, hb]; rfl, good_add ga gb⟩
  | sub p q ihp ihq =>
    obtain ⟨a, ha, ga⟩ := ihp hp.1; obtain ⟨b, hb, gb⟩ := ihq hp.2
    exact ⟨_, by simp only [IntProg.run, ha, hb]; rfl, good_sub ga gb⟩
  | mul p q ihp ihq =>
    obtain ⟨a, ha, ga⟩ := ihp hp.1; obtain ⟨b, hb, gb⟩ := ihq hp.2
    obtain ⟨e, he⟩ := Thr.mul_safe hC h.zero.1 (good_inP hN.mem ga) (good_inP hN.mem gb)
    exact ⟨e, by simp only [IntProg.run, ha, hb]; exact he, by rw [thr_mul h he]; exact good_mul hN ga gb⟩
  | neg p ih =>
    obtain ⟨a, ha, ga⟩ := ih hp
    exact ⟨_, by simp only [IntProg.run, ha]; rfl, ⟨(good_map ga ScalarOps.neg).1, (good_map ga ScalarOps.neg).2⟩⟩
  | smul x p ih =>
    obtain ⟨a, ha, ga⟩ := ih hp
    refine ⟨_, by simp only [IntProg.run, ha]; rfl, ?_⟩
    simp only [Any.smulPrefix]
    split
    · exact good_zero
    · exact ⟨(good_map ga (fun v => ScalarOps.mul (lit x) v)).1, (good_map ga (fun v => ScalarOps.mul (lit x) v)).2⟩
  | muls p x ih =>
    obtain ⟨a, ha, ga⟩ := ih hp
    refine ⟨_, by simp only [IntProg.run, ha]; rfl, ?_⟩
    simp only [Any.smulPostfix]
    split
    · exact good_zero
    · exact ⟨(good_map ga (fun v => ScalarOps.mul v (lit x))).1, (good_map ga (fun v => ScalarOps.mul v (lit x))).2⟩
  | addScalar p x ih =>
    obtain ⟨a, ha, ga⟩ := ih hp
    refine ⟨_, by simp only [IntProg.run, ha]; rfl, ?_⟩
    show Good Q (Any.addScalar a (lit x))
    rw [addScalar_upd]
    split
    · exact ga
    · exact good_upd ga hN.nil _ _
  | addAssignScalar p x ih =>
    obtain ⟨a, ha, ga⟩ := ih hp
    refine ⟨_, by simp only [IntProg.run, ha]; rfl, ?_⟩
    show Good Q (Any.addAssignScalar a (lit x))
    rw [addAssignScalar_upd]
    split
    · exact ga
    · exact good_upd ga hN.nil _ _
  | subScalar p x ih =>
    obtain ⟨a, ha, ga⟩ := ih hp
    refine ⟨_, by simp only [IntProg.run, ha]; rfl, ?_⟩
    show Good Q (Any.subScalar a (lit x))
    rw [subScalar_upd]
    split
    · exact ga
    · exact good_upd ga hN.nil _ _
  | scalarSub x p ih =>
    obtain ⟨a, ha, ga⟩ := ih hp
    refine ⟨_, by simp only [IntProg.run, ha]; rfl, ?_⟩
    have gs : Good Q (⟨a.terms.foldl (fun t p => t.emplace p.1 (ScalarOps.sub Any.zero p.2)) []⟩ : Expr G S) := by
      rw [foldl_emplace_all (fun p => ScalarOps.sub Any.zero p.2) ga.sorted]
      exact ⟨(good_map ga (fun v => ScalarOps.sub Any.zero v)).1, (good_map ga (fun v => ScalarOps.sub Any.zero v)).2⟩
    show Good Q (Any.scalarSub (lit x) a)
    rw [scalarSub_upd]
    split
    · exact gs
    · exact good_upd gs hN.nil _ _

end safe

end LC.Any.FixedInt
