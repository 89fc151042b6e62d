import Mathlib.Algebra.BigOperators.Group.Finset.Piecewise
import Verif.Spec.CoeffEval
import Verif.Proof.AnyCoeff
import Verif.Proof.AnyExact
import Verif.Proof.Linear
import Verif.Proof.ExprLemmas
/-
Computing with coefficients of a user-defined type and evaluating them afterwards is the same as computing with evaluated
coefficients.
-/
set_option linter.unusedSectionVars false
set_option linter.unusedSimpArgs false
set_option linter.unusedVariables false
namespace LC.Any.CoeffEval
open Terms

variable {G S K T : Type _} [GenOps G] [ScalarOps S] [CommRing K] [DecidableEq K] [ConstScalar K]
variable {φ : S → K} (h : Evaluation φ)

section sim
include h

/-- The two functions agree. -/
def SimN (φ : S → K) (N : List G → S → T → T) (N' : List G → K → T → T) : Prop := ∀ m c t, N' m (φ c) t = N m c t

def mapRes (φ : S → K) : PassRes G S T → PassRes G K T
  | .done t => .done t
  | .cont m c sw t => .cont m (φ c) sw t

theorem mul_sim (c : S) (v : VarNumber) : φ c * ConstScalar.makeConst v = φ (ScalarOps.mul c (ScalarOps.makeConst v)) := by
  rw [h.mul, h.makeConst]

theorem processF_sim {N : List G → S → T → T} {N' : List G → K → T → T} (hN : SimN φ N N') (pre post : List G) (f : LinFun G) (c : S)
    (t : T) : LC.processF N' pre post f (φ c) t = processF N pre post f c t := by
  simp only [LC.processF, processF, mul_sim h, hN _ _ _]

theorem pass_sim {N : List G → S → T → T} {N' : List G → K → T → T} (hN : SimN φ N N') (cnt : Nat) (pre : List G) (x : G)
    (rest : List G) (c : S) (sw : Bool) (t : T) : LC.pass N' cnt pre x rest (φ c) sw t = mapRes φ (pass N cnt pre x rest c sw t) := by
  induction cnt generalizing pre x rest c sw t with
  | zero => rfl
  | succ cnt ih =>
    cases rest with
    | nil => rfl
    | cons y rest =>
      simp only [LC.pass, pass, processF_sim h hN, mul_sim h]
      split
      · split
        · rfl
        · exact ih _ _ _ _ _ _
      · cases GenOps.simplifyProd x y with
        | some f => rfl
        | none => exact ih _ _ _ _ _ _

theorem sortLoop_sim {N : List G → S → T → T} {N' : List G → K → T → T} (hN : SimN φ N N') (nmax : Nat) (m : List G) (c : S) (t : T) :
    LC.sortLoop N' nmax m (φ c) t = mapRes φ (sortLoop N nmax m c t) := by
  induction nmax generalizing m c t with
  | zero =>
    cases m with
    | nil => unfold sortLoop LC.sortLoop; rfl
    | cons x rest =>
      simp only [LC.sortLoop, sortLoop, pass_sim h hN]
      generalize pass N 0 [] x rest c false t = r
      cases r with
      | done t' => rfl
      | cont m' c' sw t' => cases sw <;> rfl
  | succ nmax ih =>
    cases m with
    | nil => unfold sortLoop LC.sortLoop; rfl
    | cons x rest =>
      simp only [LC.sortLoop, sortLoop, pass_sim h hN]
      generalize pass N (nmax + 1) [] x rest c false t = r
      cases r with
      | done t' => rfl
      | cont m' c' sw t' =>
        cases sw with
        | false => rfl
        | true => exact ih _ _ _

/-- Coefficients with the value zero have no effect. -/
def DropN (N : List G → K → T → T) : Prop := ∀ m t, N m 0 t = t

theorem normStep_sim {N R : List G → S → T → T} {N' R' : List G → K → T → T} (hN : SimN φ N N') (hR : SimN φ R R') (hD : DropN R') :
    SimN φ (normStep N R) (LC.normStep N' R') := by
  intro m c t
  simp only [LC.normStep, normStep, sortLoop_sim h hN]
  split
  · generalize sortLoop N (m.length - 1) m c t = r
    cases r with
    | done t' => rfl
    | cont m' c' sw t' =>
      simp only [mapRes]
      by_cases e : ScalarOps.isZero c' = true
      · rw [if_pos e, if_pos (h.isZero _ e)]
      · rw [if_neg e, ← hR]
        split
        · rename_i e'; rw [e', hD]
        · rfl
  · exact hR _ _ _

theorem reduceLoop_sim {st N R : List G → S → T → T} {st' N' R' : List G → K → T → T} (hst : SimN φ st st') (hN : SimN φ N N')
    (hR : SimN φ R R') (hDN : DropN N') (hDR : DropN R') (pre run : List G) (x : G) (rest : List G) (f : LinFun G) (c : S) (t : T) :
    LC.reduceLoop st' N' R' pre run x rest f (φ c) t = reduceLoop st N R pre run x rest f c t := by
  have key : ∀ {N : List G → S → T → T} {N' : List G → K → T → T} (_ : SimN φ N N') (_ : DropN N') (m : List G) (v : VarNumber) (t : T),
      (if (ConstScalar.makeConst v : K) = 0 then t else N' m (φ c * ConstScalar.makeConst v) t) =
      (if ScalarOps.isZero (ScalarOps.makeConst v : S) = true then t else N m (ScalarOps.mul c (ScalarOps.makeConst v)) t) := by
    intro N N' hN hD m v t
    by_cases e : ScalarOps.isZero (ScalarOps.makeConst v : S) = true
    · rw [if_pos e, if_pos (by rw [← h.makeConst, h.isZero _ e])]
    · rw [if_neg e, ← hN, ← mul_sim h]
      split
      · rename_i e'; rw [e', mul_zero, hD]
      · rfl
  induction rest generalizing pre run x f with
  | nil => exact hst _ _ _
  | cons y rest ih =>
    simp only [LC.reduceLoop, reduceLoop, key hR hDR, key hN hDN, ih]

end sim

section drop

theorem foldl_drop {α : Type _} {f : T → α → T} (l : List α) (hf : ∀ t a, f t a = t) (t : T) : l.foldl f t = t := by
  induction l generalizing t with
  | nil => rfl
  | cons a l ih => rw [List.foldl_cons, hf, ih]

theorem processF_drop {N : List G → K → T → T} (hN : DropN N) (pre post : List G) (f : LinFun G) (t : T) :
    LC.processF N pre post f 0 t = t := by
  rw [LC.processF, foldl_drop]
  · split
    · rfl
    · rw [zero_mul]; exact hN _ _
  · intro t a; rw [zero_mul]; exact hN _ _

/-- The outcome of a pass that had no effect on the target. -/
def Idle (t : T) : PassRes G K T → Prop
  | .done t' => t' = t
  | .cont _ c _ t' => t' = t ∧ c = 0

theorem pass_drop {N : List G → K → T → T} (hN : DropN N) (cnt : Nat) (pre : List G) (x : G) (rest : List G)
    (sw : Bool) (t : T) : Idle t (LC.pass N cnt pre x rest 0 sw t) := by
  induction cnt generalizing pre x rest sw t with
  | zero => exact ⟨rfl, rfl⟩
  | succ cnt ih =>
    cases rest with
    | nil => exact ⟨rfl, rfl⟩
    | cons y rest =>
      simp only [LC.pass, processF_drop hN, zero_mul]
      split
      · split
        · exact rfl
        · exact ih _ _ _ _ _
      · split
        · exact rfl
        · exact ih _ _ _ _ _

theorem sortLoop_drop {N : List G → K → T → T} (hN : DropN N) (nmax : Nat) (m : List G) (t : T) :
    Idle t (LC.sortLoop N nmax m 0 t) := by
  induction nmax generalizing m t with
  | zero =>
    cases m with
    | nil => unfold LC.sortLoop; exact ⟨rfl, rfl⟩
    | cons x rest =>
      have hp := pass_drop hN 0 [] x rest false t
      simp only [LC.sortLoop]
      generalize LC.pass N 0 [] x rest 0 false t = r at hp ⊢
      cases r with
      | done t' => exact hp
      | cont m' c' sw t' => cases sw <;> exact hp
  | succ nmax ih =>
    cases m with
    | nil => unfold LC.sortLoop; exact ⟨rfl, rfl⟩
    | cons x rest =>
      have hp := pass_drop hN (nmax + 1) [] x rest false t
      simp only [LC.sortLoop]
      generalize LC.pass N (nmax + 1) [] x rest 0 false t = r at hp ⊢
      cases r with
      | done t' => exact hp
      | cont m' c' sw t' =>
        cases sw with
        | false => exact hp
        | true =>
          obtain ⟨rfl, rfl⟩ := hp
          exact ih _ _

theorem normStep_drop {N R : List G → K → T → T} (hN : DropN N) (hR : DropN R) : DropN (LC.normStep N R) := by
  intro m t
  simp only [LC.normStep]
  split
  · have hp := sortLoop_drop hN (m.length - 1) m t
    generalize LC.sortLoop N (m.length - 1) m 0 t = r at hp ⊢
    cases r with
    | done t' => exact hp
    | cont m' c' sw t' =>
      obtain ⟨rfl, rfl⟩ := hp
      simp
  · exact hR _ _

theorem reduceLoop_drop {st N R : List G → K → T → T} (hst : DropN st) (hN : DropN N) (hR : DropN R) (pre run : List G) (x : G)
    (rest : List G) (f : LinFun G) (t : T) : LC.reduceLoop st N R pre run x rest f 0 t = t := by
  induction rest generalizing pre run x f with
  | nil => exact hst _ _
  | cons y rest ih =>
    simp only [LC.reduceLoop]
    split
    · split
      · split
        · split
          · rfl
          · rw [foldl_drop]
            · split
              · rfl
              · rw [zero_mul]; exact hR _ _
            · intro t a
              split
              · rfl
              · rw [zero_mul]; exact hN _ _
        · exact ih _ _ _ _
      · exact ih _ _ _ _
    · exact ih _ _ _ _

theorem both_drop {st : List G → K → T → T} (hst : DropN st) (n : Nat) : DropN (LC.both st n).1 ∧ DropN (LC.both st n).2 := by
  induction n with
  | zero => exact ⟨fun _ _ => rfl, fun _ _ => rfl⟩
  | succ n ih =>
    have hR : DropN (LC.reduceStep st (LC.both st n).1 (LC.both st n).2) := by
      intro m t
      cases m with
      | nil => exact hst _ _
      | cons x rest => exact reduceLoop_drop hst ih.1 ih.2 _ _ _ _ _ _
    exact ⟨normStep_drop ih.1 hR, hR⟩

end drop

section
include h

theorem both_sim {st : List G → S → T → T} {st' : List G → K → T → T} (hst : SimN φ st st') (hD : DropN st') (n : Nat) :
    SimN φ (both st n).1 (LC.both st' n).1 ∧ SimN φ (both st n).2 (LC.both st' n).2 := by
  induction n with
  | zero => exact ⟨fun _ _ _ => rfl, fun _ _ _ => rfl⟩
  | succ n ih =>
    have hd := both_drop hD n
    have hR : SimN φ (reduceStep st (both st n).1 (both st n).2) (LC.reduceStep st' (LC.both st' n).1 (LC.both st' n).2) := by
      intro m c t
      cases m with
      | nil => exact hst _ _ _
      | cons x rest => exact reduceLoop_sim h hst ih.1 ih.2 hd.1 hd.2 _ _ _ _ _ _ _
    exact ⟨normStep_sim h ih.1 hR (both_drop hD (n + 1)).2, hR⟩

theorem normalize_sim {st : List G → S → T → T} {st' : List G → K → T → T} (hst : SimN φ st st') (hD : DropN st') (m : List G) (c : S)
    (t : T) : LC.normalize st' m (φ c) t = normalize st m c t := (both_sim h hst hD _).1 m c t

end

/-! ### Values of coefficients -/

/-- The total value of `k` in a list of pairs. -/
noncomputable def vsum (φ : S → K) (l : List (List G × S)) (k : List G) : K := sumAt (l.map fun p => (p.1, φ p.2)) k

theorem vsum_append (l l' : List (List G × S)) (k : List G) : vsum φ (l ++ l') k = vsum φ l k + vsum φ l' k := by
  simp [vsum]

open Classical in
theorem vsum_cons (p : List G × S) (l : List (List G × S)) (k : List G) :
    vsum φ (p :: l) k = (if k = p.1 then φ p.2 else 0) + vsum φ l k := by simp [vsum]

theorem vsum_flatMap {α : Type _} (l : List α) (f : α → List (List G × S)) (k : List G) :
    vsum φ (l.flatMap f) k = (l.map fun a => vsum φ (f a) k).sum := by
  induction l with
  | nil => simp [vsum]
  | cons a l ih => simp [ih, vsum_append]

/-- What normalisation stores under `k`, evaluated. -/
theorem emits_value [ScalarLaws K] (h : Evaluation φ) (m : List G) (c : S) (k : List G) :
    vsum φ (emits m c) k = φ c * Expr.nf K m k := by
  classical
  have e := normalize_sim (T := K) h (st := fun m c a => a + φ c * (if k = m then 1 else 0))
    (st' := fun m c a => a + c * (if k = m then 1 else 0)) (fun _ _ _ => rfl) (fun m t => by simp) m c 0
  rw [LC.normalize_eq_foldl, normalize_eq_foldl] at e
  have fs : ∀ (l : List (List G × K)) (a : K), l.foldl (fun a p => a + p.2 * (if k = p.1 then 1 else 0)) a = a + sumAt l k := by
    intro l
    induction l with
    | nil => simp
    | cons p l ih => intro a; rw [List.foldl_cons, ih, sumAt_cons]; split <;> simp [add_assoc]
  have fv : ∀ (l : List (List G × S)) (a : K), l.foldl (fun a p => a + φ p.2 * (if k = p.1 then 1 else 0)) a = a + vsum φ l k := by
    intro l
    induction l with
    | nil => simp [vsum]
    | cons p l ih => intro a; rw [List.foldl_cons, ih, vsum_cons]; split <;> simp [add_assoc]
  rw [fs, fv, zero_add, zero_add, LC.sumAt_emits] at e
  exact e.symm

section coeff
variable [LawfulGen G]

/-- The value of the coefficient in a map. -/
def tval (φ : S → K) (t : Terms G S) (k : List G) : K := match t.find? k with | some c => φ c | none => 0

open Classical in
theorem tval_upd (h : Evaluation φ) {t : Terms G S} (ht : t.Sorted) (k l : List G) (n c : S) (hn : φ n = φ c) :
    tval φ (t.upd k n (fun v => plus v c)) l = tval φ t l + if l = k then φ c else 0 := by
  simp only [tval]
  rw [find?_upd ht]
  by_cases e : l = k
  · subst e
    simp only [if_true]
    cases t.find? l with
    | none => simp [updOpt, hn]
    | some v =>
      simp only [updOpt, plus]
      rw [← h.add]
      split
      · rename_i e1
        split at e1
        · cases e1
        · cases e1; rfl
      · rename_i e1
        split at e1
        · rename_i e2; rw [h.isZero _ e2]
        · cases e1
  · simp [e]

open Classical in
theorem tval_upd_sub (h : Evaluation φ) {t : Terms G S} (ht : t.Sorted) (k l : List G) (n c : S) (hn : φ n = - φ c) :
    tval φ (t.upd k n (fun v => minus v c)) l = tval φ t l - if l = k then φ c else 0 := by
  simp only [tval]
  rw [find?_upd ht]
  by_cases e : l = k
  · subst e
    simp only [if_true]
    cases t.find? l with
    | none => simp [updOpt, hn]
    | some v =>
      simp only [updOpt, minus]
      rw [← h.sub]
      split
      · rename_i e1
        split at e1
        · cases e1
        · cases e1; rfl
      · rename_i e1
        split at e1
        · rename_i e2; rw [h.isZero _ e2]
        · cases e1
  · simp [e]

theorem tval_storeAll (h : Evaluation φ) (l : List (List G × S)) {t : Terms G S} (ht : t.Sorted) (k : List G) :
    tval φ (storeAll l t) k = tval φ t k + vsum φ l k := by
  classical
  induction l generalizing t with
  | nil => simp [storeAll, vsum]
  | cons p l ih =>
    have : storeAll (p :: l) t = storeAll l (t.upd p.1 p.2 (fun v => plus v p.2)) := by
      simp only [storeAll, List.foldl_cons, store_upd]
    rw [this, ih (sorted_upd ht _ _ _), tval_upd h ht _ _ _ _ rfl, vsum_cons, add_assoc]

theorem tval_of_none {t : Terms G S} {k : List G} (hk : ∀ p ∈ t, p.1 ≠ k) : tval φ t k = 0 := by
  rw [tval, find?_none_of_not_mem hk]

open Classical in
theorem tval_cons {p : List G × S} {t : Terms G S} (hs : Sorted (p :: t)) (k : List G) :
    tval φ (p :: t) k = (if k = p.1 then φ p.2 else 0) + tval φ t k := by
  have h0 : tval φ t p.1 = 0 := by
    refine tval_of_none ?_
    intro q hq e
    have h1 := (List.pairwise_cons.1 hs).1 q hq
    rw [e] at h1
    exact absurd h1 (by rw [monLt_irrefl]; decide)
  simp only [tval]
  rw [find?_cons hs]
  by_cases e : k = p.1
  · subst e; simp only [if_true]; simp only [tval] at h0; rw [h0, add_zero]
  · simp [e]

open Classical in
/-- A sum over the terms is a sum over any set of monomials that contains them. -/
theorem sum_terms {M : Type _} [AddCommMonoid M] {t : Terms G S} (hs : t.Sorted) (f : List G → K → M) (hf : ∀ k, f k 0 = 0)
    (D : Finset (List G)) (hD : ∀ p ∈ t, p.1 ∈ D) : (t.map fun p => f p.1 (φ p.2)).sum = ∑ k ∈ D, f k (tval φ t k) := by
  induction t with
  | nil => simp [tval, find?, hf]
  | cons p t ih =>
    have h0 : tval φ t p.1 = 0 := by
      refine tval_of_none ?_
      intro q hq e
      have h1 := (List.pairwise_cons.1 hs).1 q hq
      rw [e] at h1
      exact absurd h1 (by rw [monLt_irrefl]; decide)
    rw [List.map_cons, List.sum_cons, ih (List.Pairwise.of_cons hs) (fun q hq => hD q (List.mem_cons_of_mem _ hq))]
    have : ∀ k ∈ D, f k (tval φ (p :: t) k) = (if k = p.1 then f p.1 (φ p.2) else 0) + f k (tval φ t k) := by
      intro k _
      rw [tval_cons hs]
      by_cases e : k = p.1
      · subst e; simp [h0, hf]
      · simp [e]
    rw [Finset.sum_congr rfl this, Finset.sum_add_distrib, Finset.sum_ite_eq' , if_pos (hD p List.mem_cons_self)]

/-- Sums over the terms depend on the values of the coefficients only. -/
theorem sum_congr {S' M : Type _} [ScalarOps S'] {φ' : S' → K} [AddCommMonoid M] {t : Terms G S} {u : Terms G S'} (ht : t.Sorted)
    (hu : u.Sorted) (e : ∀ k, tval φ' u k = tval φ t k) (f : List G → K → M) (hf : ∀ k, f k 0 = 0) :
    (u.map fun p => f p.1 (φ' p.2)).sum = (t.map fun p => f p.1 (φ p.2)).sum := by
  classical
  let D : Finset (List G) := (t.map Prod.fst ++ u.map Prod.fst).toFinset
  rw [sum_terms ht f hf D, sum_terms hu f hf D]
  · exact Finset.sum_congr rfl fun k _ => by rw [e]
  · intro p hp
    simp only [D, List.mem_toFinset, List.mem_append]
    exact Or.inr (List.mem_map_of_mem hp)
  · intro p hp
    simp only [D, List.mem_toFinset, List.mem_append]
    exact Or.inl (List.mem_map_of_mem hp)

/-- Values of the coefficients of a product. -/
theorem tval_mul [ScalarLaws K] (h : Evaluation φ) (a b : Expr G S) (k : List G) :
    tval φ (mulAssign a b).terms k
      = (a.terms.map fun p => (b.terms.map fun q => φ p.2 * φ q.2 * Expr.nf K (p.1 ++ q.1) k).sum).sum := by
  rw [mulAssign_eq, tval_storeAll h _ List.Pairwise.nil]
  have h0 : tval φ ([] : Terms G S) k = 0 := rfl
  rw [h0, zero_add, mulLog, vsum_flatMap]
  simp only [vsum_flatMap, emits_value h, h.mul]

variable (h : Evaluation φ)
include h

theorem value_zero : φ (Any.zero : S) = 0 := by rw [Any.zero, h.makeConst, ConstScalar.mk_integer]; simp

theorem sorted_storeAll (l : List (List G × S)) {t : Terms G S} (ht : t.Sorted) : (storeAll l t).Sorted := by
  rw [storeAll_updAll]; exact sorted_updAll _ _ _ ht

theorem sorted_mul (a b : Expr G S) : (mulAssign a b).terms.Sorted := by
  rw [mulAssign_eq]; exact sorted_storeAll h _ List.Pairwise.nil

open Classical in
theorem tval_const (x : S) (k : List G) :
    (Any.const x : Expr G S).terms.Sorted ∧ tval φ (Any.const x : Expr G S).terms k = if k = [] then φ x else 0 := by
  simp only [Any.const]
  split
  · rename_i e; exact ⟨List.Pairwise.nil, by simp [h.isZero _ e, tval, find?]⟩
  · refine ⟨List.pairwise_singleton _ _, ?_⟩
    rw [tval_cons (List.pairwise_singleton _ _)]; simp [tval, find?]

theorem tval_ofMonomial [ScalarLaws K] (x : S) (m k : List G) :
    (Any.ofMonomial x m).terms.Sorted ∧ tval φ (Any.ofMonomial x m).terms k = φ x * Expr.nf K m k := by
  simp only [Any.ofMonomial]
  split
  · rename_i e
    exact ⟨List.Pairwise.nil, by simp [h.isZero _ e, tval, find?]⟩
  · rw [normalize_store]
    refine ⟨sorted_storeAll h _ List.Pairwise.nil, ?_⟩
    rw [tval_storeAll h _ List.Pairwise.nil, emits_value h]; simp [tval, find?]

theorem tval_add {a b : Expr G S} (ha : a.terms.Sorted) (hb : b.terms.Sorted) (k : List G) :
    tval φ (addAssign a b).terms k = tval φ a.terms k + tval φ b.terms k := by
  simp only [tval, find?_addAssign ha hb]
  cases b.terms.find? k with
  | none => simp
  | some y =>
    cases a.terms.find? k with
    | none => simp [updOpt]
    | some v =>
      simp only [updOpt, plus]
      rw [← h.add]
      by_cases e : ScalarOps.isZero (ScalarOps.add v y) = true
      · simp only [e, if_true]; rw [h.isZero _ e]
      · simp only [e]; rfl

theorem tval_sub {a b : Expr G S} (ha : a.terms.Sorted) (hb : b.terms.Sorted) (k : List G) :
    tval φ (subAssign a b).terms k = tval φ a.terms k - tval φ b.terms k := by
  have h0 := value_zero h
  simp only [tval, find?_subAssign ha hb]
  cases b.terms.find? k with
  | none => simp
  | some y =>
    cases a.terms.find? k with
    | none => simp [updOpt, h.sub, h0]
    | some v =>
      simp only [updOpt, minus]
      rw [← h.sub]
      by_cases e : ScalarOps.isZero (ScalarOps.sub v y) = true
      · simp only [e, if_true]; rw [h.isZero _ e]
      · simp only [e]; rfl

omit h in
theorem tval_map {a : Terms G S} (f : S → S) (g : K → K) (hg : ∀ x, φ (f x) = g (φ x)) (g0 : g 0 = 0) (k : List G) :
    tval φ (a.map fun p => (p.1, f p.2)) k = g (tval φ a k) := by
  simp only [tval, find?_mapV]
  cases find? k a <;> simp [g0, hg]

theorem tval_neg (a : Expr G S) (k : List G) : tval φ (Any.neg a).terms k = - tval φ a.terms k :=
  tval_map _ _ h.neg neg_zero k

theorem tval_smulPrefix (x : S) (a : Expr G S) (k : List G) : tval φ (Any.smulPrefix x a).terms k = φ x * tval φ a.terms k := by
  simp only [Any.smulPrefix]
  split
  · rename_i e; simp [h.isZero _ e, tval, find?]
  · exact tval_map (fun y => ScalarOps.mul x y) (fun y => φ x * y) (fun y => h.mul x y) (mul_zero _) k

theorem tval_smulPostfix (x : S) (a : Expr G S) (k : List G) : tval φ (Any.smulPostfix a x).terms k = tval φ a.terms k * φ x := by
  simp only [Any.smulPostfix]
  split
  · rename_i e; simp [h.isZero _ e, tval, find?]
  · exact tval_map (fun y => ScalarOps.mul y x) (fun y => y * φ x) (fun y => h.mul y x) (zero_mul _) k

theorem sorted_smulPrefix (x : S) {a : Expr G S} (ha : a.terms.Sorted) : (Any.smulPrefix x a).terms.Sorted := by
  simp only [Any.smulPrefix]
  split
  · exact List.Pairwise.nil
  · exact sorted_mapV (fun v => ScalarOps.mul x v) ha
theorem sorted_smulPostfix (x : S) {a : Expr G S} (ha : a.terms.Sorted) : (Any.smulPostfix a x).terms.Sorted := by
  simp only [Any.smulPostfix]
  split
  · exact List.Pairwise.nil
  · exact sorted_mapV (fun v => ScalarOps.mul v x) ha

open Classical in
theorem tval_addScalar {a : Expr G S} (ha : a.terms.Sorted) (x : S) (k : List G) :
    (Any.addScalar a x).terms.Sorted ∧ tval φ (Any.addScalar a x).terms k = tval φ a.terms k + if k = [] then φ x else 0 := by
  rw [addScalar_upd]
  split
  · rename_i e; exact ⟨ha, by simp [h.isZero _ e]⟩
  · exact ⟨sorted_upd ha _ _ _, tval_upd h ha _ _ _ _ rfl⟩

open Classical in
theorem tval_addAssignScalar {a : Expr G S} (ha : a.terms.Sorted) (x : S) (k : List G) :
    (Any.addAssignScalar a x).terms.Sorted ∧
      tval φ (Any.addAssignScalar a x).terms k = tval φ a.terms k + if k = [] then φ x else 0 := by
  rw [addAssignScalar_upd]
  split
  · rename_i e; exact ⟨ha, by simp [h.isZero _ e]⟩
  · exact ⟨sorted_upd ha _ _ _, tval_upd h ha _ _ _ _ (by rw [h.add, value_zero h, zero_add])⟩

open Classical in
theorem tval_subScalar {a : Expr G S} (ha : a.terms.Sorted) (x : S) (k : List G) :
    (Any.subScalar a x).terms.Sorted ∧ tval φ (Any.subScalar a x).terms k = tval φ a.terms k - if k = [] then φ x else 0 := by
  rw [subScalar_upd]
  split
  · rename_i e; exact ⟨ha, by simp [h.isZero _ e]⟩
  · exact ⟨sorted_upd ha _ _ _, tval_upd_sub h ha _ _ _ _ (by rw [h.sub, value_zero h, zero_sub])⟩

open Classical in
theorem tval_scalarSub {a : Expr G S} (ha : a.terms.Sorted) (x : S) (k : List G) :
    (Any.scalarSub x a).terms.Sorted ∧ tval φ (Any.scalarSub x a).terms k = (if k = [] then φ x else 0) - tval φ a.terms k := by
  have hs := sorted_mapV (fun v : S => ScalarOps.sub Any.zero v) ha
  have ht : tval φ (a.terms.map fun p => (p.1, ScalarOps.sub Any.zero p.2)) k = - tval φ a.terms k :=
    tval_map (fun v => ScalarOps.sub Any.zero v) (fun y => - y) (fun y => by rw [h.sub, value_zero h, zero_sub]) neg_zero k
  rw [scalarSub_upd, foldl_emplace_all (fun p => ScalarOps.sub Any.zero p.2) ha]
  split
  · rename_i e; exact ⟨hs, by simp only [h.isZero _ e, ite_self, zero_sub]; exact ht⟩
  · refine ⟨sorted_upd hs _ _ _, ?_⟩
    show tval φ (Terms.upd _ _ _ _) k = _
    rw [tval_upd h hs _ _ _ _ rfl, ht]; ring

end coeff

/-! ### Programs -/

/-- The operations of a commutative ring, as a scalar type. -/
@[reducible] def ringOps (K : Type _) [CommRing K] [DecidableEq K] [ConstScalar K] : ScalarOps K where
  isZero x := decide (x = 0)
  makeConst v := ConstScalar.makeConst v
  conj x := x
  add x y := x + y
  sub x y := x - y
  mul x y := x * y
  neg x := - x
  eq x y := decide (x = y)

theorem exact_ringOps : @ExactScalar K _ _ ⟨id⟩ (ringOps K) :=
  let _ := ringOps K
  let _ : Star K := ⟨id⟩
  { add := fun _ _ => rfl, sub := fun _ _ => rfl, mul := fun _ _ => rfl, neg := fun _ => rfl, makeConst := fun _ => rfl,
    isZero := fun x => by simp [ScalarOps.isZero], conj := fun _ => rfl, eq := fun x y => by simp [ScalarOps.eq] }

theorem eval_id : @Evaluation K K (ringOps K) _ _ id :=
  let _ := ringOps K
  { add := fun _ _ => rfl, sub := fun _ _ => rfl, mul := fun _ _ => rfl, neg := fun _ => rfl, makeConst := fun _ => rfl,
    isZero := fun x hx => by simpa [ScalarOps.isZero] using hx }

theorem run_exact (p : ScalarProg G K) : @ScalarProg.run G K _ (ringOps K) p = p.exact := by
  let _ := ringOps K
  let _ : Star K := ⟨id⟩
  have hx : ExactScalar K := exact_ringOps
  induction p with
  | zero => rfl
  | const x => exact const_exact hx x
  | monomial x m => exact ofMonomial_exact hx x m
  | add p q ihp ihq => simp only [ScalarProg.run, ScalarProg.exact, ihp, ihq]; exact addAssign_exact hx _ _
  | sub p q ihp ihq => simp only [ScalarProg.run, ScalarProg.exact, ihp, ihq]; exact subAssign_exact hx _ _
  | mul p q ihp ihq => simp only [ScalarProg.run, ScalarProg.exact, ihp, ihq]; exact mulAssign_exact hx _ _
  | neg p ih => simp only [ScalarProg.run, ScalarProg.exact, ih]; exact neg_exact hx _
  | smul x p ih => simp only [ScalarProg.run, ScalarProg.exact, ih]; exact smulPrefix_exact hx _ _
  | muls p x ih => simp only [ScalarProg.run, ScalarProg.exact, ih]; exact smulPostfix_exact hx _ _
  | addScalar p x ih => simp only [ScalarProg.run, ScalarProg.exact, ih]; exact addScalar_exact hx _ _
  | addAssignScalar p x ih => simp only [ScalarProg.run, ScalarProg.exact, ih]; exact addAssignScalar_exact hx _ _
  | subScalar p x ih => simp only [ScalarProg.run, ScalarProg.exact, ih]; exact subScalar_exact hx _ _
  | scalarSub x p ih => simp only [ScalarProg.run, ScalarProg.exact, ih]; exact scalarSub_exact hx _ _

/-- Sorted, and the coefficients have the same values. -/
structure Rel {S' : Type _} (φ : S → K) (φ' : S' → K) (e : Expr G S) (e' : Expr G S') : Prop where
  sorted : e.terms.Sorted
  sorted' : e'.terms.Sorted
  at_ : ∀ k, tval φ' e'.terms k = tval φ e.terms k

variable [LawfulGen G]

theorem rel_mul {S' : Type _} [ScalarOps S'] [ScalarLaws K] {φ' : S' → K} (h : Evaluation φ) (h' : Evaluation φ') {a b : Expr G S}
    {a' b' : Expr G S'} (ha : Rel φ φ' a a') (hb : Rel φ φ' b b') : Rel φ φ' (Any.mulAssign a b) (Any.mulAssign a' b') := by
  refine ⟨sorted_mul h _ _, sorted_mul h' _ _, fun k => ?_⟩
  rw [tval_mul h, tval_mul h']
  have e1 : ∀ p : List G × S', (b'.terms.map fun q => φ' p.2 * φ' q.2 * Expr.nf K (p.1 ++ q.1) k).sum
      = (b.terms.map fun q => φ' p.2 * φ q.2 * Expr.nf K (p.1 ++ q.1) k).sum := fun p =>
    sum_congr hb.sorted hb.sorted' hb.at_ (fun m x => φ' p.2 * x * Expr.nf K (p.1 ++ m) k) (fun m => by simp)
  simp only [e1]
  exact sum_congr ha.sorted ha.sorted' ha.at_
    (fun m x => (b.terms.map fun q => x * φ q.2 * Expr.nf K (m ++ q.1) k).sum) (fun m => by simp)

theorem run_rel {S' : Type _} [ScalarOps S'] [ScalarLaws K] (φ' : S' → K) (ψ : S → S') (h : Evaluation φ) (h' : Evaluation φ')
    (hψ : ∀ x, φ' (ψ x) = φ x) (p : ScalarProg G S) : Rel φ φ' p.run (p.eval ψ).run := by
  classical
  induction p with
  | zero => exact ⟨List.Pairwise.nil, List.Pairwise.nil, fun k => rfl⟩
  | const x =>
    refine ⟨(tval_const h _ []).1, (tval_const h' _ []).1, fun k => ?_⟩
    simp only [ScalarProg.run, ScalarProg.eval]
    rw [(tval_const h _ k).2, (tval_const h' _ k).2, hψ]
  | monomial x m =>
    refine ⟨(tval_ofMonomial h _ _ []).1, (tval_ofMonomial h' _ _ []).1, fun k => ?_⟩
    simp only [ScalarProg.run, ScalarProg.eval]
    rw [(tval_ofMonomial h _ _ k).2, (tval_ofMonomial h' _ _ k).2, hψ]
  | add p q ra rb =>
    exact ⟨sorted_addAssign ra.sorted, sorted_addAssign ra.sorted', fun k => by
      simp only [ScalarProg.run, ScalarProg.eval]
      rw [tval_add h ra.sorted rb.sorted, tval_add h' ra.sorted' rb.sorted', ra.at_, rb.at_]⟩
  | sub p q ra rb =>
    exact ⟨sorted_subAssign ra.sorted, sorted_subAssign ra.sorted', fun k => by
      simp only [ScalarProg.run, ScalarProg.eval]
      rw [tval_sub h ra.sorted rb.sorted, tval_sub h' ra.sorted' rb.sorted', ra.at_, rb.at_]⟩
  | mul p q ra rb => exact rel_mul h h' ra rb
  | neg p r =>
    exact ⟨sorted_mapV _ r.sorted, sorted_mapV _ r.sorted', fun k => by
      simp only [ScalarProg.run, ScalarProg.eval]
      rw [tval_neg h, tval_neg h', r.at_]⟩
  | smul x p r =>
    exact ⟨sorted_smulPrefix h _ r.sorted, sorted_smulPrefix h' _ r.sorted', fun k => by
      simp only [ScalarProg.run, ScalarProg.eval]
      rw [tval_smulPrefix h, tval_smulPrefix h', r.at_, hψ]⟩
  | muls p x r =>
    exact ⟨sorted_smulPostfix h _ r.sorted, sorted_smulPostfix h' _ r.sorted', fun k => by
      simp only [ScalarProg.run, ScalarProg.eval]
      rw [tval_smulPostfix h, tval_smulPostfix h', r.at_, hψ]⟩
  | addScalar p x r =>
    refine ⟨(tval_addScalar h r.sorted _ []).1, (tval_addScalar h' r.sorted' _ []).1, fun k => ?_⟩
    simp only [ScalarProg.run, ScalarProg.eval]
    rw [(tval_addScalar h r.sorted _ k).2, (tval_addScalar h' r.sorted' _ k).2, r.at_, hψ]
  | addAssignScalar p x r =>
    refine ⟨(tval_addAssignScalar h r.sorted _ []).1, (tval_addAssignScalar h' r.sorted' _ []).1, fun k => ?_⟩
    simp only [ScalarProg.run, ScalarProg.eval]
    rw [(tval_addAssignScalar h r.sorted _ k).2, (tval_addAssignScalar h' r.sorted' _ k).2, r.at_, hψ]
  | subScalar p x r =>
    refine ⟨(tval_subScalar h r.sorted _ []).1, (tval_subScalar h' r.sorted' _ []).1, fun k => ?_⟩
    simp only [ScalarProg.run, ScalarProg.eval]
    rw [(tval_subScalar h r.sorted _ k).2, (tval_subScalar h' r.sorted' _ k).2, r.at_, hψ]
  | scalarSub x p r =>
    refine ⟨(tval_scalarSub h r.sorted _ []).1, (tval_scalarSub h' r.sorted' _ []).1, fun k => ?_⟩
    simp only [ScalarProg.run, ScalarProg.eval]
    rw [(tval_scalarSub h r.sorted _ k).2, (tval_scalarSub h' r.sorted' _ k).2, r.at_, hψ]

/-- A program run with coefficients of a user-defined type, compared with the program with evaluated literals. -/
theorem exact_rel [ScalarLaws K] (h : Evaluation φ) (p : ScalarProg G S) : Rel φ id p.run (p.eval φ).exact := by
  let _ := ringOps K
  rw [← run_exact]
  exact run_rel (S' := K) id φ h eval_id (fun _ => rfl) p

end LC.Any.CoeffEval
