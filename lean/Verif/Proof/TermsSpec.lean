import Verif.Props.AllSpins
/-
The terms of an expression from its value.
-/
set_option linter.unusedSectionVars false
namespace LC
open Expr Terms Reg
variable {ι S : Type _} [LinearOrder ι] [CommRing S] [DecidableEq S] [ConstScalar S] [ScalarLaws S] [IsDomain S] [CharZero S]
  {M : Nat → ι → Prop}

theorem kap_terms_zero {k : List (Gen ι)} (hk : CanonMon (Allowed M) k) (t : List (List (Gen ι) × S))
    (ht : ∀ p ∈ t, CanonMon (Allowed M) p.1) (hn : ∀ q ∈ t, q.1 ≠ k) : kap k (evalTerms (repU (S := S)) t) = 0 := by
  induction t with
  | nil => simp [evalTerms]
  | cons q t ih =>
    have hq := ht q (by simp)
    rw [Expr.evalTerms_cons, map_add, kap_smul, kap_mon hk.mem hk.chain hq.mem hq.chain, if_neg (hn q (by simp)),
      ih (fun p hp => ht p (by simp [hp])) (fun p hp => hn p (by simp [hp])), mul_zero, zero_add]

theorem kap_terms {k : List (Gen ι)} (hk : CanonMon (Allowed M) k) (t : List (List (Gen ι) × S)) (ht : ∀ p ∈ t, CanonMon (Allowed M) p.1)
    (hnd : (t.map Prod.fst).Nodup) (v : S) (hv : v ≠ 0) (hnz : ∀ p ∈ t, p.2 ≠ 0) :
    kap k (evalTerms (repU (S := S)) t) = v ↔ (k, v) ∈ t := by
  classical
  induction t with
  | nil => simp [evalTerms, Ne.symm hv]
  | cons p t ih =>
    have hp := ht p (by simp)
    rw [List.map_cons, List.nodup_cons] at hnd
    have ih := ih (fun p hp => ht p (by simp [hp])) hnd.2 (fun p hp => hnz p (by simp [hp]))
    rw [Expr.evalTerms_cons, map_add, kap_smul, kap_mon hk.mem hk.chain hp.mem hp.chain]
    by_cases h : p.1 = k
    · have h0 : kap k (evalTerms (repU (S := S)) t) = 0 :=
        kap_terms_zero hk t (fun p hp => ht p (by simp [hp])) (by rintro q hq rfl; exact hnd.1 (h ▸ List.mem_map_of_mem hq))
      rw [if_pos h, mul_one, h0, add_zero]
      constructor
      · intro e; rw [← h, ← e]; simp
      · intro hm
        rcases List.mem_cons.1 hm with rfl | hm
        · rfl
        · exact absurd (List.mem_map_of_mem (f := Prod.fst) hm) (h ▸ hnd.1)
    · rw [if_neg h, mul_zero, zero_add, ih, List.mem_cons]
      constructor
      · exact Or.inr
      · rintro (rfl | h')
        · exact absurd rfl h
        · exact h'

/-- An expression whose value is a combination of different monomials in normal order stores exactly these terms. -/
theorem terms_perm [Star S] (hM : HalfAlone M) {e : Expr (Gen ι) S} (he : Reachable (Allowed M) e) {t : List (List (Gen ι) × S)}
    (ht : ∀ p ∈ t, CanonMon (Allowed M) p.1) (hnz : ∀ p ∈ t, p.2 ≠ 0) (hnd : (t.map Prod.fst).Nodup)
    (hev : evalExpr (repU (S := S)) e = evalTerms repU t) : e.terms.Perm t := by
  have hw := he.wfA
  have hc := he.canonA hM
  have en : (e.terms.map Prod.fst).Nodup := by
    rw [List.Nodup, List.pairwise_map]
    exact hw.1.imp fun {p q} h heq => by rw [heq, monLt_irrefl] at h; exact absurd h (by simp)
  rw [List.perm_ext_iff_of_nodup en.of_map hnd.of_map]
  rintro ⟨k, v⟩
  constructor
  · intro h
    rw [← kap_terms (hc _ h) t ht hnd v (hw.2 _ h) hnz, ← hev]
    exact (kap_terms (hc _ h) e.terms hc en v (hw.2 _ h) hw.2).2 h
  · intro h
    rw [← kap_terms (ht _ h) e.terms hc en v (hnz _ h) hw.2]
    exact (congrArg (kap k) hev).trans ((kap_terms (ht _ h) t ht hnd v (hnz _ h) hnz).2 h)

/-- The value of the conjugate. -/
theorem conj_value [StarRing S] (hM : HalfAlone M) {e : Expr (Gen ι) S} (he : Reachable (Allowed M) e) {t : List (List (Gen ι) × S)}
    (hp : e.terms.Perm t) :
    evalExpr (repU (S := S)) e.conj = (t.map fun p => star p.2 • (p.1.reverse.map fun g => repU (S := S) g.dag).prod).sum := by
  apply tw_inj
  rw [tw_conjA hM he]
  have : ∀ t : List (List (Gen ι) × S), (t.map fun p => p.2 • evalMon (twRep (repU (S := S))) p.1).sum =
      tw ((t.map fun p => star p.2 • (p.1.reverse.map fun g => repU (S := S) g.dag).prod).sum) := by
    intro t
    induction t with
    | nil => rfl
    | cons p t ih => rw [List.map_cons, List.sum_cons, ih, evalMon_tw, List.map_cons, List.sum_cons, tw_add, tw_smul]
  exact ((hp.map _).sum_eq).trans (this t)
end LC
