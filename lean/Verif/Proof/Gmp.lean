import Verif.Spec.Gmp
import Verif.Props.IntScalar
import Mathlib.Data.Rat.Lemmas
/-
GMP's rational arithmetic on canonical arguments; transport of expressions.
-/
set_option linter.unusedSectionVars false
set_option linter.unusedSimpArgs false
namespace LC
namespace Mpq

theorem ofRat_mul (p q : ℚ) : ofRat (p * q) = mul (ofRat p) (ofRat q) := by
  unfold mul
  have zp : (ofRat p).num = 0 ↔ p = 0 := Rat.num_eq_zero
  have zq : (ofRat q).num = 0 ↔ q = 0 := Rat.num_eq_zero
  split_ifs with h
  · rw [zp, zq] at h
    rcases h with h | h <;> subst h <;> simp [ofRat]
  · have e : p * q = Rat.mul p q := rfl
    rw [e]
    unfold Rat.mul
    simp only [ofRat, Int.divExact_eq_tdiv, Nat.divExact_eq_div, Mpq.mk.injEq, Int.gcd, Int.natAbs_natCast]
    constructor
    · rw [Int.tdiv_eq_ediv_of_dvd (Int.natCast_dvd.2 (Nat.gcd_dvd_left _ _)), Int.tdiv_eq_ediv_of_dvd (Int.natCast_dvd.2 (Nat.gcd_dvd_left _ _))]
    · push_cast; ring

theorem ofRat_add (p q : ℚ) : ofRat (p + q) = aors (· + ·) (ofRat p) (ofRat q) := by
  have e : p + q = Rat.add p q := rfl
  rw [e]
  unfold Rat.add aors
  simp only [ofRat, Int.gcd, Int.natAbs_natCast]
  norm_cast
  split_ifs with h h2
  · simp
  · simp only [Rat.maybeNormalize_eq, Int.divExact_eq_ediv, Mpq.mk.injEq, h2, Nat.cast_one, Int.ediv_one, Nat.div_one, true_and]
    push_cast; ring
  · simp only [Rat.maybeNormalize_eq, Int.divExact_eq_ediv, Mpq.mk.injEq, true_and]
    rw [Nat.mul_div_assoc _ ((Nat.gcd_dvd_right _ _).trans (Nat.gcd_dvd_right _ _))]
    push_cast; ring

theorem ofRat_sub (p q : ℚ) : ofRat (p - q) = aors (· - ·) (ofRat p) (ofRat q) := by
  have e : p - q = Rat.sub p q := rfl
  rw [e]
  unfold Rat.sub aors
  simp only [ofRat, Int.gcd, Int.natAbs_natCast]
  norm_cast
  split_ifs with h h2
  · simp
  · simp only [Rat.maybeNormalize_eq, Int.divExact_eq_ediv, Mpq.mk.injEq, h2, Nat.cast_one, Int.ediv_one, Nat.div_one, true_and]
    push_cast; ring
  · simp only [Rat.maybeNormalize_eq, Int.divExact_eq_ediv, Mpq.mk.injEq, true_and]
    rw [Nat.mul_div_assoc _ ((Nat.gcd_dvd_right _ _).trans (Nat.gcd_dvd_right _ _))]
    push_cast; ring

end Mpq

/-- Rational numbers, where only integers and fractions in lowest terms can be converted. -/
structure LowQ where
  val : ℚ

/-- Exact arithmetic. -/
instance : ThrowOps LowQ where
  isZero x := ScalarOps.isZero x.val
  makeConst v := ⟨ScalarOps.makeConst v⟩
  conj x := x
  add x y := ⟨x.val + y.val⟩
  sub x y := ⟨x.val - y.val⟩
  mul x y := ⟨x.val * y.val⟩
  neg x := ⟨-x.val⟩
  eq x y := ScalarOps.eq x.val y.val
  representable v := decide v.Lowest

theorem low_iff (v : VarNumber) : ThrowOps.representable LowQ v = true ↔ v.Lowest := decide_eq_true_iff

theorem embedLowQ : ScalarEmbedding (S := LowQ) (S' := ℚ) LowQ.val where
  isZero _ := rfl
  add _ _ := rfl
  sub _ _ := rfl
  mul _ _ := rfl
  neg _ := rfl
  conj _ := rfl
  eq _ _ := rfl
  makeConst _ _ := rfl
  zero := by rw [low_iff]; trivial

theorem embedMpq : ScalarEmbedding (S := LowQ) (S' := Mpq) (fun x => Mpq.ofRat x.val) where
  isZero x := by
    have : ∀ q : ℚ, decide (q.num = 0) = decide (q = 0) := fun q => by rw [decide_eq_decide]; exact Rat.num_eq_zero
    exact this x.val
  add x y := Mpq.ofRat_add x.val y.val
  sub x y := Mpq.ofRat_sub x.val y.val
  mul x y := Mpq.ofRat_mul x.val y.val
  neg x := rfl
  conj x := rfl
  eq x y := by
    have : ∀ p q : ℚ, (decide (p.num = q.num) && decide ((p.den : Int) = (q.den : Int))) = decide (p = q) := fun p q => by
      rw [← Bool.decide_and, decide_eq_decide]
      constructor
      · rintro ⟨h1, h2⟩; exact Rat.ext h1 (by exact_mod_cast h2)
      · rintro h; cases h; exact ⟨rfl, rfl⟩
    exact this x.val y.val
  makeConst v h := by
    rw [low_iff] at h
    cases v with
    | integer i => rfl
    | rational a b =>
      obtain ⟨hb, hc⟩ := h
      show Mpq.ofRat ((a : ℚ) / b) = ⟨a, b⟩
      rw [Mpq.ofRat, Rat.num_div_eq_of_coprime hb hc, Rat.den_div_eq_of_coprime hb hc]
    | real x => cases h
  zero := by rw [low_iff]; trivial

theorem embedMpqId : ScalarEmbedding (id : Mpq → Mpq) where
  isZero _ := rfl
  add _ _ := rfl
  sub _ _ := rfl
  mul _ _ := rfl
  neg _ := rfl
  conj _ := rfl
  eq _ _ := rfl
  makeConst _ _ := rfl
  zero := rfl

section convert
variable {G : Type _} [GenOps G]

theorem LowestGen.low (h : LowestGen G) : ConvertibleGen LowQ (fun _ : G => True) where
  swap_const g k _ _ hgt := (low_iff _).2 (h.swap g k hgt).1
  swap g k _ _ hgt := ⟨⟨(low_iff _).2 (h.swap g k hgt).2.1, fun p hp => (low_iff _).2 ((h.swap g k hgt).2.2 p hp)⟩, fun _ _ => trivial⟩
  simp g k f _ _ hs := ⟨⟨(low_iff _).2 (h.simp g k f hs).1, fun p hp => (low_iff _).2 ((h.simp g k f hs).2 p hp)⟩, fun _ _ => trivial⟩
  red g p f _ hf _ := by
    refine ⟨?_, fun _ _ => trivial⟩
    rcases h.red g p f with e | e
    · rw [e]; exact hf
    · exact ⟨(low_iff _).2 e.1, fun q hq => (low_iff _).2 (e.2 q hq)⟩
  conj g _ := ⟨⟨(low_iff _).2 (h.conj g).1, fun p hp => (low_iff _).2 ((h.conj g).2 p hp)⟩, fun _ _ => trivial⟩

theorem VarNumber.Lowest.repr {v : VarNumber} (h : v.Lowest) : ThrowOps.representable Mpq v = true := by
  cases v with
  | real x => cases h
  | _ => rfl

theorem LinFun.Lowest.repr {f : LinFun G} (h : f.Lowest) : f.Representable Mpq := ⟨h.1.repr, fun p hp => (h.2 p hp).repr⟩

theorem LowestGen.mpq (h : LowestGen G) : ConvertibleGen Mpq (fun _ : G => True) where
  swap_const g k _ _ hgt := (h.swap g k hgt).1.repr
  swap g k _ _ hgt := ⟨(h.swap g k hgt).2.repr, fun _ _ => trivial⟩
  simp g k f _ _ hs := ⟨(h.simp g k f hs).repr, fun _ _ => trivial⟩
  red g p f _ hf _ := by
    refine ⟨?_, fun _ _ => trivial⟩
    rcases h.red g p f with e | e
    · rw [e]; exact hf
    · exact e.repr
  conj g _ := ⟨(h.conj g).repr, fun _ _ => trivial⟩

end convert

namespace Thr
section
variable {G S : Type _} [GenOps G] [ThrowOps S] (hC : ConvertibleGen S fun _ : G => True)
  (h0 : ThrowOps.representable S (.integer 0) = true)
include hC h0

theorem mul_safe' (a b : Expr G S) : ∃ e, mul a b = some e := mul_safe hC h0 (fun _ _ _ _ => trivial) fun _ _ _ _ => trivial

theorem ofLinFun_safe' {f : LinFun G} (hR : f.Representable S) : ∃ e, (ofLinFun f : Option (Expr G S)) = some e := by
  have h1 : ∃ e, (if f.const.isZero then some (⟨[]⟩ : Expr G S) else (makeConst f.const).map fun v => ⟨[([], v)]⟩) = some e := by
    split
    · exact ⟨_, rfl⟩
    · rw [makeConst_ok hR.1]; exact ⟨_, rfl⟩
  obtain ⟨e, he⟩ := h1
  rw [ofLinFun, he]
  obtain ⟨t, h, -⟩ := foldlM_safe (fun _ => True) f.terms (f := fun (e : Expr G S) (gv : G × VarNumber) =>
      (makeConst gv.2).bind fun v =>
      if ScalarOps.isZero v then some e else (ofMonomial v [gv.1]).map fun e' => Any.addAssign e e') (fun t _ p hp => by
    rw [makeConst_ok (hR.2 p hp)]
    simp only [Option.bind_some]
    split
    · exact ⟨_, rfl, trivial⟩
    · obtain ⟨u, hu⟩ := ofMonomial_safe hC h0 (ScalarOps.makeConst p.2 : S) (m := [p.1]) (fun _ _ => trivial)
      exact ⟨_, by rw [hu]; rfl, trivial⟩) e trivial
  exact ⟨t, h⟩

theorem conj_safe' (a : Expr G S) : ∃ e, conj a = some e := by
  obtain ⟨s, h, -⟩ := foldlM_safe (fun _ => True) a.terms (f := fun (s : Expr G S × Expr G S) (m : List G × S) =>
      (if ScalarOps.isZero (ScalarOps.conj m.2) then some s.2
        else m.1.reverse.foldlM (fun e g => (ofLinFun (GenOps.conj g)).bind fun c => mul e c)
          (Any.const (ScalarOps.conj m.2))).map fun contrib => (Any.addAssign s.1 contrib, contrib)) (fun s _ p hp => by
    have : ∃ c, (if ScalarOps.isZero (ScalarOps.conj p.2) then some s.2
        else p.1.reverse.foldlM (fun e g => (ofLinFun (GenOps.conj g)).bind fun c => mul e c)
          (Any.const (ScalarOps.conj p.2))) = some c := by
      split
      · exact ⟨_, rfl⟩
      · obtain ⟨c, hc, -⟩ := foldlM_safe (fun _ : Expr G S => True) p.1.reverse
          (f := fun e g => (ofLinFun (GenOps.conj g)).bind fun c => mul e c) (fun e _ g hg => by
          obtain ⟨c, hc⟩ := ofLinFun_safe' hC h0 (hC.conj g trivial).1
          obtain ⟨d, hd⟩ := mul_safe' hC h0 e c
          exact ⟨d, by rw [hc]; exact hd, trivial⟩) (Any.const (ScalarOps.conj p.2)) trivial
        exact ⟨c, hc⟩
    obtain ⟨c, hc⟩ := this
    exact ⟨_, by rw [hc]; rfl, trivial⟩) (⟨[]⟩, ⟨[]⟩) trivial
  exact ⟨s.1, by rw [conj, h]; rfl⟩
end
end Thr

theorem mapCoeffs_id'' {G S : Type _} (a : Expr G S) : a.mapCoeffs id = a := by
  cases a with
  | mk t => simp [Expr.mapCoeffs]

section exact
variable {G : Type _} [GenOps G]
open Thr

theorem low_val (a : Expr G ℚ) : (a.mapCoeffs LowQ.mk).mapCoeffs LowQ.val = a := by
  cases a with
  | mk t => simp only [Expr.mapCoeffs, List.map_map]; exact congrArg Expr.mk (List.map_id t)
theorem low_mpq (a : Expr G ℚ) : (a.mapCoeffs LowQ.mk).mapCoeffs (fun x => Mpq.ofRat x.val) = a.toMpq := by
  simp [Expr.mapCoeffs, Expr.toMpq]
theorem low_split (d : Expr G LowQ) : d.mapCoeffs (fun x => Mpq.ofRat x.val) = (d.mapCoeffs LowQ.val).toMpq := by
  simp [Expr.mapCoeffs, Expr.toMpq]

theorem mpq_ofMonomial (h : LowestGen G) (x : ℚ) (m : List G) :
    Thr.ofMonomial (Mpq.ofRat x) m = some (Expr.ofMonomial x m).toMpq := by
  obtain ⟨e, he⟩ := ofMonomial_safe h.mpq rfl (Mpq.ofRat x) (m := m) fun _ _ => trivial
  obtain ⟨d, hd⟩ := ofMonomial_safe h.low embedLowQ.zero (LowQ.mk x) (m := m) fun _ _ => trivial
  have h1 := ofMonomial_sim embedMpqId _ _ _ he
  have h2 := ofMonomial_sim embedMpq _ _ _ hd
  have h3 := ofMonomial_sim embedLowQ _ _ _ hd
  rw [mapCoeffs_id''] at h1
  rw [Any.ofMonomial_exact exactRat] at h3
  rw [low_split, ← h3] at h2
  rw [he, ← h1]
  exact congrArg some h2

theorem mpq_mul (h : LowestGen G) (a b : Expr G ℚ) : Thr.mul a.toMpq b.toMpq = some (a * b).toMpq := by
  obtain ⟨e, he⟩ := mul_safe' h.mpq rfl a.toMpq b.toMpq
  obtain ⟨d, hd⟩ := mul_safe' h.low embedLowQ.zero (a.mapCoeffs LowQ.mk) (b.mapCoeffs LowQ.mk)
  have h1 := mul_sim embedMpqId _ _ _ he
  have h2 := mul_sim embedMpq _ _ _ hd
  have h3 := mul_sim embedLowQ _ _ _ hd
  rw [mapCoeffs_id'', mapCoeffs_id'', mapCoeffs_id''] at h1
  rw [low_val, low_val, Any.mulAssign_exact exactRat] at h3
  rw [low_mpq, low_mpq, low_split d, ← h3] at h2
  rw [he, ← h1, h2]
  rfl

theorem mpq_conj (h : LowestGen G) (a : Expr G ℚ) : Thr.conj a.toMpq = some a.conj.toMpq := by
  obtain ⟨e, he⟩ := conj_safe' h.mpq rfl a.toMpq
  obtain ⟨d, hd⟩ := conj_safe' h.low embedLowQ.zero (a.mapCoeffs LowQ.mk)
  have h1 := conj_sim embedMpqId _ _ he
  have h2 := conj_sim embedMpq _ _ hd
  have h3 := conj_sim embedLowQ _ _ hd
  rw [mapCoeffs_id'', mapCoeffs_id''] at h1
  rw [low_val, Any.conj_exact exactRat] at h3
  rw [low_mpq, low_split d, ← h3] at h2
  rw [he, ← h1, h2]

end exact
end LC
