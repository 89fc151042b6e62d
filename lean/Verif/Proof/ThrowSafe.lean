import Verif.Proof.ThrowScalar
import Verif.Proof.AnyExact
import Verif.Proof.InP
/-
Operations on expressions do not throw when all structure constants are convertible.
-/
set_option linter.unusedSectionVars false
namespace LC.Thr
open LC

variable {G : Type _} {S S' : Type _} [GenOps G] [ThrowOps S] {P : G → Prop}

theorem inP_mapCoeffs {φ : S → S'} {a : Expr G S} : (a.mapCoeffs φ).InP P ↔ a.InP P := by
  constructor
  · intro h p hp
    exact h (p.1, φ p.2) (List.mem_map.2 ⟨p, hp, rfl⟩)
  · intro h p hp
    obtain ⟨q, hq, rfl⟩ := List.mem_map.1 hp
    exact h q hq

variable (hC : ConvertibleGen S P) (h0 : ThrowOps.representable S (.integer 0) = true)
include hC h0

theorem ofMonomial_safe (x : S) {m : List G} (hm : ∀ g ∈ m, P g) : ∃ e, ofMonomial x m = some e := by
  unfold ofMonomial
  split
  · exact ⟨_, rfl⟩
  · obtain ⟨t, ht⟩ := normalize_safe hC h0 Any.store m x [] hm
    exact ⟨⟨t⟩, by rw [ht]; rfl⟩

theorem mulMap_safe {a b : Expr G S} (ha : a.InP P) (hb : b.InP P) :
    ∃ t, a.terms.foldlM (fun t m1 =>
      b.terms.foldlM (fun t m2 => normalize Any.store (m1.1 ++ m2.1) (ScalarOps.mul m1.2 m2.2) t) t) [] = some t := by
  obtain ⟨t, h, -⟩ := foldlM_safe (fun _ => True) a.terms (f := fun t m1 =>
      b.terms.foldlM (fun t m2 => normalize Any.store (m1.1 ++ m2.1) (ScalarOps.mul m1.2 m2.2) t) t) (fun t _ p hp => by
    refine foldlM_safe (fun _ => True) b.terms (fun t _ q hq => ?_) t trivial
    obtain ⟨t', h'⟩ := normalize_safe hC h0 Any.store (p.1 ++ q.1) (ScalarOps.mul p.2 q.2) t
      (fun g hg => (List.mem_append.1 hg).elim (ha p hp g) (hb q hq g))
    exact ⟨t', h', trivial⟩) [] trivial
  exact ⟨t, h⟩

theorem mul_safe {a b : Expr G S} (ha : a.InP P) (hb : b.InP P) : ∃ e, mul a b = some e := by
  obtain ⟨t, h⟩ := mulMap_safe hC h0 ha hb
  exact ⟨⟨t⟩, by rw [mul, h]; rfl⟩

variable [LawfulGen G] [CommRing S'] [DecidableEq S'] [ConstScalar S'] [ScalarLaws S'] [Star S'] [ScalarOps S'] (hX : ExactScalar S') {φ : S → S'}
  (hφ : ScalarEmbedding φ) (hN : ClosedGen P)
include hX hφ hN

theorem ofMonomial_inP {x : S} {m : List G} (hm : ∀ g ∈ m, P g) {e : Expr G S} (h : ofMonomial x m = some e) : e.InP P := by
  have := ofMonomial_sim hφ x m e h
  rw [Any.ofMonomial_exact hX] at this
  refine (inP_mapCoeffs (φ := φ)).1 ?_
  rw [← this]
  exact Expr.inP_ofMonomial hN _ _ hm

theorem mul_inP {a b : Expr G S} (ha : a.InP P) (hb : b.InP P) {e : Expr G S} (h : mul a b = some e) : e.InP P := by
  have := mul_sim hφ a b e h
  rw [Any.mulAssign_exact hX] at this
  refine (inP_mapCoeffs (φ := φ)).1 ?_
  rw [← this]
  exact Expr.inP_mul hN (inP_mapCoeffs.2 ha) (inP_mapCoeffs.2 hb)

theorem ofLinFun_inP {f : LinFun G} (hf : ∀ p ∈ f.terms, P p.1) {e : Expr G S} (h : ofLinFun f = some e) : e.InP P := by
  have := ofLinFun_sim hφ f e h
  rw [Any.ofLinFun_exact hX] at this
  refine (inP_mapCoeffs (φ := φ)).1 ?_
  rw [← this]
  exact Expr.inP_ofLinFun hN hf

theorem conj_inP {a : Expr G S} (ha : a.InP P) {e : Expr G S} (h : conj a = some e) : e.InP P := by
  have := conj_sim hφ a e h
  rw [Any.conj_exact hX] at this
  refine (inP_mapCoeffs (φ := φ)).1 ?_
  rw [← this]
  exact Expr.inP_conj hN (fun g hg => (hC.conj g hg).2) (inP_mapCoeffs.2 ha)

theorem ofLinFun_safe {f : LinFun G} (hf : ∀ p ∈ f.terms, P p.1) (hR : f.Representable S) : ∃ e, (ofLinFun f : Option (Expr G S)) = some e := by
  have h1 : ∃ e, (if f.const.isZero then some (⟨[]⟩ : Expr G S) else (makeConst f.const).map fun v => ⟨[([], v)]⟩) = some e := by
    split
    · exact ⟨_, rfl⟩
    · rw [makeConst_ok hR.1]; exact ⟨_, rfl⟩
  obtain ⟨e, he⟩ := h1
  rw [ofLinFun, he]
  obtain ⟨t, h, -⟩ := foldlM_safe (fun _ => True) f.terms (f := fun (e : Expr G S) (gv : G × VarNumber) =>
      (makeConst gv.2).bind fun v =>
      if ScalarOps.isZero v then some e else (ofMonomial v [gv.1]).map fun e' => Any.addAssign e e') (fun t _ p hp => by
    rw [makeConst_ok (hR.2 p hp)]
    simp only [Option.bind_some]
    split
    · exact ⟨_, rfl, trivial⟩
    · obtain ⟨u, hu⟩ := ofMonomial_safe hC h0 (ScalarOps.makeConst p.2 : S) (m := [p.1]) (by simpa using hf p hp)
      exact ⟨_, by rw [hu]; rfl, trivial⟩) e trivial
  exact ⟨t, h⟩

theorem conj_safe {a : Expr G S} (ha : a.InP P) : ∃ e, conj a = some e := by
  obtain ⟨s, h, -⟩ := foldlM_safe (fun _ => True) a.terms (f := fun (s : Expr G S × Expr G S) (m : List G × S) =>
      (if ScalarOps.isZero (ScalarOps.conj m.2) then some s.2
        else m.1.reverse.foldlM (fun e g => (ofLinFun (GenOps.conj g)).bind fun c => mul e c)
          (Any.const (ScalarOps.conj m.2))).map fun contrib => (Any.addAssign s.1 contrib, contrib)) (fun s _ p hp => by
    have : ∃ c, (if ScalarOps.isZero (ScalarOps.conj p.2) then some s.2
        else p.1.reverse.foldlM (fun e g => (ofLinFun (GenOps.conj g)).bind fun c => mul e c)
          (Any.const (ScalarOps.conj p.2))) = some c := by
      split
      · exact ⟨_, rfl⟩
      · obtain ⟨c, hc, -⟩ := foldlM_safe (fun e : Expr G S => e.InP P) p.1.reverse
          (f := fun e g => (ofLinFun (GenOps.conj g)).bind fun c => mul e c) (fun e he g hg => by
          have hg' := ha p hp g (List.mem_reverse.1 hg)
          obtain ⟨c, hc⟩ := ofLinFun_safe hC h0 hX hφ hN (hC.conj g hg').2 (hC.conj g hg').1
          have hcP := ofLinFun_inP hC h0 hX hφ hN (hC.conj g hg').2 hc
          obtain ⟨d, hd⟩ := mul_safe hC h0 he hcP
          exact ⟨d, by rw [hc]; exact hd, mul_inP hC h0 hX hφ hN he hcP hd⟩) (Any.const (ScalarOps.conj p.2)) (by
          unfold Any.const
          split
          · intro q hq; simp at hq
          · intro q hq; simp at hq; subst hq; simp)
        exact ⟨c, hc⟩
    obtain ⟨c, hc⟩ := this
    exact ⟨_, by rw [hc]; rfl, trivial⟩) (⟨[]⟩, ⟨[]⟩) trivial
  exact ⟨s.1, by rw [conj, h]; rfl⟩

end LC.Thr
