import Verif.Proof.Reachable
import Verif.Proof.Hom
/-
Normalisation of an interleaving of two canonical products whose factors commute with each other: the result is the sorted
interleaving. Hence expressions of commuting families of generators commute.
-/
set_option linter.unusedSectionVars false
set_option linter.unusedSimpArgs false
set_option linter.unusedVariables false
namespace LC
open Terms
variable {G S T : Type _} [GenOps G] [LawfulGen G] [CommRing S] [DecidableEq S] [ConstScalar S]

/-- Generators of the two families (`b g = true`, `b g = false`) commute: exchange is free, nothing is simplified. -/
structure Separates (b : G → Bool) : Prop where
  swap : ∀ x y : G, b x ≠ b y → GenOps.swapWith x y = (.integer 1, ⟨.integer 0, []⟩)
  simp : ∀ x y : G, b x ≠ b y → GenOps.simplifyProd x y = none

/-- Both sub-products are canonical. -/
def BothChains (b : G → Bool) (m : List G) : Prop :=
  (m.filter b).IsChain OKPair ∧ (m.filter fun g => !b g).IsChain OKPair

/-- The sub-products of two lists agree. -/
def SameParts (b : G → Bool) (m m' : List G) : Prop :=
  m'.filter b = m.filter b ∧ (m'.filter fun g => !b g) = m.filter fun g => !b g

theorem BothChains.adjacent {b : G → Bool} {pre rest : List G} {x y : G} (h : BothChains b (pre ++ x :: y :: rest))
    (e : b x = b y) : OKPair x y := by
  cases hx : b x with
  | true =>
    have h1 := h.1
    rw [List.filter_append, List.filter_cons, List.filter_cons, if_pos hx, if_pos (e ▸ hx), List.isChain_append] at h1
    exact (List.isChain_cons_cons.1 h1.2.1).1
  | false =>
    have h1 := h.2
    have hy : b y = false := e ▸ hx
    rw [List.filter_append, List.filter_cons, List.filter_cons, if_pos (by simp [hx]), if_pos (by simp [hy]),
      List.isChain_append] at h1
    exact (List.isChain_cons_cons.1 h1.2.1).1

theorem BothChains.same {b : G → Bool} {m m' : List G} (h : BothChains b m) (e : SameParts b m m') : BothChains b m' := by
  unfold BothChains; rw [e.1, e.2]; exact h

theorem SameParts.refl {b : G → Bool} (m : List G) : SameParts b m m := ⟨rfl, rfl⟩
theorem SameParts.trans {b : G → Bool} {m m' m'' : List G} (h : SameParts b m m') (h' : SameParts b m' m'') :
    SameParts b m m'' := ⟨h'.1.trans h.1, h'.2.trans h.2⟩

theorem pass_shuffle {b : G → Bool} (hb : Separates b) (N : List G → S → T → T) (cnt : Nat) (pre : List G) (x : G) (rest : List G)
    (h : BothChains b (pre ++ x :: rest)) (c : S) (sw : Bool) (t : T) :
    ∃ m' sw', pass N cnt pre x rest c sw t = .cont m' c sw' t ∧ SameParts b (pre ++ x :: rest) m' := by
  induction cnt generalizing pre x rest sw with
  | zero => exact ⟨_, _, rfl, .refl _⟩
  | succ cnt ih =>
    cases rest with
    | nil => exact ⟨_, _, rfl, .refl _⟩
    | cons y rest =>
      by_cases e : b x = b y
      · have hok := h.adjacent e
        have e' : pre ++ x :: y :: rest = (pre ++ [x]) ++ y :: rest := by simp
        obtain ⟨m', sw', h1, h2⟩ := ih (pre ++ [x]) y rest (e' ▸ h) sw
        refine ⟨m', sw', ?_, e' ▸ h2⟩
        simp only [pass, hok.1, hok.2, Bool.false_eq_true, if_false, h1]
      · have hs := hb.swap x y e
        have hp := hb.simp x y e
        by_cases hgt : GenOps.gt x y = true
        · have hsame : SameParts b (pre ++ x :: y :: rest) ((pre ++ [y]) ++ x :: rest) := by
            unfold SameParts
            cases hx : b x <;> cases hy : b y <;> simp_all [List.filter_append, List.filter_cons]
          obtain ⟨m', sw', h1, h2⟩ := ih (pre ++ [y]) x rest (h.same hsame) true
          refine ⟨m', sw', ?_, hsame.trans h2⟩
          simp only [pass, hgt, if_true, hs, processF, VarNumber.isZero, beq_self_eq_true, List.foldl_nil,
            VarNumber.eq]
          rw [if_neg (by decide), ConstScalar.mk_integer]
          simpa using h1
        · have e' : pre ++ x :: y :: rest = (pre ++ [x]) ++ y :: rest := by simp
          obtain ⟨m', sw', h1, h2⟩ := ih (pre ++ [x]) y rest (e' ▸ h) sw
          refine ⟨m', sw', ?_, e' ▸ h2⟩
          simp only [pass, hgt, hp, Bool.false_eq_true, if_false, h1]

theorem sortLoop_shuffle {b : G → Bool} (hb : Separates b) (N : List G → S → T → T) (nmax : Nat) (m : List G)
    (h : BothChains b m) (c : S) (t : T) :
    ∃ m' sw', sortLoop N nmax m c t = .cont m' c sw' t ∧ SameParts b m m' := by
  induction nmax generalizing m with
  | zero =>
    cases m with
    | nil => exact ⟨[], false, by simp [sortLoop], .refl _⟩
    | cons x rest => exact ⟨x :: rest, false, by simp [sortLoop, pass], .refl _⟩
  | succ nmax ih =>
    cases m with
    | nil => exact ⟨[], false, by simp [sortLoop], .refl _⟩
    | cons x rest =>
      obtain ⟨m', sw', h1, h2⟩ := pass_shuffle hb N (nmax + 1) [] x rest h c false t
      cases sw' with
      | false => exact ⟨m', false, by simp only [sortLoop, h1], h2⟩
      | true =>
        obtain ⟨m'', sw'', h3, h4⟩ := ih m' (h.same h2)
        exact ⟨m'', sw'', by simp only [sortLoop, h1, h3], h2.trans h4⟩

/-- The sorted interleaving. -/
theorem emits_shuffle {P : G → Prop} (hN : NFGen P) {b : G → Bool} (hb : Separates b) (m : List G) (hP : ∀ g ∈ m, P g)
    (h : BothChains b m)
    (hpow : ∀ g ∈ m, ∀ p, 2 < p → p ≤ m.countP (GenOps.eq g) → (GenOps.reducePower g p LinFun.zero).1 = false)
    (c : S) (h0 : c ≠ 0) :
    ∃ m', m'.Perm m ∧ m'.Pairwise (fun x y => GenOps.gt x y = false) ∧ emits m c = [(m', c)] := by
  by_cases h2 : 2 ≤ m.length
  · obtain ⟨m', sw', h1, h3⟩ := sortLoop_shuffle hb (normalize (logStore (G := G) (S := S))) (m.length - 1) m h c []
    have hperm := sortLoop_perm _ _ _ _ h1
    have hc := sortLoop_canon hN (I := fun _ : List (List G × S) => True) (N := normalize logStore) (L := m.length)
      (fun _ _ _ _ _ _ => trivial) (m.length - 1) m [] (by omega) (by simp) (by simpa using hP)
      ⟨by simp, by simp, by simp⟩ c [] trivial
    rw [List.append_nil, h1] at hc
    have hcanon : CanonMon P m' := by
      refine ⟨fun g hg => hP g (hperm.mem_iff.1 hg), hc.2, ?_⟩
      intro g hg p hp hpc
      exact hpow g (hperm.mem_iff.1 hg) p hp (by rwa [hperm.countP_eq] at hpc)
    refine ⟨m', hperm, pairwise_of_chain hc.2, ?_⟩
    rw [emits, normalize_eq]
    simp only [normStep]
    rw [if_pos h2, h1]
    simp only [h0, if_false]
    rw [reduce_eq]
    cases m' with
    | nil => rfl
    | cons x rest => exact reduceLoop_of_canon hN c [] (x :: rest) hcanon [] 0 x rest (by simp)
  · have hl : m.length < 2 := by omega
    have hcanon : CanonMon P m := by
      refine ⟨hP, ?_, hpow⟩
      match m, hl with
      | [], _ => simp
      | [x], _ => simp
    exact ⟨m, .refl _, pairwise_of_chain hcanon.chain, emits_of_canon hN m hcanon c h0⟩

/-- Two canonical products of commuting families: the product does not depend on the order. -/
theorem emits_comm {P : G → Prop} (hN : NFGen P) {b : G → Bool} (hb : Separates b) (m n : List G) (hm : CanonMon P m)
    (hn : CanonMon P n) (h1 : ∀ g ∈ m, b g = true) (h2 : ∀ g ∈ n, b g = false) (c : S) (h0 : c ≠ 0) :
    emits (m ++ n) c = emits (n ++ m) c := by
  have fm : m.filter b = m := List.filter_eq_self.2 h1
  have fm' : (m.filter fun g => !b g) = [] := List.filter_eq_nil_iff.2 fun g hg => by simp [h1 g hg]
  have fn : n.filter b = [] := List.filter_eq_nil_iff.2 fun g hg => by simp [h2 g hg]
  have fn' : (n.filter fun g => !b g) = n := List.filter_eq_self.2 fun g hg => by simp [h2 g hg]
  have hP : ∀ g ∈ m ++ n, P g := fun g hg => by
    rcases List.mem_append.1 hg with h | h
    · exact hm.mem g h
    · exact hn.mem g h
  have hpow : ∀ g ∈ m ++ n, ∀ p, 2 < p → p ≤ (m ++ n).countP (GenOps.eq g) →
      (GenOps.reducePower g p LinFun.zero).1 = false := by
    intro g hg p hp hpc
    rw [List.countP_append] at hpc
    rcases List.mem_append.1 hg with h | h
    · have : n.countP (GenOps.eq g) = 0 := by
        rw [List.countP_eq_zero]
        intro a ha he
        rw [LawfulGen.eq_iff] at he
        subst he
        have e1 := h1 _ h; have e2 := h2 _ ha
        rw [e1] at e2; cases e2
      exact hm.pow g h p hp (by omega)
    · have : m.countP (GenOps.eq g) = 0 := by
        rw [List.countP_eq_zero]
        intro a ha he
        rw [LawfulGen.eq_iff] at he
        subst he
        have e1 := h1 _ ha; have e2 := h2 _ h
        rw [e1] at e2; cases e2
      exact hn.pow g h p hp (by omega)
  have hcomm : (n ++ m).Perm (m ++ n) := List.perm_append_comm
  obtain ⟨u, hu, hu', hu''⟩ := emits_shuffle hN hb (m ++ n) hP (by
    simp only [BothChains, List.filter_append, fm, fm', fn, fn', List.append_nil, List.nil_append]
    exact ⟨hm.chain, hn.chain⟩) hpow c h0
  obtain ⟨v, hv, hv', hv''⟩ := emits_shuffle hN hb (n ++ m) (fun g hg => hP g (hcomm.mem_iff.1 hg)) (by
    simp only [BothChains, List.filter_append, fm, fm', fn, fn', List.append_nil, List.nil_append]
    exact ⟨hm.chain, hn.chain⟩) (fun g hg p hp hpc => hpow g (hcomm.mem_iff.1 hg) p hp (by rwa [hcomm.countP_eq] at hpc)) c h0
  rw [hu'', hv'']
  have : u = v := (hu.trans (hcomm.symm.trans hv.symm)).eq_of_pairwise (fun x y _ _ => ngt_antisymm) hu' hv'
  rw [this]

namespace Expr
variable [ScalarLaws S]

theorem evalWith_comm (f : List G → List G → S) (t u : List (List G × S)) :
    evalWith (fun m => evalWith (fun n => f m n) u) t = evalWith (fun n => evalWith (fun m => f m n) t) u := by
  induction t with
  | nil =>
    induction u with
    | nil => rfl
    | cons q u ih => rw [evalWith_cons, ← ih]; simp
  | cons p t ih =>
    rw [evalWith_cons, ih]
    clear ih
    induction u with
    | nil => simp
    | cons q u ih =>
      rw [evalWith_cons, evalWith_cons, evalWith_cons, evalWith_cons, ← ih]
      simp only [smul_add, smul_eq_mul, mul_add]
      ring

theorem evalWith_congr {M : Type _} [AddCommGroup M] [Module S M] {f g : List G → M} {t : List (List G × S)}
    (h : ∀ p ∈ t, f p.1 = g p.1) : evalWith f t = evalWith g t := by
  induction t with
  | nil => rfl
  | cons p t ih =>
    rw [evalWith_cons, evalWith_cons, ih fun q hq => h q (by simp [hq]), h p (by simp)]

/-- Expressions of commuting families commute. -/
theorem mul_comm_of_separates [IsDomain S] [CharZero S] [GoodGen G] {P : G → Prop} (hN : NFGen P) {b : G → Bool}
    (hb : Separates b) {x y : Expr G S} (hx : x.WF) (hy : y.WF) (hxc : x.AllCanon P) (hyc : y.AllCanon P)
    (h1 : x.InP fun g => b g = true) (h2 : y.InP fun g => b g = false) : x * y = y * x := by
  refine ext_coeff (wf_mul hx hy) (wf_mul hy hx) fun k => ?_
  rw [coeff_mul, coeff_mul, evalWith_comm]
  refine evalWith_congr fun q hq => evalWith_congr fun p hp => ?_
  rw [nf, nf, emits_comm hN hb p.1 q.1 (hxc p hp) (hyc q hq) (h1 p hp) (h2 q hq) 1 one_ne_zero]

end Expr
end LC
