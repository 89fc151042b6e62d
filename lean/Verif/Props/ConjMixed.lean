import Verif.Props.AnyConj
/-
C67 (continued): Hermitian conjugation of products of both fermionic and bosonic operators, for any scalar type.
-/
set_option linter.unusedSectionVars false
set_option linter.unusedSimpArgs false
namespace LC
open Terms

namespace Any
variable {G S T : Type _} [GenOps G] [LawfulGen G] [ScalarOps S]

theorem pass_ok (N : List G → S → T → T) (cnt : Nat) (pre : List G) {x y : G} (rest : List G) (h : OKPair x y) (c : S) (sw : Bool) (t : T) :
    pass N (cnt + 1) pre x (y :: rest) c sw t = pass N cnt (pre ++ [x]) y rest c sw t := by
  simp only [pass, h.1, h.2, Bool.false_eq_true, if_false]

theorem pass_ok_list (N : List G → S → T → T) (c : S) (sw : Bool) (t : T) (f : G) (D : List G) (A : List G) : ∀ (pre : List G) (x : G) (rest : List G),
    (x :: rest) = A ++ [f] → (A ++ [f]).IsChain OKPair → pass N A.length pre x (rest ++ D) c sw t = .cont (pre ++ A ++ f :: D) c sw t := by
  induction A with
  | nil =>
    intro pre x rest h _
    obtain ⟨rfl, rfl⟩ := List.cons.inj h
    simp [pass]
  | cons a A ih =>
    intro pre x rest h hch
    obtain ⟨rfl, rfl⟩ := List.cons.inj h
    cases A with
    | nil =>
      have := ih (pre ++ [x]) f [] rfl (by simp)
      simp only [List.nil_append, List.cons_append, List.length_cons, List.length_nil] at this ⊢
      exact (pass_ok N _ pre _ (by simpa using hch) c sw t).trans (this.trans (by simp))
    | cons a' A =>
      rw [List.cons_append, List.cons_append, List.isChain_cons_cons] at hch
      have := ih (pre ++ [x]) a' (A ++ [f]) rfl hch.2
      simp only [List.cons_append, List.length_cons] at this ⊢
      exact (pass_ok N _ pre _ hch.1 c sw t).trans (this.trans (by simp))

/-- A pass over `A ++ b :: f :: D` where only `b` and `f` are out of order. -/
theorem pass_swap_last (N : List G → S → T → T) (b f : G) (D : List G) (c : S) (hgt : GenOps.gt b f = true)
    (hsw : GenOps.swapWith b f = (.integer 1, ⟨.integer 0, []⟩)) (hc : ScalarOps.mul c (ScalarOps.makeConst (.integer 1)) = c) (t : T)
    (A : List G) : ∀ (pre : List G) (x : G) (rest : List G) (sw : Bool), (x :: rest) = A ++ [b] → (A ++ [b]).IsChain OKPair →
    pass N (A.length + 1) pre x (rest ++ f :: D) c sw t = .cont (pre ++ A ++ f :: b :: D) c true t := by
  induction A with
  | nil =>
    intro pre x rest sw h _
    obtain ⟨rfl, rfl⟩ := List.cons.inj h
    simp only [List.length_nil, Nat.zero_add, List.nil_append, pass, hgt, if_true, hsw, processF, List.foldl_nil]
    simp [VarNumber.isZero, VarNumber.eq, hc]
  | cons a A ih =>
    intro pre x rest sw h hch
    obtain ⟨rfl, rfl⟩ := List.cons.inj h
    cases A with
    | nil =>
      have := ih (pre ++ [x]) b [] sw rfl (by simp)
      simp only [List.nil_append, List.cons_append, List.length_cons, List.length_nil] at this ⊢
      exact (pass_ok N _ pre _ (by simpa using hch) c sw t).trans (this.trans (by simp))
    | cons a' A =>
      rw [List.cons_append, List.cons_append, List.isChain_cons_cons] at hch
      have := ih (pre ++ [x]) a' (A ++ [b]) sw rfl hch.2
      simp only [List.cons_append, List.length_cons] at this ⊢
      exact (pass_ok N _ pre _ hch.1 c sw t).trans (this.trans (by simp))

/-- A generator `f` that commutes with the generators `B` and has to stand before them is moved there. -/
theorem sortLoop_insert (N : List G → S → T → T) (f : G) (c : S) (hc : ScalarOps.mul c (ScalarOps.makeConst (.integer 1)) = c) (t : T) (A : List G)
    (hA : (A ++ [f]).IsChain OKPair) (n : Nat) : ∀ (B D : List G), B.length = n → (A ++ B).IsChain OKPair →
    (∀ b ∈ B, GenOps.gt b f = true ∧ GenOps.swapWith b f = (.integer 1, ⟨.integer 0, []⟩)) →
    ∃ s, sortLoop N (A ++ B).length (A ++ B ++ f :: D) c t = .cont (A ++ f :: (B ++ D)) c s t := by
  induction n with
  | zero =>
    intro B D hB _ _
    obtain rfl := List.length_eq_zero_iff.1 hB
    rw [List.append_nil]
    cases A with
    | nil =>
      refine ⟨false, ?_⟩
      simp [sortLoop, pass]
    | cons a A =>
      refine ⟨false, ?_⟩
      have := pass_ok_list N c false t f D (a :: A) [] a (A ++ [f]) rfl hA
      rw [List.append_assoc, List.singleton_append, List.nil_append] at this
      rw [List.cons_append]
      unfold sortLoop
      simp only [this]
      rfl
  | succ n ih =>
    intro B D hB hch hBf
    obtain ⟨B, b, rfl⟩ : ∃ B' b, B = B' ++ [b] := ⟨_, _, (List.dropLast_append_getLast (l := B) (by rintro rfl; simp at hB)).symm⟩
    obtain ⟨hgt, hsw⟩ := hBf b (by simp)
    have hB' : B.length = n := by simpa using hB
    have hch' : ((A ++ B) ++ [b]).IsChain OKPair := by simpa using hch
    obtain ⟨s, hs⟩ := ih B (b :: D) hB' (List.isChain_append.1 hch').1 fun b' hb' => hBf b' (by simp [hb'])
    refine ⟨s, ?_⟩
    obtain ⟨x, rest, hx⟩ : ∃ x rest, A ++ B ++ [b] = x :: rest := by
      cases A ++ B with
      | nil => exact ⟨b, [], rfl⟩
      | cons y l => exact ⟨y, l ++ [b], rfl⟩
    have hp := pass_swap_last N b f D c hgt hsw hc t (A ++ B) [] x rest false hx.symm hch'
    have e1 : (A ++ (B ++ [b])).length = (A ++ B).length + 1 := by simp; omega
    have e2 : A ++ (B ++ [b]) ++ f :: D = x :: (rest ++ f :: D) := by rw [← List.append_assoc, hx]; rfl
    rw [e1, e2]
    unfold sortLoop
    simp only [hp, List.nil_append]
    rw [hs]
    simp

theorem normalize_insert {P : G → Prop} (hN : NFGen P) (st : List G → S → T → T) (f : G) (A B : List G) (hc : CanonMon P (A ++ f :: B))
    (hAB : (A ++ B).IsChain OKPair) (hBf : ∀ b ∈ B, GenOps.gt b f = true ∧ GenOps.swapWith b f = (.integer 1, ⟨.integer 0, []⟩))
    (c : S) (h1 : ScalarOps.mul c (ScalarOps.makeConst (.integer 1)) = c) (h0 : ScalarOps.isZero c = false) (t : T) :
    normalize st (A ++ B ++ [f]) c t = st (A ++ f :: B) c t := by
  have hR : reduce st (A ++ f :: B) c t = st (A ++ f :: B) c t := by
    rw [reduce_eq]
    obtain ⟨x, rest, hx⟩ : ∃ x rest, A ++ f :: B = x :: rest := by
      cases A with
      | nil => exact ⟨f, B, rfl⟩
      | cons y l => exact ⟨y, l ++ f :: B, rfl⟩
    rw [hx] at hc ⊢
    exact reduceLoop_of_canon hN c t (x :: rest) hc [] 0 x rest (by simp)
  have hA : (A ++ [f]).IsChain OKPair := by
    have := hc.chain
    rw [← List.singleton_append, ← List.append_assoc] at this
    exact (List.isChain_append.1 this).1
  rw [normalize_eq]
  by_cases h2 : 2 ≤ (A ++ B ++ [f]).length
  · obtain ⟨s, hs⟩ := sortLoop_insert (normalize st) f c h1 t A hA B.length B [] rfl hAB hBf
    have e : (A ++ B ++ [f]).length - 1 = (A ++ B).length := by simp
    rw [normStep, if_pos h2, e, hs]
    simp only [h0, Bool.false_eq_true, if_false, List.append_nil, hR]
  · have e : A ++ B = [] := List.length_eq_zero_iff.1 (by rw [List.length_append] at h2; simp at h2 ⊢; omega)
    obtain ⟨rfl, rfl⟩ := List.append_eq_nil_iff.1 e
    rw [normStep, if_neg h2]
    exact hR

end Any

variable {ι : Type _} {S : Type _} [LinearOrder ι] [ScalarOps S]

def AllF (m : List (Gen ι)) : Prop := ∀ g ∈ m, ∃ d i, g = .fermion d i
def AllB (m : List (Gen ι)) : Prop := ∀ g ∈ m, ∃ d i, g = .boson d i

theorem canon_fb {M : Nat → ι → Prop} {F B : List (Gen ι)} (hF : CanonMon (Allowed M) F) (hB : CanonMon (Allowed M) B) (f : AllF F) (b : AllB B) :
    CanonMon (Allowed M) (F ++ B) := by
  refine ⟨?_, ?_, ?_⟩
  · intro g hg
    rcases List.mem_append.1 hg with h | h
    exacts [hF.mem g h, hB.mem g h]
  · refine List.isChain_append.2 ⟨hF.chain, hB.chain, ?_⟩
    intro x hx y hy
    obtain ⟨d, i, rfl⟩ := f x (List.mem_of_getLast? hx)
    obtain ⟨e, j, rfl⟩ := b y (List.mem_of_head? hy)
    simp [OKPair, GenOps.gt, GenOps.simplifyProd, Gen.gtOp, Gen.simplifyProd, Gen.algebraId]
  · intro g hg p _ _
    rcases List.mem_append.1 hg with h | h
    · obtain ⟨d, i, rfl⟩ := f g h; rfl
    · obtain ⟨d, i, rfl⟩ := b g h; rfl

theorem linFun_dagger (h1 : ScalarOps.isZero (scalarOne : S) = false) (g : Gen ι) (hg : GenOps.conj g = ⟨.integer 0, [(dagger g, .integer 1)]⟩)
    (hal : Allowed (fun _ _ => False) (dagger g)) :
    (Any.ofLinFun (GenOps.conj g) : Expr (Gen ι) S) = ⟨[([dagger g], scalarOne)]⟩ := by
  have hN : NFGen (Allowed fun (_ : Nat) (_ : ι) => False) := nfGen _ (fun _ _ h => h.elim)
  have h1' : ScalarOps.isZero (ScalarOps.makeConst (.integer 1) : S) = false := h1
  rw [hg]
  simp only [Any.ofLinFun, List.foldl_cons, List.foldl_nil, VarNumber.isZero, h1']
  simp only [decide_true, if_true, Bool.false_eq_true, if_false, Any.ofMonomial, h1']
  have : Any.normalize Any.store [dagger g] (ScalarOps.makeConst (.integer 1) : S) []
      = [([dagger g], ScalarOps.makeConst (.integer 1))] := by
    rw [Any.normalize_of_canon hN _ [dagger g] ⟨fun x hx => by
      simp only [List.mem_singleton] at hx; subst hx; exact hal, by simp, fun x hx p hp hcnt => by
        have := List.countP_le_length (p := GenOps.eq x) (l := [dagger g])
        simp only [List.length_singleton] at this; omega⟩ _ (by simp)]
    rfl
  rw [this]; rfl

/-- Multiplying a sorted product by the conjugated fermionic operators one after another inserts them before the bosonic ones. -/
theorem conj_insert (h1 : ScalarOps.isZero (scalarOne : S) = false) (c : S) (hc1 : ScalarOps.mul c (scalarOne : S) = c)
    (hcz : ScalarOps.isZero c = false) (B l A : List (Gen ι)) (hl : AllF l) (hB : AllB B) (hA : AllF A)
    (cA : CanonMon (Allowed fun _ _ => False) (A ++ l.map dagger)) (cB : CanonMon (Allowed fun _ _ => False) B) :
    l.foldl (fun e g => Any.mulAssign e (Any.ofLinFun (GenOps.conj g))) (⟨[(A ++ B, c)]⟩ : Expr (Gen ι) S)
      = ⟨[(A ++ l.map dagger ++ B, c)]⟩ := by
  induction l generalizing A with
  | nil => simp
  | cons g l ih =>
    have hN : NFGen (Allowed fun (_ : Nat) (_ : ι) => False) := nfGen _ (fun _ _ h => h.elim)
    have cA' : CanonMon (Allowed fun _ _ => False) ((A ++ [dagger g]) ++ l.map dagger) := by simpa using cA
    obtain ⟨d, i, rfl⟩ := hl g (by simp)
    have hA' : AllF (A ++ [dagger (Gen.fermion d i)]) := by
      intro x hx
      rcases List.mem_append.1 hx with h | h
      · exact hA x h
      · rw [List.mem_singleton] at h; exact ⟨_, _, h⟩
    have hm : Any.mulAssign (⟨[(A ++ B, c)]⟩ : Expr (Gen ι) S) (Any.ofLinFun (GenOps.conj (Gen.fermion d i))) =
        ⟨[(A ++ [dagger (Gen.fermion d i)] ++ B, c)]⟩ := by
      rw [linFun_dagger h1 _ rfl (by trivial)]
      simp only [Any.mulAssign, List.foldl_cons, List.foldl_nil, hc1]
      rw [Any.normalize_insert hN _ (dagger (Gen.fermion d i)) A B (by simpa using canon_fb (canon_prefix cA') cB hA' hB)
        (canon_fb (canon_prefix cA) cB hA hB).chain (by
          intro b hb
          obtain ⟨e, j, rfl⟩ := hB b hb
          exact ⟨rfl, rfl⟩) c hc1 hcz]
      simp [Any.store, Terms.find?, Terms.emplace]
    rw [List.foldl_cons, hm, ih _ (fun x hx => hl x (by simp [hx])) hA' cA']
    simp

/-- The product contains no spin operators. -/
def NoSpin (m : List (Gen ι)) : Prop := ∀ g ∈ m, (∃ d i, g = .fermion d i) ∨ ∃ d i, g = .boson d i

def isFermion : Gen ι → Bool
  | .fermion _ _ => true
  | _ => false

/-- The fermionic factors of a product, and the other ones. -/
def fpart (m : List (Gen ι)) : List (Gen ι) := m.filter fun g => isFermion g
def bpart (m : List (Gen ι)) : List (Gen ι) := m.filter fun g => !isFermion g

/-- Hermitian conjugate of a product of fermionic and bosonic operators that is stored with the fermionic factors first: the conjugated fermionic
factors in the reverse order, then the conjugated bosonic factors in the reverse order. -/
def conjMon (m : List (Gen ι)) : List (Gen ι) := daggerMon (fpart m) ++ daggerMon (bpart m)

theorem fpart_allF {m : List (Gen ι)} (h : NoSpin m) : AllF (fpart m) := by
  intro g hg
  simp only [fpart, List.mem_filter] at hg
  rcases h g hg.1 with ⟨d, i, rfl⟩ | ⟨d, i, rfl⟩
  · exact ⟨d, i, rfl⟩
  · simp [isFermion] at hg

theorem bpart_allB {m : List (Gen ι)} (h : NoSpin m) : AllB (bpart m) := by
  intro g hg
  simp only [bpart, List.mem_filter] at hg
  rcases h g hg.1 with ⟨d, i, rfl⟩ | ⟨d, i, rfl⟩
  · simp [isFermion] at hg
  · exact ⟨d, i, rfl⟩

theorem fpart_of {F B : List (Gen ι)} (f : AllF F) (b : AllB B) : fpart (F ++ B) = F ∧ bpart (F ++ B) = B := by
  have h1 : ∀ g ∈ F, isFermion g = true := fun g hg => by obtain ⟨d, i, rfl⟩ := f g hg; rfl
  have h2 : ∀ g ∈ B, isFermion g = false := fun g hg => by obtain ⟨d, i, rfl⟩ := b g hg; rfl
  constructor
  · rw [fpart, List.filter_append, List.filter_eq_self.2 h1, List.filter_eq_nil_iff.2 fun g hg => by simp [h2 g hg], List.append_nil]
  · rw [bpart, List.filter_append, List.filter_eq_nil_iff.2 (fun g hg => by simp [h1 g hg]), List.filter_eq_self.2 (fun g hg => by simp [h2 g hg]),
      List.nil_append]

theorem allB_of_chain (m : List (Gen ι)) : ∀ (d : Bool) (i : ι), NoSpin m → (Gen.boson d i :: m).IsChain OKPair → AllB m := by
  induction m with
  | nil => intro _ _ _ _ g hg; simp at hg
  | cons a m ih =>
    intro d i hn hc
    rw [List.isChain_cons_cons] at hc
    rcases hn a (by simp) with ⟨e, j, rfl⟩ | ⟨e, j, rfl⟩
    · have := hc.1.1; simp [GenOps.gt, Gen.gtOp, Gen.algebraId] at this
    · intro g hg
      rcases List.mem_cons.1 hg with rfl | h
      · exact ⟨_, _, rfl⟩
      · exact ih e j (fun g hg => hn g (by simp [hg])) hc.2 g h

theorem parts_eq (m : List (Gen ι)) (hn : NoSpin m) (hc : m.IsChain OKPair) : fpart m ++ bpart m = m := by
  induction m with
  | nil => rfl
  | cons a m ih =>
    have hn' : NoSpin m := fun g hg => hn g (by simp [hg])
    rcases hn a (by simp) with ⟨e, j, rfl⟩ | ⟨e, j, rfl⟩
    · have := ih hn' hc.tail
      simp only [fpart, bpart, List.filter_cons, isFermion] at this ⊢
      simpa using this
    · have hB := allB_of_chain m e j hn' hc
      have := fpart_of (F := []) (B := .boson e j :: m) (by intro g hg; simp at hg) (by
        intro g hg
        rcases List.mem_cons.1 hg with rfl | h
        exacts [⟨_, _, rfl⟩, hB g h])
      rw [List.nil_append] at this
      rw [this.1, this.2, List.nil_append]

theorem canon_suffix {P : Gen ι → Prop} {m n : List (Gen ι)} (h : CanonMon P (m ++ n)) : CanonMon P n := by
  refine ⟨fun g hg => h.mem g (by simp [hg]), (List.isChain_append.1 h.chain).2.1, fun g hg p hp hc => ?_⟩
  exact h.pow g (by simp [hg]) p hp (by rw [List.countP_append]; omega)

theorem daggerMon_allF {m : List (Gen ι)} (h : AllF m) : AllF (daggerMon m) := by
  intro g hg
  simp only [daggerMon, List.mem_reverse, List.mem_map] at hg
  obtain ⟨x, hx, rfl⟩ := hg
  obtain ⟨d, i, rfl⟩ := h x hx
  exact ⟨_, _, rfl⟩

theorem daggerMon_allB {m : List (Gen ι)} (h : AllB m) : AllB (daggerMon m) := by
  intro g hg
  simp only [daggerMon, List.mem_reverse, List.mem_map] at hg
  obtain ⟨x, hx, rfl⟩ := hg
  obtain ⟨d, i, rfl⟩ := h x hx
  exact ⟨_, _, rfl⟩

/-- Conjugating twice gives the product back. -/
theorem conjMon_conjMon {m : List (Gen ι)} (hn : NoSpin m) (hc : m.IsChain OKPair) : conjMon (conjMon m) = m := by
  have h := fpart_of (daggerMon_allF (fpart_allF hn)) (daggerMon_allB (bpart_allB hn))
  conv_lhs => rw [conjMon]
  rw [show conjMon m = daggerMon (fpart m) ++ daggerMon (bpart m) from rfl, h.1, h.2, daggerMon_daggerMon, daggerMon_daggerMon, parts_eq m hn hc]

/-- **C67** Hermitian conjugate of an expression of fermionic and bosonic operators, also within one product, for any scalar type in which `x * 1`
is `x`: exactly the conjugated monomials with the conjugated coefficients; provided no conjugated coefficient is negligible (finding F11). -/
theorem C67_conj_mixed_partial {M : Nat → ι → Prop} (hM : HalfAlone M) {a : Expr (Gen ι) S}
    (ha : Any.Reachable (Allowed M) a) (hk : ∀ p ∈ a.terms, NoSpin p.1)
    (h1 : ScalarOps.isZero (scalarOne : S) = false)
    (hmul : ∀ p ∈ a.terms, ScalarOps.mul (ScalarOps.conj p.2) (scalarOne : S) = ScalarOps.conj p.2)
    (hz : ∀ p ∈ a.terms, ScalarOps.isZero (ScalarOps.conj p.2) = false) (k : List (Gen ι)) (w : S) :
    (k, w) ∈ (Any.conj a).terms ↔ ∃ m v, (m, v) ∈ a.terms ∧ k = conjMon m ∧ w = ScalarOps.conj v := by
  have hg := Any.good_reachable (Any.monInv_canon (nfGen M hM)) (conjOK M).mem ha
  have key : ∀ (l : Terms (Gen ι) S) (s : Expr (Gen ι) S × Expr (Gen ι) S), (∀ p ∈ l, p ∈ a.terms) →
      (l.foldl (fun (s : Expr (Gen ι) S × Expr (Gen ι) S) m =>
        let co := ScalarOps.conj m.2
        let contrib :=
          if ScalarOps.isZero co then s.2
          else m.1.reverse.foldl (fun e g => Any.mulAssign e (Any.ofLinFun (GenOps.conj g))) (Any.const co)
        (Any.addAssign s.1 contrib, contrib)) s).1.terms
      = Any.storeAll (l.map fun p => (conjMon p.1, ScalarOps.conj p.2)) s.1.terms := by
    intro l
    induction l with
    | nil => intro s _; rfl
    | cons p l ih =>
      intro s hl
      have hp := hl p (by simp)
      have hcontrib : p.1.reverse.foldl (fun e g => Any.mulAssign e (Any.ofLinFun (GenOps.conj g)))
          (Any.const (ScalarOps.conj p.2)) = (⟨[(conjMon p.1, ScalarOps.conj p.2)]⟩ : Expr (Gen ι) S) := by
        have hconst : (Any.const (ScalarOps.conj p.2) : Expr (Gen ι) S) = ⟨[([], ScalarOps.conj p.2)]⟩ := by
          simp [Any.const, hz p hp]
        have hcan := hg.canon p hp
        have hn := hk p hp
        have hf := fpart_allF hn
        have hb := bpart_allB hn
        rw [← parts_eq p.1 hn hcan.chain] at hcan
        have cF : CanonMon (Allowed fun _ _ => False) (daggerMon (fpart p.1)) := canon_daggerMon (canon_prefix hcan) (.inl hf)
        have cB : CanonMon (Allowed fun _ _ => False) (daggerMon (bpart p.1)) := canon_daggerMon (canon_suffix hcan) (.inr hb)
        conv_lhs => rw [← parts_eq p.1 hn (hg.canon p hp).chain]
        rw [List.reverse_append, List.foldl_append, hconst, conj_contribution h1 _ (hmul p hp) (hz p hp)]
        · have eB : [] ++ (bpart p.1).reverse.map dagger = daggerMon (bpart p.1) := by simp [daggerMon, List.map_reverse]
          have eF : [] ++ (fpart p.1).reverse.map dagger = daggerMon (fpart p.1) := by simp [daggerMon, List.map_reverse]
          rw [eB]
          have := conj_insert (ι := ι) h1 _ (hmul p hp) (hz p hp) (daggerMon (bpart p.1)) (fpart p.1).reverse [] (fun g hg => hf g (by simpa using hg))
            (daggerMon_allB hb) (by intro g hg; simp at hg) (by rw [eF]; exact cF) cB
          rw [List.nil_append] at this
          rw [this, eF, conjMon]
        · intro g hg'
          obtain ⟨d, i, rfl⟩ := hb g (by simpa using hg'); rfl
        · simpa [daggerMon, List.map_reverse] using cB
      rw [List.foldl_cons, ih _ (fun q hq => hl q (by simp [hq]))]
      simp only [hz p hp, Bool.false_eq_true, if_false, hcontrib, List.map_cons, Any.storeAll, List.foldl_cons]
      rfl
  have hterms : (Any.conj a).terms = Any.storeAll (a.terms.map fun p => (conjMon p.1, ScalarOps.conj p.2)) [] := by
    rw [Any.conj, key a.terms _ (fun _ h => h)]
  rw [hterms, Any.mem_storeAll_fresh _ _ List.Pairwise.nil]
  · simp only [List.not_mem_nil, false_or, List.mem_map, Prod.mk.injEq, Prod.exists]
    exact ⟨fun ⟨m, v, h, e1, e2⟩ => ⟨m, v, h, e1.symm, e2.symm⟩, fun ⟨m, v, h, e1, e2⟩ => ⟨m, v, h, e1.symm, e2.symm⟩⟩
  · rw [List.map_map]
    have hn := Any.nodup_keys hg.sorted
    refine List.Nodup.map_on (fun x hx y hy h => ?_) (List.Nodup.of_map _ hn)
    have e : conjMon x.1 = conjMon y.1 := h
    have : x.1 = y.1 := by
      rw [← conjMon_conjMon (hk x hx) (hg.canon x hx).chain, e, conjMon_conjMon (hk y hy) (hg.canon y hy).chain]
    exact List.inj_on_of_nodup_map hn hx hy this
  · simp

/-- Not vacuous: `0.5 c†_0 c†_1 c_3 a†_1 a_2` with `double` coefficients, a product of both kinds, and its conjugate. -/
def bothKinds : Expr (Gen Nat) (CType.El .double) :=
  Any.ofMonomial (1 / 2 : ℚ) [Gen.fermion true 0, Gen.boson true 1, Gen.fermion true 1, Gen.boson false 2, Gen.fermion false 3]

theorem bothKinds_terms : bothKinds.terms =
    [([Gen.fermion true 0, Gen.fermion true 1, Gen.fermion false 3, Gen.boson true 1, Gen.boson false 2], (1 / 2 : ℚ))] := by decide +kernel

theorem c67_mixed_hypotheses : Any.Reachable (Allowed fun _ _ => False) bothKinds ∧ HalfAlone (fun _ (_ : Nat) => False) ∧
    (∀ p ∈ bothKinds.terms, NoSpin p.1) ∧ (∀ p ∈ bothKinds.terms, ¬ OneKind p.1) ∧
    ScalarOps.isZero (scalarOne : CType.El .double) = false ∧
    (∀ p ∈ bothKinds.terms, ScalarOps.mul (ScalarOps.conj p.2) (scalarOne : CType.El .double) = ScalarOps.conj p.2) ∧
    (∀ p ∈ bothKinds.terms, ScalarOps.isZero (ScalarOps.conj p.2) = false) ∧
    (Any.conj bothKinds).terms = [([Gen.fermion true 3, Gen.fermion false 1, Gen.fermion false 0, Gen.boson true 2, Gen.boson false 1], (1 / 2 : ℚ))] := by
  refine ⟨.ofMonomial _ _ (by simp [Allowed]), fun _ _ h => h.elim, ?_, ?_, ?_, ?_, ?_, ?_⟩
  · rw [bothKinds_terms]; simp [NoSpin]
  · rw [bothKinds_terms]; simp [OneKind]
  · decide +kernel
  · rw [bothKinds_terms]; decide +kernel
  · rw [bothKinds_terms]; decide +kernel
  · decide +kernel

end LC
