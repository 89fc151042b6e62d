import Verif.Proof.LOpReach
import Verif.Spec.Charge
import Mathlib.Tactic.Abel
/-
Normal ordering preserves additive quantum numbers.
-/
set_option linter.unusedSectionVars false
set_option linter.unusedVariables false
namespace LC
open Terms

section Generic
variable {G S A T : Type _} [GenOps G] [LawfulGen G] [CommRing S] [DecidableEq S] [ConstScalar S] [ScalarLaws S] [AddCommGroup A]

/-- The commutation relations preserve the charge `q`. -/
structure Graded (P : G → Prop) (q : G → A) : Prop where
  swap_const : ∀ x y : G, P x → P y → GenOps.gt x y = true → (GenOps.swapWith x y).2.const.isZero = false → q x + q y = 0
  swap_term : ∀ x y : G, P x → P y → GenOps.gt x y = true → ∀ p ∈ (GenOps.swapWith x y).2.terms, q p.1 = q x + q y
  simp_const : ∀ (x y : G) f, P x → P y → GenOps.gt x y = false → GenOps.simplifyProd x y = some f → f.const.isZero = false → q x + q y = 0
  simp_term : ∀ (x y : G) f, P x → P y → GenOps.gt x y = false → GenOps.simplifyProd x y = some f → ∀ p ∈ f.terms, q p.1 = q x + q y

variable {P : G → Prop} {q : G → A} (hN : NFGen P) (hG : Graded P q) {I : T → Prop}

/-- The target after a pass. -/
def PassRes.out : PassRes G S T → T
  | .done t => t
  | .cont _ _ _ t => t

/-- Monomials of allowed generators with charge `d`. -/
def OfCharge (P : G → Prop) (q : G → A) (d : A) (m : List G) : Prop := (∀ g ∈ m, P g) ∧ (m.map q).sum = d

theorem processF_charge {d : A} {N : List G → S → T → T} (L : Nat)
    (h : ∀ m c t, m.length < L → OfCharge P q d m → I t → I (N m c t)) (pre post : List G) (hl : pre.length + post.length + 1 < L) (f : LinFun G)
    (h1 : f.const.isZero = false → OfCharge P q d (pre ++ post)) (h2 : ∀ p ∈ f.terms, OfCharge P q d (pre ++ p.1 :: post)) (c : S) (t : T)
    (ht : I t) : I (processF N pre post f c t) := by
  simp only [processF]
  apply foldl_inv
  · intro p hp t ht
    exact h _ _ _ (by simp; omega) (h2 p hp) ht
  · split
    · exact ht
    · next hz => exact h _ _ _ (by simp; omega) (h1 (by simpa using hz)) ht

theorem sum_remove {pre post : List G} {x y : G} {d : A} (h : ((pre ++ x :: y :: post).map q).sum = d) (h0 : q x + q y = 0) :
    ((pre ++ post).map q).sum = d := by
  rw [← h]
  simp only [List.map_append, List.map_cons, List.sum_append, List.sum_cons]
  rw [← add_assoc (q x), h0, zero_add]

theorem sum_replace {pre post : List G} {x y g : G} {d : A} (h : ((pre ++ x :: y :: post).map q).sum = d) (h0 : q g = q x + q y) :
    ((pre ++ g :: post).map q).sum = d := by
  rw [← h]
  simp only [List.map_append, List.map_cons, List.sum_append, List.sum_cons]
  rw [h0, add_assoc]

include hN hG in
theorem pass_charge {d : A} {N : List G → S → T → T} (L : Nat) (h : ∀ m c t, m.length < L → OfCharge P q d m → I t → I (N m c t))
    (cnt : Nat) (pre : List G) (x : G) (rest : List G) (hl : pre.length + 1 + rest.length ≤ L) (hm : OfCharge P q d (pre ++ x :: rest)) (c : S)
    (sw : Bool) (t : T) (ht : I t) : I (pass N cnt pre x rest c sw t).out := by
  induction cnt generalizing pre x rest c sw t with
  | zero => simpa [pass, PassRes.out] using ht
  | succ cnt ih =>
    cases rest with
    | nil => simpa [pass, PassRes.out] using ht
    | cons y rest =>
      simp only [List.length_cons] at hl
      obtain ⟨hP, hd⟩ := hm
      have hx : P x := hP x (by simp)
      have hy : P y := hP y (by simp)
      have hsub : ∀ g ∈ pre ++ rest, P g := fun g hg => hP g (by
        simp only [List.mem_append, List.mem_cons] at hg ⊢; tauto)
      have hone : ∀ g', P g' → ∀ g ∈ pre ++ g' :: rest, P g := fun g' hg' g hg => by
        simp only [List.mem_append, List.mem_cons] at hg
        rcases hg with hg | rfl | hg
        · exact hP g (by simp [hg])
        · exact hg'
        · exact hP g (by simp [hg])
      have hsw : OfCharge P q d ((pre ++ [y]) ++ x :: rest) := by
        refine ⟨fun g hg => hP g (by simp only [List.mem_append, List.mem_cons] at hg ⊢; tauto), ?_⟩
        rw [← hd]
        simp only [List.map_append, List.map_cons, List.map_nil, List.sum_append, List.sum_cons, List.sum_nil]
        abel
      simp only [pass]
      split
      · rename_i hgt
        have h1 : I (processF N pre rest (GenOps.swapWith x y).2 c t) := processF_charge L h pre rest (by omega) _
          (fun hz => ⟨hsub, sum_remove hd (hG.swap_const x y hx hy hgt hz)⟩)
          (fun p hp => ⟨hone _ (hN.swap_mem x y hx hy hgt p hp), sum_replace hd (hG.swap_term x y hx hy hgt p hp)⟩) c t ht
        split
        · exact h1
        · exact ih _ _ _ (by simp; omega) hsw _ _ _ h1
      · rename_i hgt
        have hgt : GenOps.gt x y = false := by simpa using hgt
        split
        · rename_i f hf
          exact processF_charge L h pre rest (by omega) _
            (fun hz => ⟨hsub, sum_remove hd (hG.simp_const x y f hx hy hgt hf hz)⟩)
            (fun p hp => ⟨hone _ (hN.simp_mem x y f hx hy hgt hf p hp), sum_replace hd (hG.simp_term x y f hx hy hgt hf p hp)⟩) c t ht
        · exact ih _ _ _ (by simp; omega) ⟨by simpa using hP, by simpa using hd⟩ _ _ _ ht

theorem OfCharge.perm {d : A} {m m' : List G} (h : OfCharge P q d m) (hp : m'.Perm m) : OfCharge P q d m' :=
  ⟨fun g hg => h.1 g (hp.mem_iff.1 hg), by rw [← h.2]; exact (hp.map q).sum_eq⟩

include hN hG in
theorem sortLoop_charge {d : A} {N : List G → S → T → T} (L : Nat) (h : ∀ m c t, m.length < L → OfCharge P q d m → I t → I (N m c t))
    (nmax : Nat) (m : List G) (hl : m.length ≤ L) (hm : OfCharge P q d m) (c : S) (t : T) (ht : I t) :
    I (sortLoop N nmax m c t).out := by
  induction nmax generalizing m c t with
  | zero =>
    cases m with
    | nil => simpa [sortLoop, PassRes.out] using ht
    | cons x rest =>
      have h1 := pass_charge hN hG L h 0 [] x rest (by simp at hl ⊢; omega) (by simpa using hm) c false t ht
      simp only [sortLoop]
      cases hp : pass N 0 [] x rest c false t with
      | done t' => rw [hp] at h1; exact h1
      | cont m' c' sw t' => rw [hp] at h1; cases sw <;> exact h1
  | succ nmax ih =>
    cases m with
    | nil => simpa [sortLoop, PassRes.out] using ht
    | cons x rest =>
      have h1 := pass_charge hN hG L h (nmax + 1) [] x rest (by simp at hl ⊢; omega) (by simpa using hm) c false t ht
      simp only [sortLoop]
      cases hp : pass N (nmax + 1) [] x rest c false t with
      | done t' => rw [hp] at h1; exact h1
      | cont m' c' sw t' =>
        rw [hp] at h1
        cases sw
        · exact h1
        · refine ih _ ?_ (hm.perm (by simpa using pass_perm _ _ _ _ _ _ _ hp)) _ _ h1
          rw [pass_length _ _ _ _ _ _ _ hp]; simp at hl ⊢; omega

include hN in
theorem reduceLoop_charge {d : A} {st N R : List G → S → T → T} (hst : ∀ m c t, OfCharge P q d m → I t → I (st m c t)) (c : S) (t : T) (ht : I t)
    (pre : List G) (n : Nat) (x : G) (rest : List G) (hm : OfCharge P q d (pre ++ List.replicate (n + 1) x ++ rest)) :
    I (reduceLoop st N R pre (List.replicate (n + 1) x) x rest LinFun.zero c t) := by
  induction rest generalizing pre n x with
  | nil =>
    simp only [reduceLoop]
    exact hst _ _ _ (by simpa using hm) ht
  | cons y rest ih =>
    simp only [reduceLoop]
    split
    · rename_i hy
      have hy := (LawfulGen.eq_iff _ _).1 hy
      subst hy
      have hPy : P y := hm.1 y (by simp)
      have e1 : List.replicate (n + 1) y ++ [y] = List.replicate (n + 1 + 1) y := (List.replicate_succ' ..).symm
      have hm' : OfCharge P q d (pre ++ List.replicate (n + 1 + 1) y ++ rest) := by rw [← e1]; simpa using hm
      split
      · rename_i hlen
        simp only [List.length_replicate] at hlen ⊢
        split
        · rename_i hr
          rw [if_pos (hN.red_vanish y _ hPy hlen hr)]
          exact ht
        · rename_i hr
          rw [hN.red_false y _ _ hPy hlen (by simpa using hr), e1]
          exact ih pre (n + 1) y hm'
      · rw [e1]; exact ih pre (n + 1) y hm'
    · exact ih (pre ++ List.replicate (n + 1) x) 0 y (by simpa using hm)

include hN hG in
theorem normalize_charge {d : A} (st : List G → S → T → T) (hst : ∀ m c t, OfCharge P q d m → I t → I (st m c t)) (L : Nat) :
    ∀ (m : List G) (c : S) (t : T), m.length < L → OfCharge P q d m → I t → I (normalize st m c t) := by
  have hR : ∀ (m : List G) (c : S) (t : T), OfCharge P q d m → I t → I (reduce st m c t) := by
    intro m c t hm ht
    rw [reduce_eq]
    cases m with
    | nil => exact hst _ _ _ hm ht
    | cons x rest =>
      have := reduceLoop_charge hN (N := normalize st) (R := reduce st) hst c t ht [] 0 x rest (by simpa using hm)
      simpa [reduceStep] using this
  induction L with
  | zero => intro m c t h; omega
  | succ L ih =>
    intro m c t hl hm ht
    rw [normalize_eq]
    simp only [normStep]
    split
    · have := sortLoop_charge hN hG L ih (m.length - 1) m (by omega) hm c t ht
      cases hp : sortLoop (normalize st) (m.length - 1) m c t with
      | done t' => rw [hp] at this; exact this
      | cont m' c' sw t' =>
        rw [hp] at this
        simp only
        split
        · exact this
        · exact hR _ _ _ (hm.perm (sortLoop_perm _ _ _ _ hp)) this
    · exact hR _ _ _ hm ht

include hN hG in
theorem emits_charge {d : A} (m : List G) (hm : OfCharge P q d m) (c : S) : ∀ p ∈ emits m c, OfCharge P q d p.1 :=
  normalize_charge hN hG (I := fun l : List (List G × S) => ∀ p ∈ l, OfCharge P q d p.1) logStore (by
    intro m c t hc ht p hp
    rcases List.mem_append.1 hp with h | h
    · exact ht p h
    · rw [List.mem_singleton.1 h]; exact hc) (m.length + 1) m c [] (by omega) hm (by simp)

/-! ### Expressions -/
open Expr

def HomE (P : G → Prop) (q : G → A) (d : A) (e : Expr G S) : Prop := ∀ p ∈ e.terms, OfCharge P q d p.1

theorem hom_keys {d : A} {e : List (List G × S)} {t : Terms G S} (h : ∀ p ∈ t, OfCharge P q d p.1) (he : ∀ p ∈ e, OfCharge P q d p.1) :
    ∀ p ∈ storeAll e t, OfCharge P q d p.1 := by
  intro p hp
  rcases mem_storeAll hp with h' | ⟨r, hr, h'⟩
  · exact h p h'
  · rw [← h']; exact he r hr

theorem hom_const (x : S) : HomE P q 0 (const x : Expr G S) := by
  intro p hp
  simp only [const] at hp
  split at hp
  · simp at hp
  · simp at hp; subst hp; exact ⟨by simp, rfl⟩

theorem hom_add {d : A} {a b : Expr G S} (ha : HomE P q d a) (hb : HomE P q d b) : HomE P q d (a + b) := by
  unfold HomE; rw [add_def]; exact hom_keys ha hb

theorem hom_neg {d : A} {a : Expr G S} (ha : HomE P q d a) : HomE P q d (-a) := by
  intro p hp
  simp only [neg_def, List.mem_map] at hp
  obtain ⟨r, hr, rfl⟩ := hp
  exact ha r hr

theorem hom_sub {d : A} {a b : Expr G S} (ha : HomE P q d a) (hb : HomE P q d b) : HomE P q d (a - b) := by
  unfold HomE; rw [sub_def]; exact hom_keys ha (hom_neg hb)

theorem hom_smul {d : A} (x : S) {a : Expr G S} (ha : HomE P q d a) : HomE P q d (smulPrefix x a) := by
  intro p hp
  simp only [smulPrefix] at hp
  split at hp
  · simp at hp
  · simp only [List.mem_map] at hp
    obtain ⟨r, hr, rfl⟩ := hp
    exact ha r hr

include hN hG in
theorem hom_ofMonomial {d : A} (x : S) (m : List G) (hm : OfCharge P q d m) : HomE P q d (ofMonomial x m) := by
  intro p hp
  simp only [ofMonomial] at hp
  split at hp
  · simp at hp
  · rw [normalize_store] at hp
    exact hom_keys (t := []) (by simp) (emits_charge hN hG m hm x) p hp

include hN hG in
theorem hom_mul {d d' : A} {a b : Expr G S} (ha : HomE P q d a) (hb : HomE P q d' b) : HomE P q (d + d') (a * b) := by
  unfold HomE
  rw [mul_def]
  refine hom_keys (by simp) ?_
  intro p hp
  simp only [mulLog, List.mem_flatMap] at hp
  obtain ⟨r, hr, s, hs, hp⟩ := hp
  refine emits_charge hN hG _ ⟨fun g hg => ?_, ?_⟩ _ p hp
  · rcases List.mem_append.1 hg with h | h
    · exact (ha r hr).1 g h
    · exact (hb s hs).1 g h
  · rw [List.map_append, List.sum_append, (ha r hr).2, (hb s hs).2]

include hN hG in
theorem hom_ofLinFun {d : A} {f : LinFun G} (h0 : f.const.isZero = false → d = 0) (hf : ∀ p ∈ f.terms, P p.1 ∧ q p.1 = d) :
    HomE P q d (ofLinFun f : Expr G S) := by
  refine foldl_inv (I := fun e : Expr G S => HomE P q d e) _ _ ?_ _ ?_
  · intro p hp e he
    simp only
    split
    · exact he
    · refine hom_add he (hom_ofMonomial hN hG _ _ ⟨?_, by simpa using (hf p hp).2⟩)
      intro g hg
      simp at hg; subst hg; exact (hf p hp).1
  · intro p hp
    simp only at hp
    split at hp
    · simp at hp
    · next hz => simp at hp; subst hp; exact ⟨by simp, (h0 (by simpa using hz)).symm⟩

include hN hG in
theorem hom_conj [Star S] {d : A} (hc0 : ∀ g : G, (GenOps.conj g).const.isZero = true)
    (hC : ∀ g : G, P g → ∀ p ∈ (GenOps.conj g).terms, P p.1 ∧ q p.1 = -q g) {a : Expr G S} (ha : HomE P q d a) : HomE P q (-d) a.conj := by
  have step : ∀ (l : List G) (e : Expr G S) (d' : A), (∀ g ∈ l, P g) → HomE P q d' e →
      HomE P q (d' - (l.map q).sum) (l.foldl (fun e g => mulAssign e (ofLinFun (GenOps.conj g))) e) := by
    intro l
    induction l with
    | nil => intro e d' _ he; simpa using he
    | cons g l ih =>
      intro e d' hl he
      rw [List.foldl_cons, List.map_cons, List.sum_cons, ← sub_sub]
      refine ih _ _ (fun x hx => hl x (by simp [hx])) ?_
      rw [sub_eq_add_neg]
      exact hom_mul hN hG he (hom_ofLinFun hN hG (by rw [hc0]; simp) (hC g (hl g (by simp))))
  have : ∀ (l : List (List G × S)) (s : Expr G S × Expr G S), (∀ p ∈ l, OfCharge P q d p.1) →
      HomE P q (-d) s.1 → HomE P q (-d) s.2 →
      HomE P q (-d) (l.foldl (fun (s : Expr G S × Expr G S) m =>
      let co := star m.2
      let contrib :=
        if co = 0 then s.2
        else m.1.reverse.foldl (fun e g => mulAssign e (ofLinFun (GenOps.conj g))) (const co)
      (addAssign s.1 contrib, contrib)) s).1 := by
    intro l
    induction l with
    | nil => intro s _ h _; exact h
    | cons p l ih =>
      intro s hl h1 h2
      rw [List.foldl_cons]
      have hc : HomE P q (-d) (if star p.2 = 0 then s.2
        else p.1.reverse.foldl (fun e g => mulAssign e (ofLinFun (GenOps.conj g))) (const (star p.2))) := by
        split
        · exact h2
        · have h3 := hl p (by simp)
          have := step p.1.reverse (const (star p.2)) 0 (fun g hg => h3.1 g (by simpa using hg)) (hom_const _)
          rwa [List.map_reverse, List.sum_reverse, h3.2, zero_sub] at this
      exact ih _ (fun r hr => hl r (by simp [hr])) (hom_add h1 hc) hc
  exact this _ _ ha (by intro p hp; cases hp) (by intro p hp; cases hp)

end Generic

/-! ### The predefined algebras -/
section Predefined
variable {ι A : Type _} [LinearOrder ι] [AddCommGroup A] {M : Nat → ι → Prop}

theorem graded_gen (hM : HalfAlone M) (w : Charge ι A) : Graded (Allowed M) w.gen where
  swap_const x y hx hy hgt hz := by
    match x, y with
    | .fermion d i, .fermion e j =>
      simp only [GenOps.swapWith, Gen.swapWith] at hz
      split at hz
      · next h => obtain ⟨rfl, hde⟩ := h; cases d <;> cases e <;> simp_all [Charge.gen]
      · simp [VarNumber.isZero] at hz
    | .boson d i, .boson e j =>
      simp only [GenOps.swapWith, Gen.swapWith] at hz
      split at hz
      · next h => obtain ⟨rfl, hde⟩ := h; cases d <;> cases e <;> simp_all [Charge.gen]
      · simp [VarNumber.isZero] at hz
    | .spin m c i, .spin n e j =>
      simp only [GenOps.swapWith, Gen.swapWith] at hz
      simp only [GenOps.gt, Gen.gtOp, Gen.greater] at hgt
      split at hz
      · next h =>
        obtain ⟨rfl, rfl⟩ := h
        cases c <;> cases e <;> simp [SpinComp.toNat, Gen.algebraId] at hgt <;> split at hz <;>
          simp_all [Gen.swapSpinHalf, Gen.swapHigherSpin, VarNumber.isZero, Charge.gen]
      · simp [VarNumber.isZero] at hz
    | .fermion .., .boson .. => simp [GenOps.swapWith, Gen.swapWith, VarNumber.isZero] at hz
    | .fermion .., .spin .. => simp [GenOps.swapWith, Gen.swapWith, VarNumber.isZero] at hz
    | .boson .., .fermion .. => simp [GenOps.swapWith, Gen.swapWith, VarNumber.isZero] at hz
    | .boson .., .spin .. => simp [GenOps.swapWith, Gen.swapWith, VarNumber.isZero] at hz
    | .spin .., .fermion .. => simp [GenOps.swapWith, Gen.swapWith, VarNumber.isZero] at hz
    | .spin .., .boson .. => simp [GenOps.swapWith, Gen.swapWith, VarNumber.isZero] at hz
  swap_term x y hx hy hgt p hp := by
    match x, y with
    | .fermion d i, .fermion e j => simp [GenOps.swapWith, Gen.swapWith] at hp
    | .boson d i, .boson e j => simp [GenOps.swapWith, Gen.swapWith] at hp
    | .spin m c i, .spin n e j =>
      simp only [GenOps.swapWith, Gen.swapWith] at hp
      simp only [GenOps.gt, Gen.gtOp, Gen.greater] at hgt
      split at hp
      · next h =>
        obtain ⟨rfl, rfl⟩ := h
        cases c <;> cases e <;> simp [SpinComp.toNat, Gen.algebraId] at hgt <;> split at hp <;>
          simp_all [Gen.swapSpinHalf, Gen.swapHigherSpin, Charge.gen]
      · simp at hp
    | .fermion .., .boson .. => simp [GenOps.swapWith, Gen.swapWith] at hp
    | .fermion .., .spin .. => simp [GenOps.swapWith, Gen.swapWith] at hp
    | .boson .., .fermion .. => simp [GenOps.swapWith, Gen.swapWith] at hp
    | .boson .., .spin .. => simp [GenOps.swapWith, Gen.swapWith] at hp
    | .spin .., .fermion .. => simp [GenOps.swapWith, Gen.swapWith] at hp
    | .spin .., .boson .. => simp [GenOps.swapWith, Gen.swapWith] at hp
  simp_const x y f hx hy hgt hf hz := by
    match x, y with
    | .fermion d i, .fermion e j =>
      simp only [GenOps.simplifyProd, Gen.simplifyProd] at hf
      split at hf
      · cases hf; simp [VarNumber.isZero] at hz
      · cases hf
    | .boson d i, .boson e j => simp [GenOps.simplifyProd, Gen.simplifyProd] at hf
    | .spin m c i, .spin n e j =>
      simp only [GenOps.simplifyProd, Gen.simplifyProd] at hf
      split at hf
      · cases hf
      · next h =>
        have hij : i = j := by by_contra h'; exact h (Or.inl h')
        have hm2 : m = 2 := by by_contra h'; exact h (Or.inr h')
        subst hij; subst hm2
        have hn : n = 2 := hM i n hx hy
        subst hn
        simp only [GenOps.gt, Gen.gtOp, Gen.greater] at hgt
        cases c <;> cases e <;> simp [SpinComp.toNat, Gen.algebraId] at hgt <;> simp at hf <;> subst hf <;>
          simp_all [VarNumber.isZero, Charge.gen]
    | .fermion .., .boson .. => simp [GenOps.simplifyProd, Gen.simplifyProd] at hf
    | .fermion .., .spin .. => simp [GenOps.simplifyProd, Gen.simplifyProd] at hf
    | .boson .., .fermion .. => simp [GenOps.simplifyProd, Gen.simplifyProd] at hf
    | .boson .., .spin .. => simp [GenOps.simplifyProd, Gen.simplifyProd] at hf
    | .spin .., .fermion .. => simp [GenOps.simplifyProd, Gen.simplifyProd] at hf
    | .spin .., .boson .. => simp [GenOps.simplifyProd, Gen.simplifyProd] at hf
  simp_term x y f hx hy hgt hf p hp := by
    match x, y with
    | .fermion d i, .fermion e j =>
      simp only [GenOps.simplifyProd, Gen.simplifyProd] at hf
      split at hf
      · cases hf; simp at hp
      · cases hf
    | .boson d i, .boson e j => simp [GenOps.simplifyProd, Gen.simplifyProd] at hf
    | .spin m c i, .spin n e j =>
      simp only [GenOps.simplifyProd, Gen.simplifyProd] at hf
      split at hf
      · cases hf
      · next h =>
        have hij : i = j := by by_contra h'; exact h (Or.inl h')
        have hm2 : m = 2 := by by_contra h'; exact h (Or.inr h')
        subst hij; subst hm2
        have hn : n = 2 := hM i n hx hy
        subst hn
        simp only [GenOps.gt, Gen.gtOp, Gen.greater] at hgt
        cases c <;> cases e <;> simp [SpinComp.toNat, Gen.algebraId] at hgt <;> simp at hf <;> subst hf <;>
          simp_all [Charge.gen]
    | .fermion .., .boson .. => simp [GenOps.simplifyProd, Gen.simplifyProd] at hf
    | .fermion .., .spin .. => simp [GenOps.simplifyProd, Gen.simplifyProd] at hf
    | .boson .., .fermion .. => simp [GenOps.simplifyProd, Gen.simplifyProd] at hf
    | .boson .., .spin .. => simp [GenOps.simplifyProd, Gen.simplifyProd] at hf
    | .spin .., .fermion .. => simp [GenOps.simplifyProd, Gen.simplifyProd] at hf
    | .spin .., .boson .. => simp [GenOps.simplifyProd, Gen.simplifyProd] at hf

theorem conj_charge (w : Charge ι A) (g : Gen ι) (hg : Allowed M g) :
    ∀ p ∈ (GenOps.conj g).terms, Allowed M p.1 ∧ w.gen p.1 = -w.gen g := by
  intro p hp
  refine ⟨(conjOK M).mem g hg p hp, ?_⟩
  match g with
  | .fermion d i => simp only [GenOps.conj, Gen.conj, List.mem_singleton] at hp; subst hp; cases d <;> simp [Charge.gen]
  | .boson d i => simp only [GenOps.conj, Gen.conj, List.mem_singleton] at hp; subst hp; cases d <;> simp [Charge.gen]
  | .spin m c i => simp only [GenOps.conj, Gen.conj, List.mem_singleton] at hp; subst hp; cases c <;> simp [Charge.gen]

theorem conj_const_zero (g : Gen ι) : (GenOps.conj g).const.isZero = true := by
  cases g <;> simp [GenOps.conj, Gen.conj, VarNumber.isZero]

theorem homE_of {S : Type _} [CommRing S] [DecidableEq S] [ConstScalar S] [ScalarLaws S] [IsDomain S] [CharZero S] [Star S] (hM : HalfAlone M)
    {w : Charge ι A} {d : A} {e : Expr (Gen ι) S} (he : Reachable (Allowed M) e) (h : w.Homogeneous d e) : HomE (Allowed M) w.gen d e :=
  fun p hp => ⟨(he.allCanon (nfGen M hM) (conjOK M) p hp).mem, h p hp⟩

theorem Reachable.mono {G S : Type _} [GenOps G] [CommRing S] [DecidableEq S] [ConstScalar S] [Star S] {P P' : G → Prop} (h : ∀ g, P g → P' g)
    {e : Expr G S} (he : Reachable P e) : Reachable P' e := by
  induction he with
  | zero => exact .zero
  | const x => exact .const x
  | ofMonomial x m hm => exact .ofMonomial x m fun g hg => h g (hm g hg)
  | add _ _ ha hb => exact .add ha hb
  | sub _ _ ha hb => exact .sub ha hb
  | mul _ _ ha hb => exact .mul ha hb
  | neg _ ha => exact .neg ha
  | addMixed _ _ ha hb => exact .addMixed ha hb
  | subMixed _ _ ha hb => exact .subMixed ha hb
  | smulPrefix x _ ha => exact .smulPrefix x ha
  | smulPostfix x _ ha => exact .smulPostfix x ha
  | smulAssign x _ ha => exact .smulAssign x ha
  | addScalar x _ ha => exact .addScalar x ha
  | scalarAdd x _ ha => exact .scalarAdd x ha
  | addAssignScalar x _ ha => exact .addAssignScalar x ha
  | subScalar x _ ha => exact .subScalar x ha
  | subAssignScalar x _ ha => exact .subAssignScalar x ha
  | scalarSub x _ ha => exact .scalarSub x ha
  | transform f _ ha => exact .transform f ha
  | conj _ ha => exact .conj ha

/-! ### Basis states -/

/-- A generator changes the value of the quantum number by its charge. -/
theorem genAct_charge_gen (w : Charge ι A) (ms : Finset (Mode ι)) (bd : ι → ℕ∞) (g : Gen ι) (n n' : Config ι) (x : ℝ)
    (hsupp : ∀ k ∉ ms, w.mode k = 0) (h : genAct bd g n = some (n', x)) :
    ∑ k ∈ ms, n' k • w.mode k = ∑ k ∈ ms, n k • w.mode k + w.gen g := by
  classical
  have key : ∀ (k : Mode ι) (v : Nat), ∑ j ∈ ms, (Function.update n k v) j • w.mode j + n k • w.mode k =
      ∑ j ∈ ms, n j • w.mode j + v • w.mode k := by
    intro k v
    by_cases hk : k ∈ ms
    · rw [← Finset.add_sum_erase _ _ hk, ← Finset.add_sum_erase ms (fun j => n j • w.mode j) hk, Function.update_self]
      have : ∑ j ∈ ms.erase k, (Function.update n k v) j • w.mode j = ∑ j ∈ ms.erase k, n j • w.mode j :=
        Finset.sum_congr rfl fun j hj => by rw [Function.update_of_ne (Finset.ne_of_mem_erase hj)]
      rw [this]
      abel
    · rw [hsupp k hk, smul_zero, smul_zero, add_zero, add_zero]
      exact Finset.sum_congr rfl fun j hj => by rw [Function.update_of_ne (by rintro rfl; exact hk hj)]
  match g, h with
  | .fermion true i, h =>
    simp only [genAct] at h
    split at h
    · next h0 =>
      cases h
      have := key (.fermion i) 1
      rw [h0, zero_smul, add_zero, one_smul] at this
      simpa [Charge.gen, Charge.mode] using this
    · cases h
  | .fermion false i, h =>
    simp only [genAct] at h
    split at h
    · next h0 =>
      cases h
      have := key (.fermion i) 0
      rw [h0, zero_smul, add_zero, one_smul] at this
      rw [← this]; simp [Charge.gen, Charge.mode]
    · cases h
  | .boson true i, h =>
    simp only [genAct] at h
    split at h
    · cases h
      have := key (.boson i) (n (.boson i) + 1)
      rw [add_smul, one_smul, ← add_assoc, add_right_comm] at this
      have := add_right_cancel this
      simpa [Charge.gen, Charge.mode] using this
    · cases h
  | .boson false i, h =>
    simp only [genAct] at h
    split at h
    · cases h
    · next h0 =>
      cases h
      have := key (.boson i) (n (.boson i) - 1)
      obtain ⟨r, hr⟩ := Nat.exists_eq_succ_of_ne_zero h0
      rw [hr, Nat.succ_sub_one, Nat.succ_eq_add_one, add_smul, one_smul, ← add_assoc, add_right_comm] at this
      have := add_right_cancel this
      rw [hr, Nat.succ_sub_one, ← this]; simp [Charge.gen, Charge.mode]
  | .spin m .plus i, h =>
    simp only [genAct] at h
    split at h
    · cases h
      have := key (.spin m i) (n (.spin m i) + 1)
      rw [add_smul, one_smul, ← add_assoc, add_right_comm] at this
      have := add_right_cancel this
      simpa [Charge.gen, Charge.mode] using this
    · cases h
  | .spin m .minus i, h =>
    simp only [genAct] at h
    split at h
    · cases h
    · next h0 =>
      cases h
      have := key (.spin m i) (n (.spin m i) - 1)
      obtain ⟨r, hr⟩ := Nat.exists_eq_succ_of_ne_zero h0
      rw [hr, Nat.succ_sub_one, Nat.succ_eq_add_one, add_smul, one_smul, ← add_assoc, add_right_comm] at this
      have := add_right_cancel this
      rw [hr, Nat.succ_sub_one, ← this]; simp [Charge.gen, Charge.mode]
  | .spin m .z i, h =>
    simp only [genAct] at h
    split at h
    · cases h
    · cases h; simp [Charge.gen]

theorem monAct_charge_gen (w : Charge ι A) (ms : Finset (Mode ι)) (bd : ι → ℕ∞) (m : List (Gen ι)) (n n' : Config ι) (x : ℝ)
    (hsupp : ∀ k ∉ ms, w.mode k = 0) (h : monAct bd m n = some (n', x)) :
    ∑ k ∈ ms, n' k • w.mode k = ∑ k ∈ ms, n k • w.mode k + w.mon m := by
  induction m generalizing n' x with
  | nil => simp only [monAct, Option.some.injEq, Prod.mk.injEq] at h; rw [← h.1]; simp [Charge.mon]
  | cons g m ih =>
    rw [monAct] at h
    obtain ⟨⟨n1, x1⟩, h1, h2⟩ := Option.bind_eq_some_iff.1 h
    obtain ⟨⟨n2, x2⟩, h3, h4⟩ := Option.map_eq_some_iff.1 h2
    simp only [Prod.mk.injEq] at h4
    obtain ⟨rfl, -⟩ := h4
    rw [genAct_charge_gen w ms bd g n1 n2 x2 hsupp h3, ih n1 x1 h1, Charge.mon, Charge.mon, List.map_cons, List.sum_cons]
    abel


end Predefined
end LC
