import Verif.Spec.ThrowAction
import Verif.Proof.LOpApply
import Verif.Proof.StateVec
/-
An operator over a scalar type whose `make_const` may throw does what the operator over a larger type does, or throws.
-/
set_option linter.unusedSectionVars false
namespace LC
namespace Thr
variable {ι S R T T' : Type _} [CommRing S] [DoubleConst S] [CommRing R] [Algebra ℝ R]

/-- The outcome of a call, unless it is an exception, is the one for the larger type. -/
def Sim (emb : S →+* R) : Except ActFail (Option (Nat × S)) → ActRes R → Prop
  | .error .thrown, _ => True
  | .error .ub, r => r = .ub
  | .ok none, r => r = .zero
  | .ok (some (i, c)), r => r = .nonzero i (emb c)

variable {emb : S →+* R} (he : EmbedReal emb)
include he

theorem mulConst_sim {c y : S} {x : ℝ} (h : mulConst c x = .ok y) : emb y = emb c * algebraMap ℝ R x := by
  unfold mulConst at h
  cases hx : (DoubleConst.makeDouble x : Option S) with
  | none => rw [hx] at h; cases h
  | some s => rw [hx] at h; cases h; rw [map_mul, he.exact x s hx]

omit he in
theorem mulConst_fail {c : S} {x : ℝ} {e : ActFail} (h : mulConst c x = .error e) : e = .thrown := by
  unfold mulConst at h
  cases hx : (DoubleConst.makeDouble x : Option S) with
  | none => rw [hx] at h; cases h; rfl
  | some s => rw [hx] at h; cases h

theorem fermionAct_sim (a : FermionAction) (i : Nat) (c : S) : Sim emb (fermionAct a i c) (a.act i (emb c)) := by
  unfold fermionAct FermionAction.act
  split_ifs with h1 h2
  · rfl
  · rfl
  · simp only
    split_ifs with h3 h4
    · rfl
    · cases hm : mulConst c (-1) with
      | error e => cases mulConst_fail hm; trivial
      | ok y =>
        have := mulConst_sim he hm
        simp only [Sim, this, map_neg, map_one]
    · rfl

theorem mulRoots_sim (tab : List ℝ) (l : List Nat) (c : S) :
    match mulRoots tab l c with
    | .error .thrown => True
    | .error .ub => LC.mulRoots tab l (emb c) = none
    | .ok y => LC.mulRoots tab l (emb c) = some (emb y) := by
  induction l generalizing c with
  | nil => rfl
  | cons n l ih =>
    rw [mulRoots, LC.mulRoots]
    cases sqrRoot tab n with
    | none => rfl
    | some r =>
      simp only
      cases hm : mulConst c r with
      | error e => cases mulConst_fail hm; trivial
      | ok y => simp only; rw [← mulConst_sim he hm]; exact ih y

theorem bosonActLoop_sim (tab : List ℝ) (us : List BosonUpdate) (i : Nat) (c : S) :
    Sim emb (bosonActLoop tab us i c) (LC.bosonActLoop tab us i (emb c)) := by
  induction us generalizing i c with
  | nil => rfl
  | cons u us ih =>
    unfold bosonActLoop LC.bosonActLoop
    simp only
    split_ifs with h
    · rfl
    · have hm := mulRoots_sim he tab (u.rootArgs (((i >>> u.shift) &&& u.mask : Nat) : Int)) c
      cases h1 : mulRoots tab (u.rootArgs (((i >>> u.shift) &&& u.mask : Nat) : Int)) c with
      | error e =>
        rw [h1] at hm
        cases e with
        | thrown => trivial
        | ub => simp only at hm ⊢; rw [hm]; rfl
      | ok y => rw [h1] at hm; simp only at hm ⊢; rw [hm]; exact ih _ _

theorem bosonAct_sim (a : BosonAction) (i : Nat) (c : S) : Sim emb (bosonAct a i c) (a.act i (emb c)) := by
  unfold bosonAct BosonAction.act
  split_ifs
  · rfl
  · exact bosonActLoop_sim he _ _ _ _

theorem spinActLoop_sim (tab : List ℝ) (us : List SpinUpdate) (i : Nat) (c : S) :
    Sim emb (spinActLoop tab us i c) (LC.spinActLoop tab us i (emb c)) := by
  induction us generalizing i c with
  | nil => rfl
  | cons u us ih =>
    unfold spinActLoop LC.spinActLoop
    simp only
    cases u.c with
    | plus =>
      simp only
      split_ifs with h
      · rfl
      · generalize hl : (List.range u.power).map _ = l
        have hm := mulRoots_sim he tab l c
        cases h1 : mulRoots tab l c with
        | error e =>
          rw [h1] at hm
          cases e with
          | thrown => trivial
          | ub => simp only at hm ⊢; rw [hm]; rfl
        | ok y => rw [h1] at hm; simp only at hm ⊢; rw [hm]; exact ih _ _
    | minus =>
      simp only
      split_ifs with h
      · rfl
      · generalize hl : (List.range u.power).map _ = l
        have hm := mulRoots_sim he tab l c
        cases h1 : mulRoots tab l c with
        | error e =>
          rw [h1] at hm
          cases e with
          | thrown => trivial
          | ub => simp only at hm ⊢; rw [hm]; rfl
        | ok y => rw [h1] at hm; simp only at hm ⊢; rw [hm]; exact ih _ _
    | z =>
      simp only
      split_ifs with h
      · rfl
      · generalize hx : ((((i >>> u.shift) &&& u.mask : Nat) : ℝ) - (u.s2 : ℝ) / 2) ^ u.power = x
        cases hm : mulConst c x with
        | error e => cases mulConst_fail hm; trivial
        | ok y => simp only; rw [← mulConst_sim he hm]; exact ih _ _

theorem andThen_sim {r : Except ActFail (Option (Nat × S))} {r' : ActRes R} (h : Sim emb r r')
    {f : Nat → S → Except ActFail (Option (Nat × S))} {f' : Nat → R → ActRes R} (hf : ∀ i c, Sim emb (f i c) (f' i (emb c))) :
    Sim emb (andThen r f) (r'.andThen f') := by
  unfold andThen
  rcases r with (_ | _) | (_ | ⟨i, c⟩)
  · have h : r' = .ub := h
    subst h; rfl
  · trivial
  · have h : r' = .zero := h
    subst h; rfl
  · have h : r' = .nonzero i (emb c) := h
    subst h; exact hf i c

theorem act_sim (a : MonomialAction) (i : Nat) (c : S) : Sim emb (act a i c) (a.act i (emb c)) :=
  andThen_sim he (fermionAct_sim he _ _ _) fun _ _ => andThen_sim he (bosonAct_sim he _ _ _) fun _ _ => spinActLoop_sim he _ _ _ _

section dense
variable [AddCommGroup T] [Module S T] [DecidableEq T] [AddCommGroup T'] [Module R T'] [DecidableEq T'] {j : T →+ T'}
  (hj : Function.Injective j) (hs : ∀ (s : S) (a : T), j (s • a) = emb s • j a)
include hj hs

/-- The vector with the elements read in the larger type. -/
def _root_.LC.DenseSV.mapTo (j : T →+ T') (v : DenseSV T) : DenseSV T' := ⟨v.data.map j⟩

omit he hj hs [CommRing S] [DoubleConst S] [CommRing R] [Algebra ℝ R] [Module S T] [Module R T'] in
theorem updateAdd_mapTo (v : DenseSV T) (n : Nat) (x : T) :
    StateVec.updateAdd (v.mapTo j) n (j x) = (StateVec.updateAdd v n x).map (DenseSV.mapTo j) := by
  show DenseSV.updateAdd (v.mapTo j) n (j x) = (DenseSV.updateAdd v n x).map (DenseSV.mapTo j)
  unfold DenseSV.updateAdd DenseSV.mapTo
  simp only [List.getElem?_map]
  cases v.data[n]? with
  | none => rfl
  | some a => simp [Except.map, List.map_set]

omit [DoubleConst S] he hs [CommRing S] [CommRing R] [Algebra ℝ R] [Module S T] [Module R T'] in
theorem foreachFrom_mapTo (l : List T) (n : Nat) :
    DenseSV.foreachFrom n (l.map j) = (DenseSV.foreachFrom n l).map fun p => (p.1, j p.2) := by
  induction l generalizing n with
  | nil => rfl
  | cons a l ih =>
    rw [List.map_cons, DenseSV.foreachFrom, DenseSV.foreachFrom]
    by_cases h : a = 0
    · rw [if_pos h, if_pos (by rw [h, map_zero]), ih]
    · rw [if_neg h, if_neg (fun h' => h (hj (by rw [h', map_zero]))), ih]; rfl

omit he hj hs [CommRing S] [DoubleConst S] [CommRing R] [Algebra ℝ R] [Module S T] [Module R T'] in
/-- The outcome of a call, unless it is an exception thrown by `make_const`, is the one for the larger type. -/
def SimW (j : T →+ T') : Except OpFail (DenseSV T) → Except SVError (DenseSV T') → Prop
  | .error .thrown, _ => True
  | .error (.sv x), r => r = .error x
  | .ok w, r => r = .ok (w.mapTo j)

theorem applyTerm_sim (k : Nat) (a : T) (ma : MonomialAction) (c : S) (w : DenseSV T) :
    SimW j (applyTerm k a ma c w) (LC.applyTerm k (j a) ma (emb c) (w.mapTo j)) := by
  unfold applyTerm
  cases h1 : (DoubleConst.makeDouble 1 : Option S) with
  | none => trivial
  | some one =>
    simp only
    have e1 : emb one = 1 := by rw [he.exact 1 one h1, map_one]
    have hsim := act_sim he ma k one
    rw [e1] at hsim
    unfold LC.applyTerm
    rcases hr : act ma k one with (_ | _) | (_ | ⟨i, x⟩)
    · rw [hr] at hsim
      have hsim : ma.act k (1 : R) = .ub := hsim
      rw [hsim]; rfl
    · trivial
    · rw [hr] at hsim
      have hsim : ma.act k (1 : R) = .zero := hsim
      rw [hsim]; rfl
    · rw [hr] at hsim
      have hsim : ma.act k (1 : R) = .nonzero i (emb x) := hsim
      rw [hsim]
      simp only
      rw [← map_mul, ← hs, updateAdd_mapTo]
      cases hu : StateVec.updateAdd w i ((c * x) • a) with
      | error e => rfl
      | ok w1 => rfl

theorem applyTerms_sim (k : Nat) (a : T) (acts : List (MonomialAction × S)) (w : DenseSV T) :
    SimW j (applyTerms k a acts w) (LC.applyTerms k (j a) (acts.map fun p => (p.1, emb p.2)) (w.mapTo j)) := by
  induction acts generalizing w with
  | nil => rfl
  | cons p acts ih =>
    have h1 := applyTerm_sim he hj hs k a p.1 p.2 w
    rw [applyTerms, List.map_cons, LC.applyTerms]
    rcases h : applyTerm k a p.1 p.2 w with (x | _) | w1
    · rw [h] at h1
      have h1 : LC.applyTerm k (j a) p.1 (emb p.2) (w.mapTo j) = .error x := h1
      rw [h1]; rfl
    · trivial
    · rw [h] at h1
      have h1 : LC.applyTerm k (j a) p.1 (emb p.2) (w.mapTo j) = .ok (w1.mapTo j) := h1
      rw [h1]; exact ih w1

theorem applyAll_sim (acts : List (MonomialAction × S)) (l : List (Nat × T)) (w : DenseSV T) :
    SimW j (applyAll acts l w) (LC.applyAll (acts.map fun p => (p.1, emb p.2)) (l.map fun p => (p.1, j p.2)) (w.mapTo j)) := by
  induction l generalizing w with
  | nil => rfl
  | cons p l ih =>
    have h1 := applyTerms_sim he hj hs p.1 p.2 acts w
    rw [applyAll, List.map_cons, LC.applyAll]
    rcases h : applyTerms p.1 p.2 acts w with (x | _) | w1
    · rw [h] at h1
      have h1 : LC.applyTerms p.1 (j p.2) (acts.map fun p => (p.1, emb p.2)) (w.mapTo j) = .error x := h1
      rw [h1]; rfl
    · trivial
    · rw [h] at h1
      have h1 : LC.applyTerms p.1 (j p.2) (acts.map fun p => (p.1, emb p.2)) (w.mapTo j) = .ok (w1.mapTo j) := h1
      rw [h1]; exact ih w1

/-- The operator with coefficients read in the larger type. -/
def _root_.LC.LOperator.mapTo (emb : S →+* R) (op : LOperator S) : LOperator R := ⟨op.actions.map fun p => (p.1, emb p.2)⟩

theorem actImpl_sim (op : LOperator S) (v w : DenseSV T) :
    SimW j (actImpl op v w) ((op.mapTo emb).actImpl (v.mapTo j) (w.mapTo j)) := by
  show SimW j (applyAll op.actions (DenseSV.foreachFrom 0 v.data) w) (LC.applyAll _ (DenseSV.foreachFrom 0 (v.data.map j)) _)
  rw [foreachFrom_mapTo hj]
  exact applyAll_sim he hj hs _ _ _

end dense

omit he in
theorem make_mapTo [LinearOrder ι] (hsp : HilbertSpace ι) (e : Expr (Gen ι) S) :
    LOperator.make (⟨e.terms.map fun p => (p.1, emb p.2)⟩ : Expr (Gen ι) R) hsp = (LOperator.make e hsp).map (LOperator.mapTo emb) := by
  have key : ∀ l : List (List (Gen ι) × S), LOperator.makeLoop hsp (l.map fun p => (p.1, emb p.2))
      = (LOperator.makeLoop hsp l).map (List.map fun p => (p.1, emb p.2)) := by
    intro l
    induction l with
    | nil => rfl
    | cons p l ih =>
      obtain ⟨m, f⟩ := p
      simp only [List.map_cons, LOperator.makeLoop, ih]
      cases MonomialAction.make m hsp with
      | error e => rfl
      | ok a => cases LOperator.makeLoop hsp l <;> rfl
  simp only [LOperator.make, key]
  cases LOperator.makeLoop hsp e.terms <;> rfl

/-! ### Where nothing is thrown -/

section safe
open HilbertSpace
variable [LinearOrder ι] {hsp : HilbertSpace ι}

omit he

omit [CommRing S] in
theorem mulConst_safe [CommRing S] (h : HasInt S) (c : S) (z : ℤ) : ∃ y, mulConst c (z : ℝ) = .ok y := by
  obtain ⟨s, hz⟩ := h z
  exact ⟨c * s, by unfold mulConst; rw [hz]⟩

theorem fermionAct_safe (h : HasInt S) (a : FermionAction) (i : Nat) (c : S) : fermionAct a i c ≠ .error .thrown := by
  unfold fermionAct
  split_ifs with h1 h2
  · simp
  · simp
  · simp only
    split_ifs with h3 h4
    · simp
    · obtain ⟨y, hy⟩ := mulConst_safe h c (-1)
      have : ((-1 : ℤ) : ℝ) = -1 := by norm_num
      rw [this] at hy
      rw [hy]; simp
    · simp

/-- The table holds square roots. -/
def RootTable (tab : List ℝ) : Prop := ∀ n r, sqrRoot tab n = some r → r = Real.sqrt n

theorem rootTable_make (size : Nat) : RootTable (makeSqrRoots size) := by
  intro n r h
  unfold sqrRoot makeSqrRoots at h
  split at h
  · rw [List.getElem?_map] at h
    cases hx : (List.range (min size maxNumPrecomputedSqrt))[n]? with
    | none => rw [hx] at h; cases h
    | some k =>
      rw [hx] at h
      cases h
      obtain ⟨_, h2⟩ := List.getElem?_eq_some_iff.1 hx
      simp at h2; rw [h2]
  · cases h; rfl

theorem rootTable_nil : RootTable [] := by
  intro n r h
  unfold sqrRoot at h
  split at h
  · simp at h
  · cases h; rfl

theorem mulRoots_safe (h : HasInt S) {tab : List ℝ} (ht : RootTable tab) (l : List Nat) (hl : ∀ n ∈ l, n ≤ 1) (c : S) :
    mulRoots tab l c ≠ .error .thrown := by
  induction l generalizing c with
  | nil => simp [mulRoots]
  | cons n l ih =>
    rw [mulRoots]
    cases hr : sqrRoot tab n with
    | none => simp
    | some r =>
      have h0 := ht n r hr
      have hr : ∃ z : ℤ, r = z := by
        have := hl n (by simp)
        interval_cases n
        · exact ⟨0, by simp [h0]⟩
        · exact ⟨1, by simp [h0]⟩
      obtain ⟨z, rfl⟩ := hr
      obtain ⟨y, hy⟩ := mulConst_safe h c z
      simp only
      rw [hy]
      exact ih (fun n hn => hl n (by simp [hn])) y

/-- An update that multiplies by integers only. -/
def SafeUpdate (u : SpinUpdate) : Prop :=
  match u.c with
  | .z => u.s2 % 2 = 0
  | _ => u.s2 = 1 ∧ 1 ≤ u.power ∧ ∀ s, (s >>> u.shift) &&& u.mask ≤ 1

theorem spinActLoop_safe (h : HasInt S) {tab : List ℝ} (ht : RootTable tab) (us : List SpinUpdate) (hu : ∀ u ∈ us, SafeUpdate u)
    (i : Nat) (c : S) : spinActLoop tab us i c ≠ .error .thrown := by
  induction us generalizing i c with
  | nil => simp [spinActLoop]
  | cons u us ih =>
    have h0 := hu u (by simp)
    have ih := ih fun u hu' => hu u (by simp [hu'])
    unfold spinActLoop
    simp only
    unfold SafeUpdate at h0
    cases hcomp : u.c with
    | plus =>
      rw [hcomp] at h0
      obtain ⟨h1, h2, h3⟩ := h0
      have h3 := h3 i
      simp only
      split_ifs with h4
      · simp
      · have hm := mulRoots_safe h ht ((List.range u.power).map fun d : Nat =>
            mul64 (sub64 u.s2 ((i >>> u.shift &&& u.mask) + d)) ((i >>> u.shift &&& u.mask) + d + 1)) (by
          intro n hn
          obtain ⟨d, hd, rfl⟩ := List.mem_map.1 hn
          have hd := List.mem_range.1 hd
          rw [h1] at h4 ⊢
          have e1 : (i >>> u.shift &&& u.mask) + d = 0 := by omega
          rw [e1]; decide +kernel) c
        cases hr : mulRoots tab _ c with
        | error e => cases e with
          | ub => simp
          | thrown => exact absurd hr hm
        | ok y => exact ih _ _
    | minus =>
      rw [hcomp] at h0
      obtain ⟨h1, h2, h3⟩ := h0
      have h3 := h3 i
      simp only
      split_ifs with h4
      · simp
      · have hm := mulRoots_safe h ht ((List.range u.power).map fun d : Nat =>
            mul64 (add64 (sub64 u.s2 ((i >>> u.shift &&& u.mask) - d)) 1) ((i >>> u.shift &&& u.mask) - d)) (by
          intro n hn
          obtain ⟨d, hd, rfl⟩ := List.mem_map.1 hn
          have hd := List.mem_range.1 hd
          rw [h1]
          have e1 : (i >>> u.shift &&& u.mask) - d = 1 := by omega
          rw [e1]; decide +kernel) c
        cases hr : mulRoots tab _ c with
        | error e => cases e with
          | ub => simp
          | thrown => exact absurd hr hm
        | ok y => exact ih _ _
    | z =>
      rw [hcomp] at h0
      simp only at h0 ⊢
      split_ifs with h4
      · simp
      · have hx : ((((i >>> u.shift) &&& u.mask : Nat) : ℝ) - (u.s2 : ℝ) / 2) ^ u.power
            = (((((i >>> u.shift) &&& u.mask : Nat) : ℤ) - ((u.s2 / 2 : Nat) : ℤ)) ^ u.power : ℤ) := by
          have : (u.s2 : ℝ) / 2 = ((u.s2 / 2 : Nat) : ℝ) := by
            obtain ⟨k, hk⟩ := Nat.dvd_of_mod_eq_zero h0
            rw [hk]; simp
          rw [this]; push_cast; rfl
        rw [hx]
        obtain ⟨y, hy⟩ := mulConst_safe h c (((((i >>> u.shift) &&& u.mask : Nat) : ℤ) - ((u.s2 / 2 : Nat) : ℤ)) ^ u.power)
        rw [hy]
        exact ih _ _

theorem one_bit (hc : Constructed hsp) {i : ι} {f nb : Nat} (h : Loc hsp (Mode.spin 2 i).space f nb 2) : nb ≤ 1 := by
  obtain ⟨e, he, hk, hd, hn⟩ := h.mem
  obtain ⟨l, hf, rfl⟩ := hc.canon
  have hw : e.Wf := by
    have : e ∈ (canon l).spaces.map (·.1) := List.mem_map.2 ⟨_, he, rfl⟩
    rw [canon_spaces, layout_fst] at this
    exact hf.wf _ this
  by_contra hlt
  have := hw.lt_dim (by omega)
  rw [hd, hn] at this
  have h2 : 2 ^ 1 ≤ 2 ^ (nb - 1) := Nat.pow_le_pow_right (by norm_num) (by omega)
  omega

theorem repS_safe (hc : Constructed hsp) {size : Nat} {us : List SpinUpdate} {m : List (Gen ι)} (hr : RepS hsp size us m)
    (hm : ∀ g ∈ m, IntegerElements g) : ∀ u ∈ us, SafeUpdate u := by
  induction hr with
  | nil => simp
  | @snoc us m mult c i p f nb hr hl hlt hp hsz ih =>
    intro u hu
    rcases List.mem_append.1 hu with h | h
    · exact ih (fun g hg => hm g (by simp [hg])) u h
    · have h : u = _ := List.mem_singleton.1 h
      have hg := hm (.spin mult c i) (by
        refine List.mem_append_right _ (List.mem_replicate.2 ⟨by omega, rfl⟩))
      subst h
      unfold SafeUpdate
      have key : mult = 2 → mult - 1 = 1 ∧ 1 ≤ p ∧ ∀ s, (s >>> f) &&& sub64 (pow2 nb) 1 ≤ 1 := by
        intro h2
        subst h2
        have hnb := one_bit hc hl
        refine ⟨rfl, hp, fun s => ?_⟩
        have : sub64 (pow2 nb) 1 ≤ 1 := by
          interval_cases nb
          · decide +kernel
          · decide +kernel
        exact (Nat.and_le_right).trans this
      cases c with
      | plus => exact key (by simpa [IntegerElements] using hg)
      | minus => exact key (by simpa [IntegerElements] using hg)
      | z =>
        have hg : mult % 2 = 1 := by simpa [IntegerElements] using hg
        show (mult - 1) % 2 = 0
        omega

theorem act_safe (h : HasInt S) (hc : Constructed hsp) (hpre : PredefinedSpaces hsp) {m : List (Gen ι)} (hm : CanonicalMonomial m)
    (hi : ∀ g ∈ m, IntegerElements g) {a : MonomialAction} (ha : MonomialAction.make m hsp = .ok a) (s : Nat) (c : S) :
    act a s c ≠ .error .thrown := by
  obtain ⟨f, b, sp, rfl, hf, hb, hsp⟩ := hm
  have hb0 : b = [] := by
    cases b with
    | nil => rfl
    | cons g b =>
      have h1 := hb g (by simp)
      have h2 := hi g (by simp)
      cases g <;> simp [Gen.algebraId, IntegerElements] at h1 h2
  subst hb0
  have hfa := canonicalFermions_algebra hf
  unfold MonomialAction.make at ha
  rw [List.append_nil, findSubrange_append (-3) f sp hfa (by intro g hg; rw [hsp g hg]; decide)] at ha
  simp only at ha
  split at ha
  · simp at ha
  · next fa hfm =>
    have := findSubrange_append (-2) [] sp (by simp) (by intro g hg; rw [hsp g hg]; decide)
    rw [List.nil_append] at this
    rw [this] at ha
    simp only at ha
    split at ha
    · simp at ha
    · next ba hbm =>
      split at ha
      · simp at ha
      · next sa hsm =>
        cases ha
        have hbm : ba = ⟨[], [], false⟩ := by
          unfold BosonAction.make at hbm
          rw [bosonLoop] at hbm
          cases hbm; rfl
        subst hbm
        unfold act andThen
        simp only
        have hs : ∀ i (c : S), spinAct sa i c ≠ .error .thrown := by
          intro i c
          unfold spinAct
          have hsm0 := hsm
          unfold SpinAction.make at hsm
          cases sp with
          | nil => rw [spinLoop] at hsm; cases hsm; simp [spinActLoop]
          | cons g l =>
            obtain ⟨⟨size, h2, h3⟩, _⟩ := spinLoop_spec hc hpre (g :: l) 1 0 [] [] sa .nil le_rfl hsm
            have hR := h3 g l rfl
            simp only [List.nil_append, Nat.sub_self, List.replicate_zero] at hR
            have hu := repS_safe hc hR (fun g hg => hi g (by simp at hg ⊢; tauto))
            refine spinActLoop_safe h ?_ _ (fun u hu' => hu u (List.mem_reverse.1 hu')) i c
            rw [h2]
            split_ifs
            · exact rootTable_nil
            · exact rootTable_make _
        have hF := fermionAct_safe h fa s c
        rcases hr : fermionAct fa s c with (_ | _) | (_ | ⟨i, c1⟩)
        · simp
        · exact absurd hr hF
        · simp
        · simp only [bosonAct, bosonActLoop, List.reverse_nil, Bool.false_eq_true, if_false]
          exact hs _ _

variable [AddCommMonoid T] [Module S T] [DecidableEq T]

theorem applyTerms_safe (h : HasInt S) (k : Nat) (a : T) (acts : List (MonomialAction × S))
    (hacts : ∀ p ∈ acts, ∀ (s : Nat) (c : S), act p.1 s c ≠ .error .thrown) (w : DenseSV T) :
    applyTerms k a acts w ≠ .error .thrown := by
  induction acts generalizing w with
  | nil => simp [applyTerms]
  | cons p acts ih =>
    rw [applyTerms]
    have ih := ih fun p hp => hacts p (by simp [hp])
    have h1 : applyTerm k a p.1 p.2 w ≠ .error .thrown := by
      unfold applyTerm
      obtain ⟨one, h1⟩ := h 1
      rw [Int.cast_one] at h1
      rw [h1]
      simp only
      have h2 := hacts p (by simp) k one
      rcases hr : act p.1 k one with (_ | _) | (_ | ⟨i, x⟩)
      · simp
      · exact absurd hr h2
      · simp
      · simp only
        cases StateVec.updateAdd w i ((p.2 * x) • a) <;> simp
    cases hr : applyTerm k a p.1 p.2 w with
    | error e => simp only; intro he; cases he; exact h1 hr
    | ok w1 => exact ih w1

theorem applyAll_safe (h : HasInt S) (acts : List (MonomialAction × S))
    (hacts : ∀ p ∈ acts, ∀ (s : Nat) (c : S), act p.1 s c ≠ .error .thrown) (l : List (Nat × T)) (w : DenseSV T) :
    applyAll acts l w ≠ .error .thrown := by
  induction l generalizing w with
  | nil => simp [applyAll]
  | cons p l ih =>
    rw [applyAll]
    have h1 := applyTerms_safe h p.1 p.2 acts hacts w
    cases hr : applyTerms p.1 p.2 acts w with
    | error e => simp only; intro he; cases he; exact h1 hr
    | ok w1 => exact ih w1

theorem make_actions {e : Expr (Gen ι) S} {op : LOperator S} (hop : LOperator.make e hsp = .ok op) :
    ∀ p ∈ op.actions, ∃ q ∈ e.terms, MonomialAction.make q.1 hsp = .ok p.1 := by
  have key : ∀ (l : List (List (Gen ι) × S)) (r : List (MonomialAction × S)), LOperator.makeLoop hsp l = .ok r →
      ∀ p ∈ r, ∃ q ∈ l, MonomialAction.make q.1 hsp = .ok p.1 := by
    intro l
    induction l with
    | nil => intro r h p hp; cases h; simp at hp
    | cons q l ih =>
      obtain ⟨m, f⟩ := q
      intro r h p hp
      rw [LOperator.makeLoop] at h
      cases h1 : MonomialAction.make m hsp with
      | error e => rw [h1] at h; cases h
      | ok a =>
        rw [h1] at h
        simp only at h
        cases h2 : LOperator.makeLoop hsp l with
        | error e => rw [h2] at h; cases h
        | ok r' =>
          rw [h2] at h
          cases h
          rcases List.mem_cons.1 hp with rfl | hp
          · exact ⟨(m, f), by simp, h1⟩
          · obtain ⟨q, hq, hq'⟩ := ih r' h2 p hp
            exact ⟨q, by simp [hq], hq'⟩
  unfold LOperator.make at hop
  cases h2 : LOperator.makeLoop hsp e.terms with
  | error e => rw [h2] at hop; cases hop
  | ok r => rw [h2] at hop; cases hop; exact key _ _ h2

theorem actImpl_safe (h : HasInt S) (hc : Constructed hsp) (hpre : PredefinedSpaces hsp) {e : Expr (Gen ι) S} {op : LOperator S}
    (hop : LOperator.make e hsp = .ok op) (he : ∀ p ∈ e.terms, CanonicalMonomial p.1 ∧ ∀ g ∈ p.1, IntegerElements g)
    (v w : DenseSV T) : actImpl op v w ≠ .error .thrown := by
  show applyAll op.actions (DenseSV.foreachFrom 0 v.data) w ≠ _
  refine applyAll_safe h _ (fun p hp s c => ?_) _ _
  obtain ⟨q, hq, hm⟩ := make_actions hop p hp
  exact act_safe h hc hpre (he q hq).1 (he q hq).2 hm s c

end safe

end Thr
end LC
