import Verif.Model.Concurrent
import Verif.Proof.HSBuild
import Verif.Proof.DisjointSets
/-
Iterations over Hilbert spaces by several threads.
-/
set_option linter.unusedSectionVars false
set_option linter.unusedSimpArgs false
set_option linter.unusedVariables false
namespace LC.Conc

/-- Invariants of executions. -/
theorem exec_inv {M L : Type _} (p : Nat → Prog M L) (I : M × (Nat → L) → Prop) (hstep : ∀ s t, I s → I (stepThread p s t))
    (sched : List Nat) (s : M × (Nat → L)) (h : I s) : I (exec p sched s) := by
  induction sched generalizing s with
  | nil => exact h
  | cons t l ih => exact ih _ (hstep s t h)

/-- A quantity that a thread decreases by each of its steps and the other threads leave alone: with enough steps in the schedule
the thread has ended. -/
theorem exec_measure {M L : Type _} (p : Nat → Prog M L) (I : M × (Nat → L) → Prop) (hstep : ∀ s t, I s → I (stepThread p s t))
    (t : Nat) (fin : L → Prop) (hfin : ∀ m l, p t m l = none ↔ fin l)
    (μ : L → Nat) (hown : ∀ s m l, I s → p t s.1 (s.2 t) = some (m, l) → μ l < μ (s.2 t))
    (sched : List Nat) (s : M × (Nat → L)) (h : I s) (hlen : μ (s.2 t) ≤ sched.count t) : fin ((exec p sched s).2 t) := by
  have key : ∀ (sched : List Nat) (s : M × (Nat → L)), I s →
      fin ((exec p sched s).2 t) ∨ μ ((exec p sched s).2 t) + sched.count t ≤ μ (s.2 t) := by
    intro sched
    induction sched using List.reverseRecOn with
    | nil => intro s h; right; simp [exec]
    | append_singleton l u ih =>
      intro s h
      have e : exec p (l ++ [u]) s = stepThread p (exec p l s) u := by simp [exec]
      have hI := exec_inv p I hstep l s h
      rw [e]
      by_cases hu : u = t
      · subst hu
        cases hp : p u (exec p l s).1 ((exec p l s).2 u) with
        | none => left; simp only [stepThread, hp]; exact (hfin _ _).1 hp
        | some r =>
          obtain ⟨m, l'⟩ := r
          right
          simp only [stepThread, hp, Function.update_self, List.count_append, List.count_singleton_self]
          have h1 := hown _ m l' hI hp
          rcases ih s h with h2 | h2
          · rw [(hfin _ _).2 h2] at hp; cases hp
          · omega
      · have hloc : (stepThread p (exec p l s) u).2 t = (exec p l s).2 t := by
          unfold stepThread
          split
          · rfl
          · simp [Function.update_of_ne (Ne.symm hu)]
        rw [hloc]
        have hc : (l ++ [u]).count t = l.count t := by simp [List.count_append, List.count_singleton, hu]
        rw [hc]
        exact ih s h
  rcases key sched s h with h1 | h1
  · exact h1
  · by_contra hn
    cases hp : p t (exec p sched s).1 ((exec p sched s).2 t) with
    | none => exact hn ((hfin _ _).1 hp)
    | some r =>
      have := hown _ r.1 r.2 (exec_inv p I hstep sched s h) (by rw [hp])
      omega

/-! ### The sparse iteration -/

open SparseForeach in
/-- The calls still to come plus the calls made, if the thread is left alone with `indices_`. -/
def FOk (a : SparseForeach) (ind : List Nat) (l : FLocal) (full : List Nat) : Prop :=
  ind.length = a.sizes.length ∧
  match l.pc with
  | .fill d => l.log = [] ∧ d ≤ ind.length ∧ (∀ j < d, ind[j]? = some 0) ∧ full = (a.run fun _ ind => ind).1
  | .test => l.i ≤ a.nStates ∧ full = l.log ++ (loop a (fun _ ind => ind) (a.nStates - l.i) ind l.state).1
  | .inc => l.i < a.nStates ∧ full = l.log ++
      (loop a (fun _ ind => ind) (a.nStates - l.i - 1) (carry (incHead ind) a.sizes a.jumps (add64 l.state 1)).1
        (carry (incHead ind) a.sizes a.jumps (add64 l.state 1)).2).1
  | .cond d => l.i < a.nStates ∧ d < ind.length ∧ full = l.log ++
      (loop a (fun _ ind => ind) (a.nStates - l.i - 1)
        (ind.take d ++ (carry (ind.drop d) (a.sizes.drop d) (a.jumps.drop d) l.state).1)
        (carry (ind.drop d) (a.sizes.drop d) (a.jumps.drop d) l.state).2).1
  | .store d => l.i < a.nStates ∧ d + 1 < ind.length ∧ full = l.log ++
      (loop a (fun _ ind => ind) (a.nStates - l.i - 1)
        (((ind.set d 0).modify (d + 1) (· + 1)).take (d + 1) ++
          (carry (((ind.set d 0).modify (d + 1) (· + 1)).drop (d + 1)) (a.sizes.drop (d + 1)) (a.jumps.drop (d + 1))
            (add64 l.state (a.jumps.getD d 0))).1)
        (carry (((ind.set d 0).modify (d + 1) (· + 1)).drop (d + 1)) (a.sizes.drop (d + 1)) (a.jumps.drop (d + 1))
            (add64 l.state (a.jumps.getD d 0))).2).1
  | .carry d => l.i < a.nStates ∧ d + 1 < ind.length ∧ full = l.log ++
      (loop a (fun _ ind => ind) (a.nStates - l.i - 1)
        ((ind.modify (d + 1) (· + 1)).take (d + 1) ++
          (carry ((ind.modify (d + 1) (· + 1)).drop (d + 1)) (a.sizes.drop (d + 1)) (a.jumps.drop (d + 1))
            (add64 l.state (a.jumps.getD d 0))).1)
        (carry ((ind.modify (d + 1) (· + 1)).drop (d + 1)) (a.sizes.drop (d + 1)) (a.jumps.drop (d + 1))
            (add64 l.state (a.jumps.getD d 0))).2).1
  | .done => l.log = full

/-- Number of steps still needed. -/
def fMeasure (len nStates : Nat) (l : FLocal) : Nat :=
  let w := 3 * len + 4
  match l.pc with
  | .fill d => (len - d) + nStates * w + 2
  | .test => (nStates - l.i) * w + 1
  | .inc => (nStates - l.i - 1) * w + 3 * len + 4
  | .cond d => (nStates - l.i - 1) * w + 3 * (len - d) + 3
  | .store d => (nStates - l.i - 1) * w + 3 * (len - d) + 2
  | .carry d => (nStates - l.i - 1) * w + 3 * (len - d) + 1
  | .done => 0

theorem set_modify (pre : List Nat) (x y : Nat) (post : List Nat) :
    ((pre ++ x :: y :: post).set pre.length 0).modify (pre.length + 1) (· + 1) = pre ++ 0 :: (y + 1) :: post := by
  induction pre with
  | nil => rfl
  | cons z pre ih => simpa [List.modify_succ_cons] using ih

theorem FOk.step {a : SparseForeach} (hj : a.jumps.length + 1 = a.sizes.length) {ind : List Nat} {l : FLocal} {full : List Nat}
    (h : FOk a ind l full) {r : List Nat × FLocal} (hr : sparseStep a ind l = some r) :
    FOk a r.1 r.2 full ∧ fMeasure a.sizes.length a.nStates r.2 < fMeasure a.sizes.length a.nStates l := by
  obtain ⟨hlen, h⟩ := h
  obtain ⟨pc, i, state, log⟩ := l
  cases pc with
  | fill d =>
    obtain ⟨h1, h2, h3, h4⟩ := h
    simp only [sparseStep] at hr
    split at hr
    · next hd =>
      cases hr
      refine ⟨⟨by simpa using hlen, h1, by simp; omega, fun j hj => ?_, h4⟩, ?_⟩
      · simp only [List.getElem?_set]
        by_cases hjd : d = j
        · subst hjd; simp [hd]
        · rw [if_neg hjd]; exact h3 j (by omega)
      · simp only [fMeasure]; omega
    · next hd =>
      cases hr
      refine ⟨⟨hlen, Nat.zero_le _, ?_⟩, ?_⟩
      · simp only at h1 ⊢
        rw [h1, h4, List.nil_append, Nat.sub_zero]
        unfold SparseForeach.run
        have : ind = List.replicate a.sizes.length 0 := by
          apply List.ext_getElem?
          intro j
          rw [List.getElem?_replicate]
          split
          · next hj' => exact h3 j (by omega)
          · next hj' => exact List.getElem?_eq_none (by omega)
        rw [← this]
      · simp only [fMeasure, Nat.sub_zero]; omega
  | test =>
    obtain ⟨h1, h2⟩ := h
    simp only [sparseStep] at hr
    simp only at h1 h2
    split at hr
    · next hd =>
      cases hr
      refine ⟨⟨hlen, hd, ?_⟩, ?_⟩
      · rw [h2]
        obtain ⟨n, hn⟩ : ∃ n, a.nStates - i = n + 1 := ⟨a.nStates - i - 1, by omega⟩
        simp only [hn, SparseForeach.loop, Nat.add_sub_cancel, List.append_assoc, List.singleton_append]
      · simp only [fMeasure]
        obtain ⟨n, hn⟩ : ∃ n, a.nStates - i = n + 1 := ⟨a.nStates - i - 1, by omega⟩
        rw [hn, Nat.add_sub_cancel, Nat.add_mul]; omega
    · next hd =>
      cases hr
      refine ⟨⟨hlen, ?_⟩, ?_⟩
      · have : a.nStates - i = 0 := by omega
        rw [this] at h2
        simpa [SparseForeach.loop] using h2.symm
      · simp only [fMeasure]; omega
  | inc =>
    obtain ⟨h1, h2⟩ := h
    simp only [sparseStep] at hr
    simp only at h1 h2
    cases hr
    have hpos : 0 < ind.length := by omega
    have e : ind.modify 0 (· + 1) = SparseForeach.incHead ind := by
      cases ind with
      | nil => simp at hpos
      | cons x xs => rfl
    refine ⟨⟨by simpa using hlen, h1, by simpa using hpos, ?_⟩, ?_⟩
    · rw [h2]; simp only [e, List.take_zero, List.drop_zero, List.nil_append]
    · simp only [fMeasure]; omega
  | cond d =>
    obtain ⟨h1, h2, h3⟩ := h
    simp only [sparseStep] at hr
    simp only at h1 h2 h3
    split at hr
    · next hd =>
      cases hr
      obtain ⟨hd1, hd2⟩ := hd
      refine ⟨⟨hlen, h1, hd1, ?_⟩, ?_⟩
      · rw [h3]
        have hsz : d < a.sizes.length := by omega
        have hjp : d < a.jumps.length := by omega
        have e1 : ind.drop d = ind[d] :: ind[d + 1] :: ind.drop (d + 2) := by
          rw [List.drop_eq_getElem_cons (by omega), List.drop_eq_getElem_cons (by omega)]
        have e2 : a.sizes.drop d = a.sizes[d] :: a.sizes.drop (d + 1) := by rw [List.drop_eq_getElem_cons hsz]
        have e3 : a.jumps.drop d = a.jumps[d] :: a.jumps.drop (d + 1) := by rw [List.drop_eq_getElem_cons hjp]
        have e4 : ind[d] = a.sizes[d] := by
          rw [List.getElem?_eq_getElem h2, List.getElem?_eq_getElem hsz] at hd2
          exact Option.some.inj hd2
        have e5 : a.jumps.getD d 0 = a.jumps[d] := by simp [List.getD_eq_getElem?_getD, hjp]
        have e8 : (ind.set d 0).modify (d + 1) (· + 1) = ind.take d ++ 0 :: (ind[d + 1] + 1) :: ind.drop (d + 2) := by
          have := set_modify (ind.take d) ind[d] ind[d + 1] (ind.drop (d + 2))
          rw [← e1, List.take_append_drop, List.length_take, Nat.min_eq_left (by omega)] at this
          exact this
        have hld : (ind.take d).length = d := by rw [List.length_take]; omega
        have e6 : ((ind.set d 0).modify (d + 1) (· + 1)).take (d + 1) = ind.take d ++ [0] := by
          rw [e8, List.take_append, hld]
          simp
        have e7 : ((ind.set d 0).modify (d + 1) (· + 1)).drop (d + 1) = (ind[d + 1] + 1) :: ind.drop (d + 2) := by
          rw [e8, List.drop_append, hld]
          simp
        simp only [e6, e7]
        rw [e1, e2, e3, e5]
        simp only [SparseForeach.carry, if_pos e4, List.append_assoc, List.singleton_append]
      · simp only [fMeasure]; omega
    · next hd =>
      cases hr
      refine ⟨⟨hlen, h1, ?_⟩, ?_⟩
      · rw [h3]
        have hc : SparseForeach.carry (ind.drop d) (a.sizes.drop d) (a.jumps.drop d) state = (ind.drop d, state) := by
          by_cases hd1 : d + 1 < ind.length
          · have hsz : d < a.sizes.length := by omega
            have hjp : d < a.jumps.length := by omega
            have e1 : ind.drop d = ind[d] :: ind[d + 1] :: ind.drop (d + 2) := by
              rw [List.drop_eq_getElem_cons (by omega), List.drop_eq_getElem_cons (by omega)]
            have e2 : a.sizes.drop d = a.sizes[d] :: a.sizes.drop (d + 1) := by rw [List.drop_eq_getElem_cons hsz]
            have e3 : a.jumps.drop d = a.jumps[d] :: a.jumps.drop (d + 1) := by rw [List.drop_eq_getElem_cons hjp]
            have e4 : ind[d] ≠ a.sizes[d] := fun hc => hd ⟨hd1, by
              rw [List.getElem?_eq_getElem h2, List.getElem?_eq_getElem hsz, hc]⟩
            rw [e1, e2, e3]
            simp only [SparseForeach.carry, if_neg e4]
          · have : ind.drop d = [ind[d]] := by
              rw [List.drop_eq_getElem_cons h2, List.drop_eq_nil_of_le (by omega)]
            rw [this]; simp [SparseForeach.carry]
        rw [hc]
        simp only [List.take_append_drop]
        rw [Nat.sub_sub]
      · simp only [fMeasure]
        rw [Nat.sub_sub]; omega
  | store d =>
    obtain ⟨h1, h2, h3⟩ := h
    simp only [sparseStep] at hr
    cases hr
    refine ⟨⟨by simpa using hlen, h1, by simpa using h2, h3⟩, ?_⟩
    simp only [fMeasure]; omega
  | carry d =>
    obtain ⟨h1, h2, h3⟩ := h
    simp only [sparseStep] at hr
    cases hr
    refine ⟨⟨by simpa using hlen, h1, by simpa using h2, h3⟩, ?_⟩
    simp only [fMeasure]; omega
  | done => simp [sparseStep] at hr

theorem FOk.start (a : SparseForeach) (ind : List Nat) (h : ind.length = a.sizes.length) :
    FOk a ind fStart (a.run fun _ ind => ind).1 := ⟨h, rfl, Nat.zero_le _, by simp, rfl⟩

theorem FOk.pref {a : SparseForeach} {ind : List Nat} {l : FLocal} {full : List Nat} (h : FOk a ind l full) : l.log <+: full := by
  obtain ⟨_, h⟩ := h
  obtain ⟨pc, i, state, log⟩ := l
  cases pc with
  | fill d => obtain ⟨h1, _⟩ := h; simp only at h1; rw [h1]; exact List.nil_prefix
  | test => rw [h.2]; exact List.prefix_append _ _
  | inc => rw [h.2]; exact List.prefix_append _ _
  | cond d => rw [h.2.2]; exact List.prefix_append _ _
  | store d => rw [h.2.2]; exact List.prefix_append _ _
  | carry d => rw [h.2.2]; exact List.prefix_append _ _
  | done => rw [h]

theorem initJumps_length (s : Nat) (l : List Nat) (h : l ≠ []) : (SparseForeach.initJumps s l).length + 1 = l.length := by
  induction l generalizing s with
  | nil => exact (h rfl).elim
  | cons x l ih =>
    cases l with
    | nil => rfl
    | cons y l =>
      have := ih (s := mul64 s (nextPow2Portable x)) (by simp)
      simp only [SparseForeach.initJumps, List.length_cons] at this ⊢
      omega

/-- In a Hilbert space the tables of the iteration have matching lengths. -/
theorem canon_tables {ι : Type _} [LinearOrder ι] {hs : HilbertSpace ι} (hc : Constructed hs) {a : SparseForeach}
    (ha : hs.foreachAlg = some a) : a.jumps.length + 1 = a.sizes.length := by
  obtain ⟨l, _, rfl⟩ := hc.canon
  unfold HilbertSpace.canon HilbertSpace.initForeach at ha
  simp only at ha
  split at ha
  · cases ha
  · next h =>
    cases ha
    simp only [SparseForeach.make]
    exact initJumps_length _ _ (by intro hn; rw [hn] at h; simp at h)

/-! ### The simple loop -/

def DOk (dim : Nat) (l : FLocal) : Prop := l.i ≤ dim ∧ l.log = List.range l.i ∧ (l.pc = .done → l.i = dim)

def dMeasure (dim : Nat) (l : FLocal) : Nat := if l.pc = .done then 0 else dim - l.i + 1

theorem DOk.step {dim : Nat} {l l' : FLocal} (h : DOk dim l) (hr : denseStep dim l = some l') :
    DOk dim l' ∧ dMeasure dim l' < dMeasure dim l := by
  obtain ⟨pc, i, state, log⟩ := l
  obtain ⟨h1, h2, h3⟩ := h
  simp only at h1 h2 h3
  have hnd : pc ≠ .done := by rintro rfl; simp [denseStep] at hr
  have hr' : (if i < dim then some (⟨pc, i + 1, state, log ++ [i]⟩ : FLocal) else some ⟨.done, i, state, log⟩) = some l' := by
    cases pc <;> simp_all [denseStep]
  split at hr'
  · next hd =>
    cases hr'
    refine ⟨⟨hd, ?_, fun hc => (hnd hc).elim⟩, ?_⟩
    · rw [h2, List.range_succ]
    · simp only [dMeasure, if_neg hnd]; omega
  · next hd =>
    cases hr'
    refine ⟨⟨h1, h2, fun _ => by simp only; omega⟩, ?_⟩
    simp only [dMeasure, if_neg hnd, if_true]; omega

/-! ### Application of operators -/

section
variable {S T : Type _} [CommRing S] [Algebra ℝ S] [AddCommMonoid T] [Module S T] [DecidableEq T]

/-- The result of the whole operation, expressed by what is still to be done. -/
noncomputable def oRest (acts : List (MonomialAction × S)) (src : List T) (n : Nat) (r : Except SVError (DenseSV T)) :
    Except SVError (DenseSV T) :=
  match r with
  | .error e => .error e
  | .ok d => applyAll acts (DenseSV.foreachFrom n (src.drop n)) d

/-- `full` is the result of the operation, if source and destination are left alone by the other threads. -/
def OOk (op : LOperator S) (src dst : List T) (full : Except SVError (DenseSV T)) : OPc S T → Prop
  | .zero k => k ≤ dst.length ∧ (∀ j < k, dst[j]? = some 0) ∧ full = op.applyTo (⟨src⟩ : DenseSV T) (⟨dst⟩ : DenseSV T)
  | .scan n => full = oRest op.actions src n (.ok ⟨dst⟩)
  | .terms n a l => full = oRest op.actions src (n + 1) (applyTerms n a l (⟨dst⟩ : DenseSV T))
  | .read n a l k v => full = oRest op.actions src (n + 1)
      (match DenseSV.updateAdd (⟨dst⟩ : DenseSV T) k v with
        | .error e => .error e
        | .ok d => applyTerms n a l d)
  | .write n a l k x => k < dst.length ∧ full = oRest op.actions src (n + 1) (applyTerms n a l (⟨dst.set k x⟩ : DenseSV T))
  | .failed e => full = .error e
  | .done => full = .ok ⟨dst⟩

/-- Number of steps still needed. -/
def oMeasure (nActs lsrc ldst : Nat) : OPc S T → Nat
  | .zero k => (ldst - k) + lsrc * (3 * nActs + 3) + 2
  | .scan n => (lsrc - n) * (3 * nActs + 3) + 1
  | .terms n _ l => (lsrc - (n + 1)) * (3 * nActs + 3) + 3 * l.length + 2
  | .read n _ l _ _ => (lsrc - (n + 1)) * (3 * nActs + 3) + 3 * l.length + 4
  | .write n _ l _ _ => (lsrc - (n + 1)) * (3 * nActs + 3) + 3 * l.length + 3
  | .failed _ => 0
  | .done => 0

theorem OOk.step {op : LOperator S} {m : VecMem T} {src dst : Nat} (hne : src ≠ dst) {full : Except SVError (DenseSV T)} {pc : OPc S T}
    (h : OOk op (m src) (m dst) full pc) {r : VecMem T × OPc S T} (hr : opProg op src dst m pc = some r) :
    OOk op (r.1 src) (r.1 dst) full r.2 ∧ r.1 src = m src ∧ (r.1 dst).length = (m dst).length ∧ (∀ o ≠ dst, r.1 o = m o) ∧
      oMeasure op.actions.length (m src).length (m dst).length r.2 < oMeasure op.actions.length (m src).length (m dst).length pc := by
  cases pc with
  | zero k =>
    obtain ⟨h1, h2, h3⟩ := h
    simp only [opProg] at hr
    split at hr
    · next hk =>
      cases hr
      refine ⟨⟨by simp; omega, ?_, ?_⟩, by simp [hne], by simp, fun o ho => by simp [ho], ?_⟩
      · intro j hj
        simp only [Function.update_self, List.getElem?_set]
        by_cases hjk : k = j
        · subst hjk; simp [hk]
        · rw [if_neg hjk]; exact h2 j (by omega)
      · rw [h3]
        simp only [Function.update_self, Function.update_of_ne hne]
        unfold LOperator.applyTo
        congr 1
        show DenseSV.setZeros _ = DenseSV.setZeros _
        unfold DenseSV.setZeros
        congr 1
        simp only [List.map_const', List.length_set]
      · simp only [oMeasure]; omega
    · next hk =>
      cases hr
      refine ⟨?_, rfl, rfl, fun _ _ => rfl, ?_⟩
      · show full = applyAll op.actions (DenseSV.foreachFrom 0 ((m src).drop 0)) (⟨m dst⟩ : DenseSV T)
        rw [h3, List.drop_zero]
        unfold LOperator.applyTo LOperator.actImpl
        show applyAll op.actions (DenseSV.foreachFrom 0 (m src)) (DenseSV.setZeros ⟨m dst⟩) = _
        congr 1
        unfold DenseSV.setZeros
        congr 1
        apply List.ext_getElem?
        intro j
        simp only [List.map_const', List.getElem?_replicate]
        split
        · next hj => exact (h2 j (by omega)).symm
        · next hj => exact (List.getElem?_eq_none (by omega)).symm
      · simp only [oMeasure, Nat.sub_zero]; omega
  | scan n =>
    simp only [opProg] at hr
    simp only [OOk, oRest] at h
    cases ha : (m src)[n]? with
    | none =>
      rw [ha] at hr; simp only at hr; cases hr
      refine ⟨?_, rfl, rfl, fun _ _ => rfl, ?_⟩
      · have : (m src).drop n = [] := List.drop_eq_nil_of_le (by
          rw [List.getElem?_eq_none_iff] at ha; exact ha)
        rw [this] at h
        exact h
      · simp only [oMeasure]; omega
    | some a =>
      rw [ha] at hr; simp only at hr
      have hn : n < (m src).length := by
        by_contra hc
        rw [List.getElem?_eq_none (by omega)] at ha; cases ha
      have hd : (m src).drop n = a :: (m src).drop (n + 1) := by
        rw [List.drop_eq_getElem_cons hn]
        rw [List.getElem?_eq_getElem hn] at ha
        rw [Option.some.inj ha]
      obtain ⟨w, hw⟩ : ∃ w, (m src).length - n = w + 1 := ⟨(m src).length - n - 1, by omega⟩
      rw [hd, DenseSV.foreachFrom] at h
      split at hr
      · next hz =>
        cases hr
        rw [if_pos hz] at h
        refine ⟨h, rfl, rfl, fun _ _ => rfl, ?_⟩
        simp only [oMeasure]
        rw [hw, Nat.add_mul, show (m src).length - (n + 1) = w by omega]; omega
      · next hz =>
        cases hr
        rw [if_neg hz] at h
        refine ⟨?_, rfl, rfl, fun _ _ => rfl, ?_⟩
        · simp only [OOk]
          rw [h, applyAll]
          unfold oRest
          cases applyTerms n a op.actions (⟨m dst⟩ : DenseSV T) <;> rfl
        · simp only [oMeasure]
          rw [hw, Nat.add_mul, show (m src).length - (n + 1) = w by omega]; omega
  | terms n a l =>
    cases l with
    | nil =>
      simp only [opProg] at hr
      cases hr
      refine ⟨h, rfl, rfl, fun _ _ => rfl, ?_⟩
      simp only [oMeasure, List.length_nil]; omega
    | cons p l =>
      obtain ⟨ma, c⟩ := p
      simp only [opProg] at hr
      simp only [OOk, applyTerms, applyTerm] at h
      cases hact : ma.act n (1 : S) with
      | ub =>
        rw [hact] at hr h; simp only at hr h; cases hr
        refine ⟨h, rfl, rfl, fun _ _ => rfl, ?_⟩
        simp only [oMeasure]; omega
      | zero =>
        rw [hact] at hr h; simp only at hr h; cases hr
        refine ⟨h, rfl, rfl, fun _ _ => rfl, ?_⟩
        simp only [oMeasure, List.length_cons]; omega
      | nonzero k coeff =>
        rw [hact] at hr h; simp only at hr h; cases hr
        refine ⟨?_, rfl, rfl, fun _ _ => rfl, ?_⟩
        · simp only [OOk]
          have e : StateVec.updateAdd (⟨m dst⟩ : DenseSV T) k ((c * coeff) • a) =
            DenseSV.updateAdd (⟨m dst⟩ : DenseSV T) k ((c * coeff) • a) := rfl
          rw [e] at h
          rw [h]
          cases DenseSV.updateAdd (⟨m dst⟩ : DenseSV T) k ((c * coeff) • a) <;> rfl
        · simp only [oMeasure, List.length_cons]; omega
  | read n a l k v =>
    simp only [opProg] at hr
    simp only [OOk, DenseSV.updateAdd] at h
    cases hx : (m dst)[k]? with
    | none =>
      rw [hx] at hr h; simp only at hr h; cases hr
      refine ⟨h, rfl, rfl, fun _ _ => rfl, ?_⟩
      simp only [oMeasure]; omega
    | some x =>
      rw [hx] at hr h; simp only at hr h; cases hr
      refine ⟨⟨?_, h⟩, rfl, rfl, fun _ _ => rfl, ?_⟩
      · show k < (m dst).length
        by_contra hc
        rw [List.getElem?_eq_none (by omega)] at hx; cases hx
      · simp only [oMeasure]; omega
  | write n a l k x =>
    simp only [opProg] at hr
    cases hr
    obtain ⟨h1, h2⟩ := h
    refine ⟨?_, by simp [hne], by simp, fun o ho => by simp [ho], ?_⟩
    · simp only [OOk, Function.update_self, Function.update_of_ne hne]; exact h2
    · simp only [oMeasure]; omega
  | failed e => simp [opProg] at hr
  | done => simp [opProg] at hr

theorem opProg_none {op : LOperator S} {src dst : Nat} (m : VecMem T) (pc : OPc S T) :
    opProg op src dst m pc = none ↔ pc = .done ∨ ∃ e, pc = .failed e := by
  cases pc with
  | zero k => simp only [opProg]; split <;> simp
  | scan n =>
    simp only [opProg]
    cases (m src)[n]? with
    | none => simp
    | some a => simp only; split <;> simp
  | terms n a l =>
    cases l with
    | nil => simp [opProg]
    | cons p l =>
      obtain ⟨ma, c⟩ := p
      simp only [opProg]
      cases ma.act n (1 : S) <;> simp
  | read n a l k v =>
    simp only [opProg]
    cases (m dst)[k]? <;> simp
  | write n a l k x => simp [opProg]
  | failed e => simp [opProg]
  | done => simp [opProg]

end

/-! ### Look-ups -/

open DisjointSets in
/-- The state of a thread that looks up roots, in a forest with the roots `R`. -/
structure QOk (n : Nat) (R h : Nat → Nat) (l : QLocal) : Prop where
  todo : ∀ x ∈ l.todo, x < n
  results : ∀ p ∈ l.results, p.1 < n ∧ p.2 = R p.1
  stack : l.pc ≠ .idle → ∀ x ∈ l.stack, x < n ∧ R x = R l.cur
  cur : l.pc ≠ .idle → l.cur < n
  pc : match l.pc with
    | .idle => True
    | .readParent x => x < n ∧ R x = R l.cur
    | .readGrand x p => x < n ∧ p < n ∧ R x = R l.cur ∧ R p = R l.cur ∧ (h p < h x ∨ p = R p)
    | .ret r => r = R l.cur
    | .failed => False

/-- Number of steps still needed. -/
def qMeasure (n : Nat) (h : Nat → Nat) (l : QLocal) : Nat :=
  l.todo.length * (3 * n + 5) +
  match l.pc with
  | .idle => 0
  | .readParent x => 3 * h x + l.stack.length + 3
  | .readGrand x _ => 3 * h x + l.stack.length + 2
  | .ret _ => l.stack.length + 1
  | .failed => 0

open DisjointSets in
theorem QOk.step {ps : List Nat} {R h : Nat → Nat} (hr : Rep ps R h) (hb : ∀ x < ps.length, h x < ps.length) {l : QLocal}
    (hl : QOk ps.length R h l) {r : List Nat × QLocal} (hs : queryProg ps l = some r) :
    QOk ps.length R h r.2 ∧ Rep r.1 R h ∧ r.1.length = ps.length ∧ qMeasure ps.length h r.2 < qMeasure ps.length h l ∧
      r.2.results.map Prod.fst ++ (if r.2.pc = .idle then [] else [r.2.cur]) ++ r.2.todo =
        l.results.map Prod.fst ++ (if l.pc = .idle then [] else [l.cur]) ++ l.todo := by
  obtain ⟨pc, todo, cur, stack, results⟩ := l
  obtain ⟨h1, h2, h3, h4, h5⟩ := hl
  simp only at h1 h2 h3 h4 h5
  cases pc with
  | idle =>
    simp only [queryProg] at hs
    cases todo with
    | nil => simp at hs
    | cons x xs =>
      simp only at hs; cases hs
      have hx := h1 x (by simp)
      refine ⟨⟨fun y hy => h1 y (by simp [hy]), h2, fun _ => by simp, fun _ => hx, hx, rfl⟩, hr, rfl, ?_, by simp⟩
      have := hb x hx
      simp only [qMeasure, List.length_cons, List.length_nil, Nat.add_mul]; omega
  | readParent x =>
    simp only [queryProg, par_get h5.1] at hs
    cases hs
    have hne : QPc.readParent x ≠ .idle := by simp
    have hR := hr.par_R x h5.1
    refine ⟨⟨h1, h2, fun _ => h3 hne, fun _ => h4 hne, h5.1, hr.parLt x h5.1, h5.2, by rw [hR]; exact h5.2, ?_⟩, hr, rfl, ?_, by simp⟩
    · by_cases hp : par ps x = x
      · right; rw [hR, hp]; exact (hr.fix x h5.1 hp).symm
      · left; exact hr.up x h5.1 hp
    · simp only [qMeasure]; omega
  | readGrand x p =>
    obtain ⟨a1, a2, a3, a4, a5⟩ := h5
    have hne : QPc.readGrand x p ≠ .idle := by simp
    simp only [queryProg, par_get a2] at hs
    split at hs
    · next hq =>
      cases hs
      have hlt : h p < h x := by
        rcases a5 with a5 | a5
        · exact a5
        · exact (hq ((hr.root_iff a2).2 a5.symm)).elim
      refine ⟨⟨h1, h2, fun _ y hy => ?_, fun _ => h4 hne, a2, a4⟩, hr, rfl, ?_, by simp⟩
      · rcases List.mem_cons.1 hy with rfl | hy
        · exact ⟨a1, a3⟩
        · exact h3 hne y hy
      · simp only [qMeasure, List.length_cons]; omega
    · next hq =>
      cases hs
      have hp : R p = p := hr.fix p a2 (by simpa using hq)
      refine ⟨⟨h1, h2, fun _ => h3 hne, fun _ => h4 hne, ?_⟩, hr, rfl, ?_, by simp⟩
      · show p = R cur
        rw [← a4, hp]
      · simp only [qMeasure]; omega
  | ret q =>
    have hne : QPc.ret q ≠ .idle := by simp
    simp only [queryProg] at hs
    simp only at h5
    cases stack with
    | nil =>
      simp only at hs; cases hs
      refine ⟨⟨h1, fun p hp => ?_, fun hc => (hc rfl).elim, fun hc => (hc rfl).elim, trivial⟩, hr, rfl, ?_, by simp⟩
      · rcases List.mem_append.1 hp with hp | hp
        · exact h2 p hp
        · simp only [List.mem_singleton] at hp
          subst hp
          exact ⟨h4 hne, h5⟩
      · simp only [qMeasure]; omega
    | cons x st =>
      simp only at hs; cases hs
      obtain ⟨b1, b2⟩ := h3 hne x (by simp)
      have hq : q = R x := by rw [h5, b2]
      refine ⟨⟨h1, h2, fun _ y hy => h3 hne y (by simp [hy]), fun _ => h4 hne, h5⟩, ?_, by simp, ?_, by simp⟩
      · rw [hq]; exact hr.attach b1
      · simp only [qMeasure, List.length_cons]; omega
  | failed => exact h5.elim

theorem queryProg_none (ps : List Nat) (l : QLocal) :
    queryProg ps l = none ↔ (l.pc = .idle ∧ l.todo = []) ∨ l.pc = .failed := by
  obtain ⟨pc, todo, cur, stack, results⟩ := l
  cases pc with
  | idle => cases todo <;> simp [queryProg]
  | readParent x => simp only [queryProg]; cases ps[x]? <;> simp
  | readGrand x p =>
    simp only [queryProg]
    cases ps[p]? with
    | none => simp
    | some q => simp only; split <;> simp
  | ret r => simp only [queryProg]; cases stack <;> simp
  | failed => simp [queryProg]

end LC.Conc
