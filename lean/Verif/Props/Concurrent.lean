import Verif.Proof.Concurrent
import Verif.Proof.DsHistory
import Verif.Proof.PartFlat
import Verif.Props.HilbertSpace
import Verif.Props.DisjointSets
import Verif.Props.Partition
/-
C90-C92: calls of `const` functions by several threads, for every schedule. `exec p sched s` runs the threads with programs `p`
from the state `s` (shared memory and the variables of every thread); `sched` lists which thread takes the next step. A thread
that throws or is stopped is one that does not occur in the rest of the schedule.
-/
set_option linter.unusedSectionVars false
namespace LC
open Conc HilbertSpace

/-! ### C90: iterations over Hilbert spaces -/

section
variable {ι : Type _} [LinearOrder ι]

/-- The members `indices_` have their sizes, as the constructors leave them (hilbert_space.hpp:73-77); their contents are arbitrary. -/
def IndicesFit (hsOf : Nat → HilbertSpace ι) (m : IndMem) : Prop :=
  ∀ (o : Nat) (a : SparseForeach), (hsOf o).foreachAlg = some a → (m o).length = a.sizes.length

/-- Number of steps after which an iteration has ended for sure. -/
def foreachSteps (hs : HilbertSpace ι) : Nat :=
  match hs.foreachAlg with
  | none => hs.dim + 1
  | some a => a.sizes.length + a.nStates * (3 * a.sizes.length + 4) + 2

theorem sparseStep_length {a : SparseForeach} {ind : List Nat} {l : FLocal} {r : List Nat × FLocal} (h : sparseStep a ind l = some r) :
    r.1.length = ind.length := by
  unfold sparseStep at h
  split at h
  · split at h <;> cases h <;> simp
  · split at h <;> cases h <;> rfl
  · cases h; simp
  · split at h <;> cases h <;> rfl
  · cases h; simp
  · cases h; simp
  · cases h

theorem fits_step {hsOf : Nat → HilbertSpace ι} {obj : Nat → Nat} {s : IndMem × (Nat → FLocal)} (h : IndicesFit hsOf s.1) (u : Nat) :
    IndicesFit hsOf (stepThread (fun u => foreachProg (hsOf (obj u)) (obj u)) s u).1 := by
  unfold stepThread
  split
  · exact h
  · next m l hp =>
    unfold foreachProg at hp
    simp only at hp
    split at hp
    · cases hd : denseStep (hsOf (obj u)).dim (s.2 u) with
      | none => rw [hd] at hp; cases hp
      | some l' => rw [hd] at hp; cases hp; exact h
    · next a ha =>
      cases hd : sparseStep a (s.1 (obj u)) (s.2 u) with
      | none => rw [hd] at hp; cases hp
      | some q =>
        rw [hd] at hp; cases hp
        intro o b hb
        by_cases ho : o = obj u
        · subst ho
          simp only [Function.update_self]
          rw [sparseStep_length hd]
          exact h _ b hb
        · simp only [Function.update_of_ne ho]
          exact h o b hb

/-- **C90** (crash points) Whatever the threads did, and wherever they were stopped, the objects can be used for new iterations:
the hypothesis of `C90_foreach_partial` holds again. -/
theorem C90_abandoned (hsOf : Nat → HilbertSpace ι) (obj : Nat → Nat) (m : IndMem) (hm : IndicesFit hsOf m) (locals : Nat → FLocal) (sched : List Nat) :
    IndicesFit hsOf (exec (fun u => foreachProg (hsOf (obj u)) (obj u)) sched (m, locals)).1 :=
  exec_inv _ (fun s => IndicesFit hsOf s.1) (fun _ u h => fits_step h u) sched _ hm

/-- **C90** (partial: a sparse Hilbert space object must be used by one thread at a time, see F39) Any number of threads iterate over
Hilbert space objects. A thread whose object is not sparse, or not used by other threads, calls its functor on the states of a
sequential iteration, in the same order, in every schedule; when it has ended, it has called the functor on all of them; and it
ends if the schedule gives it enough steps. -/
theorem C90_foreach_partial (hsOf : Nat → HilbertSpace ι) (hc : ∀ o, Constructed (hsOf o)) (obj : Nat → Nat) (m : IndMem)
    (hm : IndicesFit hsOf m) (t : Nat) (hown : (hsOf (obj t)).foreachAlg = none ∨ ∀ u ≠ t, obj u ≠ obj t) (sched : List Nat)
    (r : IndMem × (Nat → FLocal)) (hr : r = exec (fun u => foreachProg (hsOf (obj u)) (obj u)) sched (m, fun _ => fStart)) :
    (r.2 t).log <+: (hsOf (obj t)).foreach ∧ ((r.2 t).pc = .done → (r.2 t).log = (hsOf (obj t)).foreach) ∧
      (foreachSteps (hsOf (obj t)) ≤ sched.count t → (r.2 t).pc = .done) := by
  subst hr
  cases ha : (hsOf (obj t)).foreachAlg with
  | none =>
    let I : IndMem × (Nat → FLocal) → Prop := fun s => DOk (hsOf (obj t)).dim (s.2 t)
    have hstep : ∀ s u, I s → I (stepThread (fun u => foreachProg (hsOf (obj u)) (obj u)) s u) := by
      intro s u h
      unfold stepThread
      split
      · exact h
      · next m l hp =>
        by_cases hu : u = t
        · subst hu
          simp only [foreachProg, ha] at hp
          cases hd : denseStep (hsOf (obj u)).dim (s.2 u) with
          | none => rw [hd] at hp; cases hp
          | some l' =>
            rw [hd] at hp; cases hp
            simp only [I, Function.update_self]
            exact (h.step hd).1
        · simp only [I, Function.update_of_ne (Ne.symm hu)]; exact h
    have h0 : I (m, fun _ => fStart) := ⟨Nat.zero_le _, rfl, fun hc => by cases hc⟩
    have hI := exec_inv _ I hstep sched _ h0
    have hfull : (hsOf (obj t)).foreach = List.range (hsOf (obj t)).dim := by rw [HilbertSpace.foreach, ha]
    obtain ⟨h1, h2, h3⟩ := hI
    rw [hfull, h2]
    refine ⟨?_, fun hd => by rw [h3 hd], fun hlen => ?_⟩
    · rw [List.prefix_iff_eq_take, List.length_range, List.take_range, Nat.min_eq_left h1]
    · refine exec_measure _ I hstep t (fun l => l.pc = .done) (fun m l => ?_) (dMeasure (hsOf (obj t)).dim) ?_ sched _ h0 ?_
      · simp only [foreachProg, ha, Option.map_eq_none_iff]
        obtain ⟨pc, i, st, log⟩ := l
        unfold denseStep
        cases pc <;> simp <;> split <;> simp
      · intro s m l h hp
        simp only [foreachProg, ha] at hp
        cases hd : denseStep (hsOf (obj t)).dim (s.2 t) with
        | none => rw [hd] at hp; cases hp
        | some l' => rw [hd] at hp; cases hp; exact (DOk.step h hd).2
      · simp only [foreachSteps, ha] at hlen
        simpa [dMeasure, fStart] using hlen
  | some a =>
    have hot : ∀ u ≠ t, obj u ≠ obj t := by
      rcases hown with h | h
      · rw [ha] at h; cases h
      · exact h
    have hj := canon_tables (hc (obj t)) ha
    let I : IndMem × (Nat → FLocal) → Prop := fun s => FOk a (s.1 (obj t)) (s.2 t) (a.run fun _ ind => ind).1
    have hstep : ∀ s u, I s → I (stepThread (fun u => foreachProg (hsOf (obj u)) (obj u)) s u) := by
      intro s u h
      unfold stepThread
      split
      · exact h
      · next m l hp =>
        by_cases hu : u = t
        · subst hu
          simp only [foreachProg, ha] at hp
          cases hd : sparseStep a (s.1 (obj u)) (s.2 u) with
          | none => rw [hd] at hp; cases hp
          | some q =>
            rw [hd] at hp; cases hp
            simp only [I, Function.update_self]
            exact (h.step hj hd).1
        · simp only [I, Function.update_of_ne (Ne.symm hu)]
          unfold foreachProg at hp
          simp only at hp
          split at hp
          · cases hd : denseStep (hsOf (obj u)).dim (s.2 u) with
            | none => rw [hd] at hp; cases hp
            | some l' => rw [hd] at hp; cases hp; exact h
          · next b _ =>
            cases hd : sparseStep b (s.1 (obj u)) (s.2 u) with
            | none => rw [hd] at hp; cases hp
            | some q =>
              rw [hd] at hp; cases hp
              rw [Function.update_of_ne (Ne.symm (hot u hu))]; exact h
    have h0 : I (m, fun _ => fStart) := FOk.start a _ (hm _ a ha)
    have hI := exec_inv _ I hstep sched _ h0
    have hfull : (hsOf (obj t)).foreach = (a.run fun _ ind => ind).1 := by rw [HilbertSpace.foreach, ha]
    rw [hfull]
    refine ⟨FOk.pref hI, fun hd => ?_, fun hlen => ?_⟩
    · obtain ⟨_, h2⟩ := hI
      rw [hd] at h2; exact h2
    · refine exec_measure _ I hstep t (fun l => l.pc = .done) (fun m l => ?_) (fMeasure a.sizes.length a.nStates) ?_ sched _ h0 ?_
      · simp only [foreachProg, ha, Option.map_eq_none_iff]
        obtain ⟨pc, i, st, log⟩ := l
        unfold sparseStep
        cases pc <;> simp <;> split <;> simp
      · intro s m l h hp
        simp only [foreachProg, ha] at hp
        cases hd : sparseStep a (s.1 (obj t)) (s.2 t) with
        | none => rw [hd] at hp; cases hp
        | some q =>
          rw [hd] at hp; cases hp
          exact (FOk.step hj h hd).2
      · simp only [foreachSteps, ha] at hlen
        simp only [fMeasure, fStart, Nat.sub_zero]; exact hlen

end

/-- The space of two bosonic modes with three states each. -/
theorem sparseHS : ∃ hs : HilbertSpace Nat, HilbertSpace.ofArgs sparseExample = .ok hs ∧ Constructed hs ∧
    hs.foreach = [0, 1, 2, 4, 5, 6, 8, 9, 10] ∧ hs.foreachAlg.map (·.sizes.length) = some 2 ∧ hs.foreachAlg = some ⟨[3, 3], 9, [1]⟩ := by
  refine ⟨_, rfl, Constructed.ofArgs (l := sparseExample) ?_ rfl, by decide +kernel, by decide +kernel, by decide +kernel⟩
  intro es hes
  simp only [sparseExample, List.mem_cons, List.not_mem_nil, or_false] at hes
  rcases hes with rfl | rfl <;> exact wf_boson _ (by decide) _

/-- **C90** Non-trivial case (with `obj t = t`): two threads with two sparse spaces of their own, taking turns; both see the nine states. -/
theorem C90_foreach_example : ∃ (hs : HilbertSpace Nat) (m : IndMem), Constructed hs ∧ IndicesFit (fun _ => hs) m ∧
    ∀ t < 2, ((exec (fun u => foreachProg hs u) ((List.range 100).flatMap fun _ => [0, 1]) (m, fun _ => fStart)).2 t).log =
      [0, 1, 2, 4, 5, 6, 8, 9, 10] := by
  obtain ⟨hs, h1, h2, h3, _, h5⟩ := sparseHS
  refine ⟨hs, fun _ => [7, 9], h2, fun o a ha => ?_, ?_⟩
  · rw [h5] at ha; cases ha; rfl
  · have hprog : (fun u => foreachProg hs u) = fun u m l => (sparseStep ⟨[3, 3], 9, [1]⟩ (m u) l).map fun r => (Function.update m u r.1, r.2) := by
      funext u m l
      simp only [foreachProg, h5]
    rw [hprog]
    decide +kernel

/-- **C90, F39** Two threads iterate over the same `const` sparse Hilbert space object. While the first one is in the middle, the second
one starts and overwrites the counters: the functor of the first thread is called on 3, which is not a basis state, and misses 4. -/
theorem C90_F39_shared_space : ∃ (hs : HilbertSpace Nat) (sched : List Nat), Constructed hs ∧ hs.foreach = [0, 1, 2, 4, 5, 6, 8, 9, 10] ∧
    ¬ ValidState hs 3 ∧ ∀ m : IndMem, m 0 = [0, 0] →
    ((exec (fun _ => foreachProg hs 0) sched (m, fun _ => fStart)).2 0).log = [0, 1, 2, 3] := by
  obtain ⟨hs, h1, h2, h3, _, h5⟩ := sparseHS
  refine ⟨hs, List.replicate 11 0 ++ [1] ++ [0, 0], h2, h3, ?_, fun m hm => ?_⟩
  · have : HilbertSpace.ofArgs sparseExample = .ok hs := h1
    revert h1
    have e : ∃ hs' : HilbertSpace Nat, HilbertSpace.ofArgs sparseExample = .ok hs' ∧ ¬ ValidState hs' 3 := ⟨_, rfl, by decide +kernel⟩
    obtain ⟨hs', e1, e2⟩ := e
    rw [this] at e1; cases e1
    exact fun _ => e2
  · simp [exec, stepThread, foreachProg, h5, sparseStep, fStart, hm, List.replicate, Function.update, add64, W64]

/-! ### C90: applications of operators -/

section
variable {S T : Type _} [CommRing S] [Algebra ℝ S] [AddCommMonoid T] [Module S T] [DecidableEq T]

/-- No thread writes a vector that another thread uses or that it reads itself: thread `t` computes `op(src, dst)` for the vectors
number `src t` and `dst t`. Operators and source vectors can be shared. -/
def NoSharing (src dst : Nat → Nat) : Prop := (∀ t u, dst t ≠ src u) ∧ ∀ t u, t ≠ u → dst t ≠ dst u

/-- **C90** Any number of threads apply operators, possibly the same one, to vectors, possibly the same one. In every schedule: a thread
that has ended has computed what a sequential call computes; it meets an access out of bounds only if the sequential call does; it ends
if the schedule gives it enough steps; and nothing but the destination vectors is modified. -/
theorem C90_operators (op : Nat → LOperator S) (src dst : Nat → Nat) (hns : NoSharing src dst) (m : VecMem T) (sched : List Nat)
    (r : VecMem T × (Nat → OPc S T)) (hr : r = exec (fun t => opProg (op t) (src t) (dst t)) sched (m, fun _ => .zero 0)) :
    (∀ t, (r.2 t = .done → (op t).applyTo (⟨m (src t)⟩ : DenseSV T) (⟨m (dst t)⟩ : DenseSV T) = .ok ⟨r.1 (dst t)⟩) ∧
      (∀ e, r.2 t = .failed e → (op t).applyTo (⟨m (src t)⟩ : DenseSV T) (⟨m (dst t)⟩ : DenseSV T) = .error e) ∧
      ((m (dst t)).length + (m (src t)).length * (3 * (op t).actions.length + 3) + 2 ≤ sched.count t →
        r.2 t = .done ∨ ∃ e, r.2 t = .failed e)) ∧
      ∀ o, (∀ t, o ≠ dst t) → r.1 o = m o := by
  subst hr
  obtain ⟨hsd, hdd⟩ := hns
  let full : Nat → Except SVError (DenseSV T) := fun t => (op t).applyTo (⟨m (src t)⟩ : DenseSV T) (⟨m (dst t)⟩ : DenseSV T)
  let I : VecMem T × (Nat → OPc S T) → Prop := fun s =>
    (∀ t, OOk (op t) (s.1 (src t)) (s.1 (dst t)) (full t) (s.2 t) ∧ s.1 (src t) = m (src t) ∧ (s.1 (dst t)).length = (m (dst t)).length) ∧
    ∀ o, (∀ t, o ≠ dst t) → s.1 o = m o
  have hstep : ∀ s u, I s → I (stepThread (fun t => opProg (op t) (src t) (dst t)) s u) := by
    intro s u h
    unfold stepThread
    split
    · exact h
    · next m' l hp =>
      obtain ⟨a1, a2, a3, a4, _⟩ := OOk.step (Ne.symm (hsd u u)) (h.1 u).1 hp
      refine ⟨fun t => ?_, fun o ho => ?_⟩
      · have e1 : m' (src t) = s.1 (src t) := a4 _ (Ne.symm (hsd u t))
        by_cases htu : t = u
        · subst htu
          simp only [Function.update_self]
          exact ⟨a1, e1.trans (h.1 t).2.1, a3.trans (h.1 t).2.2⟩
        · have e2 : m' (dst t) = s.1 (dst t) := a4 _ (hdd t u htu)
          simp only [Function.update_of_ne htu, e1, e2]
          exact h.1 t
      · exact (a4 o (ho u)).trans (h.2 o ho)
  have h0 : I (m, fun _ => .zero 0) := ⟨fun t => ⟨⟨Nat.zero_le _, by simp, rfl⟩, rfl, rfl⟩, fun _ _ => rfl⟩
  have hI := exec_inv _ I hstep sched _ h0
  refine ⟨fun t => ⟨fun hd => ?_, fun e hd => ?_, fun hlen => ?_⟩, hI.2⟩
  · have := (hI.1 t).1
    rw [hd] at this; exact this
  · have := (hI.1 t).1
    rw [hd] at this; exact this
  · refine exec_measure _ I hstep t (fun l => l = .done ∨ ∃ e, l = .failed e) (fun m l => opProg_none m l)
      (oMeasure (op t).actions.length (m (src t)).length (m (dst t)).length) ?_ sched _ h0 ?_
    · intro s m' l h hp
      have := (OOk.step (Ne.symm (hsd t t)) (h.1 t).1 hp).2.2.2.2
      rw [(h.1 t).2.1, (h.1 t).2.2] at this
      exact this
    · simp only [oMeasure, Nat.sub_zero]; exact hlen

/-- Threads that share the source vector number 0 and write the vectors 1, 2, …. -/
theorem C90_operators_sharing : NoSharing (fun _ => 0) (fun t => t + 1) := ⟨fun _ _ => by simp, fun _ _ h => by simpa using h⟩

end

/-! ### C91: look-ups in disjoint sets -/

/-- Number of steps after which the calls have ended for sure. -/
def lookupSteps (size calls : Nat) : Nat := calls * (3 * size + 5)

/-- **C91** (partial: the accesses are data races in the sense of C++, see F40; here memory is sequentially consistent) Any number of threads
call `find_root` on the same object. In every schedule: the results of a thread are those of sequential calls, in order; the calls end
if the schedule gives the thread enough steps; and at every moment, also if threads are stopped in the middle of a call, the object is
one whose representatives are those from before. -/
theorem C91_find_root_partial {ds : DisjointSets} {us : List (Nat × Nat)} (h : DsHistory ds us) (calls : Nat → List Nat)
    (hv : ∀ t, ∀ x ∈ calls t, x < ds.size) (sched : List Nat) (r : List Nat × (Nat → QLocal))
    (hr : r = exec (fun _ => queryProg) sched (ds.parents, fun t => qStart (calls t))) :
    (∀ t, (r.2 t).results.map Prod.fst <+: calls t ∧ (∀ p ∈ (r.2 t).results, ∃ d, ds.findRoot p.1 = some (p.2, d)) ∧
      (lookupSteps ds.size (calls t).length ≤ sched.count t → (r.2 t).results.map Prod.fst = calls t)) ∧
      r.1.length = ds.size ∧ ∀ x < ds.size, ∃ y d d', ds.findRoot x = some (y, d) ∧ ({ ds with parents := r.1 } : DisjointSets).findRoot x = some (y, d') := by
  subst hr
  obtain ⟨R, hi⟩ := h.inv
  obtain ⟨h0, hr0⟩ := hi.good.rep
  obtain ⟨hh, hr, hb⟩ := hr0.bounded
  let I : List Nat × (Nat → QLocal) → Prop := fun s => s.1.length = ds.size ∧ DisjointSets.Rep s.1 R hh ∧
    ∀ t, QOk ds.size R hh (s.2 t) ∧
      (s.2 t).results.map Prod.fst ++ (if (s.2 t).pc = .idle then [] else [(s.2 t).cur]) ++ (s.2 t).todo = calls t
  have hstep : ∀ s u, I s → I (stepThread (fun _ => queryProg) s u) := by
    intro s u h
    unfold stepThread
    split
    · exact h
    · next m' l hp =>
      obtain ⟨g1, g2, g3⟩ := h
      obtain ⟨a1, a2, a3, a4, a5⟩ := QOk.step g2 (by rw [g1]; exact hb) (by rw [g1]; exact (g3 u).1) hp
      rw [g1] at a1 a3
      refine ⟨a3, a2, fun t => ?_⟩
      by_cases htu : t = u
      · subst htu
        simp only [Function.update_self]
        exact ⟨a1, a5.trans (g3 t).2⟩
      · simp only [Function.update_of_ne htu]
        exact g3 t
  have hI0 : I (ds.parents, fun t => qStart (calls t)) :=
    ⟨rfl, hr, fun t => ⟨⟨hv t, by simp [qStart], by simp [qStart], by simp [qStart], trivial⟩, by simp [qStart]⟩⟩
  have hI := exec_inv _ I hstep sched _ hI0
  obtain ⟨g1, g2, g3⟩ := hI
  refine ⟨fun t => ⟨?_, fun p hp => ?_, fun hlen => ?_⟩, g1, fun x hx => ?_⟩
  · rw [← (g3 t).2, List.append_assoc]; exact List.prefix_append _ _
  · obtain ⟨e1, e2⟩ := (g3 t).1.results p hp
    obtain ⟨d, e3, _⟩ := hi.good.findRoot e1
    exact ⟨d, by rw [e3, e2]⟩
  · have hfin := exec_measure _ I hstep t (fun l => (l.pc = .idle ∧ l.todo = []) ∨ l.pc = .failed) (fun m l => queryProg_none m l)
      (qMeasure ds.size hh) (fun s m' l h hp => by
        obtain ⟨k1, k2, k3⟩ := h
        have := (QOk.step k2 (by rw [k1]; exact hb) (by rw [k1]; exact (k3 t).1) hp).2.2.2.1
        rw [k1] at this; exact this) sched _ hI0
      (by simp only [qMeasure, qStart, Nat.add_zero]; exact hlen)
    rcases hfin with ⟨e1, e2⟩ | e1
    · have := (g3 t).2
      rw [e2, if_pos e1] at this
      simpa using this
    · have := (g3 t).1.pc
      rw [e1] at this; exact this.elim
  · obtain ⟨d, e1, _⟩ := hi.good.findRoot hx
    have hg : DisjointSets.Good { ds with parents := (exec (fun _ => queryProg) sched (ds.parents, fun t => qStart (calls t))).1 } R :=
      ⟨⟨hh, g2⟩, by rw [hi.good.ranks]; exact g1.symm, by
        have := hi.good.count
        simp only [DisjointSets.size, g1] at this ⊢
        exact this⟩
    obtain ⟨d', e2, _⟩ := hg.findRoot (x := x) (by rw [DisjointSets.size, g1]; exact hx)
    exact ⟨_, d, d', e1, e2⟩

/-- The object of F40: unions (0,1), (2,3), (0,2) of four elements. -/
theorem C91_object : ∃ ds, DsHistory ds [(0, 2), (2, 3), (0, 1)] ∧ ds.parents = [0, 0, 0, 2] := by
  have h0 := DsHistory.make 4
  have h1 : DsHistory _ _ := h0.setUnion (x := 0) (y := 1) (by decide) (by decide) rfl
  have h2 : DsHistory _ _ := h1.setUnion (x := 2) (y := 3) (by decide) (by decide) rfl
  have h3 : DsHistory _ _ := h2.setUnion (x := 0) (y := 2) (by decide) (by decide) rfl
  exact ⟨_, h3, by decide⟩

/-- **C91** Non-trivial case: three threads look up all four elements, a schedule that switches after every step. -/
example : ∃ ds us, DsHistory ds us ∧ (∀ x ∈ [3, 2, 1, 0], x < ds.size) ∧
    ∀ t < 3, ((exec (fun _ => queryProg) ((List.range 100).flatMap fun _ => [0, 1, 2]) (ds.parents, fun _ => qStart [3, 2, 1, 0])).2 t).results =
      [(3, 0), (2, 0), (1, 0), (0, 0)] := by
  obtain ⟨ds, h1, h2⟩ := C91_object
  refine ⟨ds, _, h1, by rw [DisjointSets.size, h2]; decide, ?_⟩
  rw [h2]
  decide +kernel

/-- **C91, F40** `find_root` is `const`, but two concurrent calls with the same argument on the same object are a data race: there is a
moment when the next step of one thread is to write `parents_[3]`, and the next step of the other one is to read it. -/
theorem C91_F40_data_race : ∃ ds us sched, DsHistory ds us ∧ 3 < ds.size ∧
    (let r := exec (fun _ => queryProg) sched (ds.parents, fun _ => qStart [3])
     ((r.2 0).pc = .ret 0 ∧ (r.2 0).stack = [3]) ∧ (r.2 1).pc = .readParent 3) := by
  obtain ⟨ds, h1, h2⟩ := C91_object
  refine ⟨ds, _, [0, 0, 0, 0, 0, 1], h1, by rw [DisjointSets.size, h2]; decide, ?_⟩
  rw [h2]
  decide

/-! ### C92: queries of partitions are read-only -/

section
variable {ι S H : Type _} [LinearOrder ι] {hs : HilbertSpace ι} [CommRing S] [DecidableEq S] [ConstScalar S] [ScalarLaws S]
  [IsDomain S] [CharZero S] [Star S] [Algebra ℝ S] [HashImpl H Nat S] {M : Nat → ι → Prop}
variable (hM : HalfAlone M) (hc : Constructed hs) (hpre : PredefinedSpaces hs) (hsmall : hs.foreachAlg.isSome → hs.dim < 2 ^ 31)
include hM hc hpre hsmall

/-- **C92** Every query that succeeds - `operator[]`, `foreach`, `subspace_basis`, `subspace_bases`, `find_connections` - leaves the partition
object as it is, although `find_root` can write to a `mutable` member. -/
theorem C92_queries_read_only (sp sp' : SpacePartition) (h : SpacePartition.PartitionOf H S (InSpace M hs) hs sp)
    (hq : SpacePartition.Query H S (InSpace M hs) hs sp sp') : sp' = sp := by
  obtain ⟨R, hi⟩ := SpacePartition.partitionOf_inv hc hsmall hM hpre h
  exact SpacePartition.query_pure hc hsmall hM hpre hi (SpacePartition.partitionOf_flat hc hsmall hM hpre h) hq

/-- **C92** Any number of threads call `operator[]` of the same partition object for basis states. In every schedule: the memory never changes; no
thread ever is at a point where it is about to write (the return from a recursive call), hence there is no data race; the results are those of sequential calls, in order; the calls end if the schedule gives the thread
enough steps. (`operator[]` is `find_root` followed by a look-up in a map that nobody modifies.) -/
theorem C92_concurrent_queries (sp : SpacePartition) (h : SpacePartition.PartitionOf H S (InSpace M hs) hs sp) (calls : Nat → List Nat)
    (hv : ∀ t, ∀ k ∈ calls t, ValidState hs k) (sched : List Nat) (r : List Nat × (Nat → QLocal))
    (hr : r = exec (fun _ => queryProg) sched (sp.ds.parents, fun t => qStart (calls t))) :
    (∀ n, (exec (fun _ => queryProg) (sched.take n) (sp.ds.parents, fun t => qStart (calls t))).1 = sp.ds.parents) ∧
    (∀ t root, (r.2 t).pc = .ret root → (r.2 t).stack = []) ∧
    ∀ t, (r.2 t).results.map Prod.fst <+: calls t ∧
      (∀ p ∈ (r.2 t).results, ∃ i, omapFind p.2 sp.rootTo = some i ∧ sp.subspaceOf p.1 = .ok (i, sp)) ∧
      (7 * (calls t).length ≤ sched.count t → (r.2 t).results.map Prod.fst = calls t) := by
  subst hr
  have hf := SpacePartition.partitionOf_flat hc hsmall hM hpre h
  obtain ⟨R, hi⟩ := SpacePartition.partitionOf_inv hc hsmall hM hpre h
  have hmem : ∀ k, ValidState hs k → k ∈ sp.states := fun k hk => by rw [hi.states, SpacePartition.mem_states hc hsmall]; exact hk
  let I : List Nat × (Nat → QLocal) → Prop := fun s => s.1 = sp.ds.parents ∧
    ∀ t, (∀ x ∈ (s.2 t).todo, x ∈ sp.states) ∧ (s.2 t).stack = [] ∧
      (∀ p ∈ (s.2 t).results, p.1 ∈ sp.states ∧ ∃ d, sp.ds.findRoot p.1 = some (p.2, d)) ∧
      (s.2 t).results.map Prod.fst ++ (if (s.2 t).pc = .idle then [] else [(s.2 t).cur]) ++ (s.2 t).todo = calls t ∧
      match (s.2 t).pc with
      | .idle => True
      | .readParent x => x ∈ sp.states ∧ x = (s.2 t).cur
      | .readGrand x p => x ∈ sp.states ∧ x = (s.2 t).cur ∧ sp.ds.parents[x]? = some p
      | .ret q => (s.2 t).cur ∈ sp.states ∧ ∃ d, sp.ds.findRoot (s.2 t).cur = some (q, d)
      | .failed => False
  have key : ∀ s t m l, I s → queryProg s.1 (s.2 t) = some (m, l) → (m = sp.ds.parents ∧
      ((∀ x ∈ l.todo, x ∈ sp.states) ∧ l.stack = [] ∧
      (∀ p ∈ l.results, p.1 ∈ sp.states ∧ ∃ d, sp.ds.findRoot p.1 = some (p.2, d)) ∧
      l.results.map Prod.fst ++ (if l.pc = .idle then [] else [l.cur]) ++ l.todo = calls t ∧
      match l.pc with
      | .idle => True
      | .readParent x => x ∈ sp.states ∧ x = l.cur
      | .readGrand x p => x ∈ sp.states ∧ x = l.cur ∧ sp.ds.parents[x]? = some p
      | .ret q => l.cur ∈ sp.states ∧ ∃ d, sp.ds.findRoot l.cur = some (q, d)
      | .failed => False)) ∧ qMeasure 0 (fun _ => 0) l < qMeasure 0 (fun _ => 0) (s.2 t) := by
    intro s t m l h hp
    obtain ⟨e, g⟩ := h
    obtain ⟨g1, g2, g3, g4, g5⟩ := g t
    generalize s.2 t = q at *
    obtain ⟨pc, todo, cur, stack, results⟩ := q
    simp only at g1 g2 g3 g4 g5
    subst g2
    rw [e] at hp
    cases pc with
    | idle =>
      cases todo with
      | nil => cases hp
      | cons x xs =>
        cases hp
        refine ⟨⟨rfl, fun y hy => g1 y (by simp [hy]), rfl, g3, ?_, g1 x (by simp), rfl⟩, ?_⟩
        · simpa using g4
        · simp only [qMeasure, List.length_cons, List.length_nil]; omega
    | readParent x =>
      obtain ⟨k1, k2⟩ := g5
      obtain ⟨p, k3, k4⟩ := hf x k1
      simp only [queryProg, k3] at hp
      cases hp
      exact ⟨⟨rfl, g1, rfl, g3, by simpa using g4, k1, k2, k3⟩, by simp only [qMeasure]; omega⟩
    | readGrand x p =>
      obtain ⟨k1, k2, k3⟩ := g5
      obtain ⟨p', k4, k5⟩ := hf x k1
      rw [k3] at k4; cases k4
      have hroot : ∃ d, sp.ds.findRoot x = some (p, d) := by
        refine ⟨sp.ds, ?_⟩
        simp [DisjointSets.findRoot, DisjointSets.findRootRec, k3, k5]
      simp only [queryProg, k5, ne_eq, not_true, if_false] at hp
      cases hp
      subst k2
      exact ⟨⟨rfl, g1, rfl, g3, by simpa using g4, k1, hroot⟩, by simp only [qMeasure, List.length_nil]; omega⟩
    | ret q =>
      obtain ⟨k1, k2⟩ := g5
      simp only [queryProg] at hp
      cases hp
      refine ⟨⟨rfl, g1, rfl, ?_, by simpa using g4, trivial⟩, by simp only [qMeasure, List.length_nil]; omega⟩
      intro p hp
      rcases List.mem_append.1 hp with hp | hp
      · exact g3 p hp
      · rw [List.mem_singleton] at hp; subst hp; exact ⟨k1, k2⟩
    | failed => exact g5.elim
  have hstep : ∀ s u, I s → I (stepThread (fun _ => queryProg) s u) := by
    intro s u h
    unfold stepThread
    split
    · exact h
    · next m l hp =>
      obtain ⟨⟨a1, a2⟩, _⟩ := key s u m l h hp
      refine ⟨a1, fun t => ?_⟩
      by_cases htu : t = u
      · subst htu
        simp only [Function.update_self]
        exact a2
      · simp only [Function.update_of_ne htu]
        exact h.2 t
  have hI0 : I (sp.ds.parents, fun t => qStart (calls t)) :=
    ⟨rfl, fun t => ⟨fun x hx => hmem x (hv t x hx), rfl, by simp [qStart], by simp [qStart], trivial⟩⟩
  have hI := exec_inv _ I hstep sched _ hI0
  refine ⟨fun n => (exec_inv _ I hstep (sched.take n) _ hI0).1, fun t _ _ => (hI.2 t).2.1, fun t => ⟨?_, fun p hp => ?_, fun hlen => ?_⟩⟩
  · rw [← (hI.2 t).2.2.2.1, List.append_assoc]; exact List.prefix_append _ _
  · obtain ⟨e1, d, e2⟩ := (hI.2 t).2.2.1 p hp
    have hd := (hf _ e1).eq e2
    subst hd
    obtain ⟨d', e3, _⟩ := hi.inv.subspaceOf e1
    have e4 := e3
    rw [SpacePartition.subspaceOf, e2] at e4
    simp only at e4
    cases e5 : omapFind p.2 sp.rootTo with
    | none => rw [e5] at e4; cases e4
    | some i => exact ⟨i, rfl, by rw [SpacePartition.subspaceOf, e2]; simp only [e5]⟩
  · have hfin := exec_measure _ I hstep t (fun l => (l.pc = .idle ∧ l.todo = []) ∨ l.pc = .failed) (fun m l => queryProg_none m l)
      (qMeasure 0 fun _ => 0) (fun s m l h hp => (key s t m l h hp).2) sched _ hI0
      (by simp only [qMeasure, qStart, Nat.add_zero]; omega)
    rcases hfin with ⟨e1, e2⟩ | e1
    · have := (hI.2 t).2.2.2.1
      rw [e2, if_pos e1] at this
      simpa using this
    · have := (hI.2 t).2.2.2.2
      rw [e1] at this; exact this.elim

end

end LC
