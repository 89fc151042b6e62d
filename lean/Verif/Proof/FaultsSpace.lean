import Verif.Model.FaultsSpace
import Verif.Proof.Faults
import Verif.Proof.PartFlat
import Verif.Proof.HSBuild
/-
Programs with exceptions: Hilbert spaces and space partitions.
-/
set_option linter.unusedSectionVars false
set_option linter.unusedSimpArgs false
namespace LC
namespace Flt
variable {σ α β : Type _}

/-- `p`, started on `s`, returns `a` with a final state such that `Q`, or throws and leaves a state such that `X`. -/
def Tri (o : Nat → Bool) (p : Flt σ α) (s : σ) (Q : α → σ → Prop) (X : σ → Prop) : Prop :=
  ∀ n, (∃ a n' s', p o n s = (some a, n', s') ∧ Q a s') ∨ (∃ n' s', p o n s = (none, n', s') ∧ X s')

/-- Some operation throws. -/
def Fires (o : Nat → Bool) : Prop := ∃ n, o n = true

theorem Tri.bind {o : Nat → Bool} {p : Flt σ α} {f : α → Flt σ β} {s : σ} {Q : α → σ → Prop} {R : β → σ → Prop} {X : σ → Prop}
    (h : Tri o p s Q X) (h' : ∀ a s', Q a s' → Tri o (f a) s' R X) : Tri o (p >>= f) s R X := by
  intro n
  rcases h n with ⟨a, n', s', e, hq⟩ | ⟨n', s', e, hx⟩
  · rw [bind_some e]; exact h' a s' hq n'
  · rw [bind_none e]; exact Or.inr ⟨_, _, rfl, hx⟩

theorem Tri.pure {o : Nat → Bool} {a : α} {s : σ} {Q : α → σ → Prop} {X : σ → Prop} (h : Q a s) : Tri o (pure a : Flt σ α) s Q X :=
  fun n => Or.inl ⟨a, n, s, rfl, h⟩

theorem Tri.point_bind {o : Nat → Bool} {f : Unit → Flt σ β} {s : σ} {R : β → σ → Prop} {X : σ → Prop}
    (hx : Fires o → X s) (h : Tri o (f ()) s R X) : Tri o (point >>= f) s R X := by
  refine Tri.bind (Q := fun _ s' => s' = s) (fun n => ?_) (fun _ s' e => by subst e; exact h)
  rcases point_out o n s with e | ⟨e, e'⟩
  · exact Or.inl ⟨_, _, _, e, rfl⟩
  · exact Or.inr ⟨_, _, e, hx ⟨n, e'⟩⟩

theorem Tri.point {o : Nat → Bool} {s : σ} {R : Unit → σ → Prop} {X : σ → Prop}
    (hx : Fires o → X s) (h : R () s) : Tri o (point : Flt σ Unit) s R X := by
  intro n
  rcases point_out o n s with e | ⟨e, e'⟩
  · exact Or.inl ⟨_, _, _, e, h⟩
  · exact Or.inr ⟨_, _, e, hx ⟨n, e'⟩⟩

theorem Tri.read_bind {o : Nat → Bool} {f : σ → Flt σ β} {s : σ} {R : β → σ → Prop} {X : σ → Prop}
    (h : Tri o (f s) s R X) : Tri o (read >>= f) s R X := h

theorem Tri.modify_bind {o : Nat → Bool} {g : σ → σ} {f : Unit → Flt σ β} {s : σ} {R : β → σ → Prop} {X : σ → Prop}
    (h : Tri o (f ()) (g s) R X) : Tri o (modify g >>= f) s R X := h

theorem Tri.modify {o : Nat → Bool} {g : σ → σ} {s : σ} {R : Unit → σ → Prop} {X : σ → Prop}
    (h : R () (g s)) : Tri o (modify g) s R X := fun _ => Or.inl ⟨_, _, _, rfl, h⟩

theorem Tri.raise {o : Nat → Bool} {s : σ} {R : α → σ → Prop} {X : σ → Prop} (h : X s) : Tri o (raise : Flt σ α) s R X :=
  fun _ => Or.inr ⟨_, _, rfl, h⟩

theorem Tri.mono {o : Nat → Bool} {p : Flt σ α} {s : σ} {Q Q' : α → σ → Prop} {X X' : σ → Prop} (h : Tri o p s Q X)
    (hq : ∀ a s, Q a s → Q' a s) (hx : ∀ s, X s → X' s) : Tri o p s Q' X' := by
  intro n
  rcases h n with ⟨a, n', s', e, h1⟩ | ⟨n', s', e, h1⟩
  · exact Or.inl ⟨_, _, _, e, hq _ _ h1⟩
  · exact Or.inr ⟨_, _, e, hx _ h1⟩

end Flt
open Flt

namespace Faults
open SpacePartition

section
variable {sp : SpacePartition} (hf : sp.Flat) {o : Nat → Bool}
include hf

theorem findRoot_tri {x r : Nat} {ds : DisjointSets} (hx : x ∈ sp.states) (h : sp.ds.findRoot x = some (r, ds)) {X : SpacePartition → Prop} :
    Tri o (findRoot x) sp (fun a s => s = sp ∧ a = r) X := by
  have e := (hf x hx).eq h
  subst e
  refine Tri.read_bind ?_
  rw [h]
  exact Tri.modify_bind (Tri.pure ⟨rfl, rfl⟩)

variable {H S : Type} [CommRing S] [DecidableEq S] [Algebra ℝ S] [HashImpl H Nat S] {op Cd C : LOperator S} {m m1 m2 : Nat → Nat → S}

theorem fillAll_tri (store : Bool) (k inSub : Nat) (l : List (Nat × S)) (hl : ∀ p ∈ l, p.1 ∈ sp.states) {conn conn' : List (Nat × Nat)}
    {me me' : MatElems S} {ds : DisjointSets} (h : SpacePartition.fillAll store k inSub l sp.ds conn me = some (ds, conn', me')) :
    ds = sp.ds ∧ Tri o (fillAll store k inSub l conn me) sp (fun a s => s = sp ∧ a = (conn', me')) (fun s => s = sp ∧ Fires o) := by
  induction l generalizing conn me with
  | nil => cases h; exact ⟨rfl, Tri.pure ⟨rfl, rfl⟩⟩
  | cons q l ih =>
    obtain ⟨t, a⟩ := q
    have ht := hl (t, a) List.mem_cons_self
    obtain ⟨r, h1⟩ := (hf t ht).findRoot
    rw [SpacePartition.fillAll, h1] at h
    simp only at h
    obtain ⟨e, h2⟩ := ih (fun p hp => hl p (List.mem_cons_of_mem _ hp)) h
    refine ⟨e, ?_⟩
    rw [fillAll]
    refine Tri.bind (findRoot_tri hf ht h1) ?_
    rintro a' s' ⟨rfl, rfl⟩
    exact Tri.point_bind (fun hq => ⟨rfl, hq⟩) (Tri.point_bind (fun hq => ⟨rfl, hq⟩) h2)

theorem fillConn_tri (store : Bool) (k inSub : Nat) {u v v' : SparseSV H S} {conn conn' : List (Nat × Nat)}
    {me me' : MatElems S} {ds : DisjointSets} (hkeys : ∀ w, op.applyTo u v = .ok w → ∀ p ∈ w.foreach, p.1 ∈ sp.states)
    (h : SpacePartition.fillConn store op k inSub u v sp.ds conn me = .ok (v', ds, conn', me')) :
    ds = sp.ds ∧ Tri o (fillConn store op k inSub u v conn me) sp (fun a s => s = sp ∧ a = (v', conn', me')) (fun s => s = sp ∧ Fires o) := by
  unfold SpacePartition.fillConn at h
  split at h
  · cases h
  · next w hw =>
    split at h
    · cases h
    · next r hr =>
      simp only [Except.ok.injEq, Prod.mk.injEq] at h
      obtain ⟨rfl, rfl⟩ := h
      obtain ⟨e, h2⟩ := fillAll_tri (o := o) hf store k inSub _ (hkeys w hw) hr
      refine ⟨e, Tri.point_bind (fun hq => ⟨rfl, hq⟩) ?_⟩
      rw [hw]
      refine Tri.bind h2 ?_
      rintro a' s' ⟨rfl, rfl⟩
      exact Tri.pure ⟨rfl, rfl⟩

theorem fillLoop_tri (hCd : OpActs H Cd sp.states m1) (hC : OpActs H C sp.states m2) (store : Bool) (l : List Nat) (hl : ∀ k ∈ l, k ∈ sp.states)
    {u v : SparseSV H S} (hu : u.data.items = []) (hv : v.data.Nodup) {ds : DisjointSets} {cs cs' : Conns S}
    (h : SpacePartition.fillLoop store Cd C l u v sp.ds cs = .ok (ds, cs')) :
    ds = sp.ds ∧ Tri o (fillLoop store Cd C l u v cs) sp (fun a s => s = sp ∧ a = cs') (fun s => s = sp ∧ Fires o) := by
  induction l generalizing u v cs with
  | nil => cases h; exact ⟨rfl, Tri.pure ⟨rfl, rfl⟩⟩
  | cons k l ih =>
    have hk := hl k List.mem_cons_self
    obtain ⟨r, h1⟩ := (hf k hk).findRoot
    obtain ⟨v1, e1, e2, e3⟩ := hCd.act k hk _ v (single_set hu k) hv
    obtain ⟨v2, f1, f2, f3⟩ := hC.act k hk _ v1 (single_set hu k) e2
    rw [SpacePartition.fillLoop, h1] at h
    simp only at h
    split at h
    · cases h
    · next w1 d1 c1 me1 hf1 =>
      have k1 : ∀ w, Cd.applyTo (u.set k 1) v = .ok w → ∀ p ∈ w.foreach, p.1 ∈ sp.states := by
        intro w hw p hp
        rw [e1] at hw; cases hw
        exact hCd.mem k hk _ ((OpActs.keys e3 p.1).1 (List.mem_map_of_mem hp))
      have q1 := fillConn_tri (o := o) hf store k r k1 hf1
      have hw1 : w1 = v1 := by
        unfold SpacePartition.fillConn at hf1
        rw [e1] at hf1
        simp only at hf1
        split at hf1
        · cases hf1
        · cases hf1; rfl
      subst hw1
      obtain ⟨rfl, q1⟩ := q1
      split at h
      · cases h
      · next w2 d2 c2 me2 hf2 =>
        have k2 : ∀ w, C.applyTo (u.set k 1) w1 = .ok w → ∀ p ∈ w.foreach, p.1 ∈ sp.states := by
          intro w hw p hp
          rw [f1] at hw; cases hw
          exact hC.mem k hk _ ((OpActs.keys f3 p.1).1 (List.mem_map_of_mem hp))
        have q2 := fillConn_tri (o := o) hf store k r k2 hf2
        have hw2 : w2 = v2 := by
          unfold SpacePartition.fillConn at hf2
          rw [f1] at hf2
          simp only at hf2
          split at hf2
          · cases hf2
          · cases hf2; rfl
        subst hw2
        obtain ⟨rfl, q2⟩ := q2
        obtain ⟨e, q3⟩ := ih (fun j hj => hl j (List.mem_cons_of_mem _ hj)) rfl f2 h
        refine ⟨e, ?_⟩
        rw [fillLoop]
        refine Tri.point_bind (fun hq => ⟨rfl, hq⟩) (Tri.bind (findRoot_tri hf hk h1) ?_)
        rintro a s ⟨rfl, rfl⟩
        refine Tri.bind q1 ?_
        rintro a s ⟨rfl, rfl⟩
        refine Tri.bind q2 ?_
        rintro a s ⟨rfl, rfl⟩
        exact q3

omit hf

/-- `find_root` on any object. -/
theorem findRoot_any {sp : SpacePartition} {x r : Nat} {ds : DisjointSets} (h : sp.ds.findRoot x = some (r, ds)) {X : SpacePartition → Prop} :
    Tri o (findRoot x) sp (fun a s => s = { sp with ds := ds } ∧ a = r) X := by
  refine Tri.read_bind ?_
  rw [h]
  exact Tri.modify_bind (Tri.pure ⟨rfl, rfl⟩)

theorem rootLoop_tri {sp : SpacePartition} {node : Nat → Bool} (hn : ∀ i, node i = false) (l : List Nat) (i : Nat) {ds : DisjointSets} {mp : List (Nat × Nat)}
    (h : SpacePartition.rootLoop l sp.ds sp.rootTo = .ok (ds, mp)) {X : SpacePartition → Prop} :
    Tri o (rootLoop node l i) sp (fun _ s => s = { sp with ds := ds, rootTo := mp }) X := by
  induction l generalizing sp i with
  | nil => cases h; exact Tri.pure rfl
  | cons n l ih =>
    rw [SpacePartition.rootLoop] at h
    split at h
    · cases h
    · next r d h1 =>
      rw [rootLoop]
      refine Tri.bind (findRoot_any h1) ?_
      rintro a s ⟨rfl, rfl⟩
      rw [hn i, if_neg (by simp)]
      refine Tri.modify_bind ?_
      exact ih (sp := { sp with ds := d, rootTo := omapEmplace a sp.rootTo.length sp.rootTo }) (i + 1) h

theorem updateRoots_tri {sp sp' : SpacePartition} {node : Nat → Bool} (hn : ∀ i, node i = false)
    (h : SpacePartition.update sp.states sp.vecSize sp.ds = .ok sp') {X : SpacePartition → Prop} :
    Tri o (updateRoots node) sp (fun _ s => s = sp') X := by
  unfold SpacePartition.update at h
  split at h
  · cases h
  · next d1 h1 =>
    split at h
    · cases h
    · next d2 h2 =>
      split at h
      · cases h
      · next d3 m3 h3 =>
        cases h
        unfold updateRoots
        refine Tri.read_bind ?_
        rw [h1]
        simp only [h2]
        refine Tri.modify_bind (Tri.modify_bind ?_)
        exact rootLoop_tri (sp := { sp with ds := d2, rootTo := [] }) hn sp.states 0 h3

include hf in
/-- `merge_subspaces` if the insertions into `root_to_subspace` do not throw. -/
theorem mergeSubspaces_tri (hCd : OpActs H Cd sp.states m1) (hC : OpActs H C sp.states m2) {node : Nat → Bool} (hn : ∀ i, node i = false)
    (store : Bool) {sp' : SpacePartition} {e1 e2 : MatElems S} (h : sp.mergeSubspaces H Cd C store = .ok (sp', e1, e2)) :
    Tri o (mergeSubspaces H node Cd C store) sp (fun a s => s = sp' ∧ a = (e1, e2)) (fun s => (s = sp ∨ s = sp') ∧ Fires o) := by
  unfold SpacePartition.mergeSubspaces at h
  split at h
  · cases h
  · next d1 cs h1 =>
    split at h
    · cases h
    · next d2 h2 =>
      split at h
      · cases h
      · next s h3 =>
        cases h
        obtain ⟨e, q⟩ := fillLoop_tri (o := o) hf hCd hC store sp.states (fun _ h => h) rfl (nodup_make _) h1
        subst e
        unfold mergeSubspaces
        refine Tri.point_bind (fun hq => ⟨Or.inl rfl, hq⟩) (Tri.point_bind (fun hq => ⟨Or.inl rfl, hq⟩) (Tri.read_bind ?_))
        refine Tri.bind (q.mono (fun _ _ h => h) (fun s hs => ⟨Or.inl hs.1, hs.2⟩)) ?_
        rintro a s ⟨rfl, rfl⟩
        refine Tri.read_bind ?_
        rw [h2]
        refine Tri.modify_bind ?_
        refine Tri.bind (updateRoots_tri (sp := { s with ds := d2 }) hn h3) ?_
        rintro _ s' rfl
        exact Tri.point_bind (fun hq => ⟨Or.inr rfl, hq⟩) (Tri.pure ⟨rfl, rfl⟩)

include hf in
/-- Up to the call of `update_root_to_subspace` if nothing else throws, and the first insertion into `root_to_subspace` does. -/
theorem mergeSubspaces_node (hCd : OpActs H Cd sp.states m1) (hC : OpActs H C sp.states m2) {node : Nat → Bool} (hn : node 0 = true)
    (ho : ∀ n, o n = false) (hne : sp.states ≠ [])
    (store : Bool) {sp' : SpacePartition} {e1 e2 : MatElems S} (h : sp.mergeSubspaces H Cd C store = .ok (sp', e1, e2)) :
    Tri o (mergeSubspaces H node Cd C store) sp (fun _ _ => False) (fun s => s.rootTo = [] ∧ s.states = sp.states ∧ s.vecSize = sp.vecSize) := by
  unfold SpacePartition.mergeSubspaces at h
  split at h
  · cases h
  · next d1 cs h1 =>
    split at h
    · cases h
    · next d2 h2 =>
      split at h
      · cases h
      · next s h3 =>
        cases h
        obtain ⟨e, q⟩ := fillLoop_tri (o := o) hf hCd hC store sp.states (fun _ h => h) rfl (nodup_make _) h1
        subst e
        have quiet : ∀ {P : Prop}, Fires o → P := by rintro P ⟨n, hn⟩; rw [ho n] at hn; cases hn
        unfold mergeSubspaces
        refine Tri.point_bind quiet (Tri.point_bind quiet (Tri.read_bind ?_))
        refine Tri.bind (q.mono (fun _ _ h => h) (fun s hs => quiet hs.2)) ?_
        rintro a s ⟨rfl, rfl⟩
        refine Tri.read_bind ?_
        rw [h2]
        refine Tri.modify_bind ?_
        refine Tri.bind (Q := fun _ _ => False) ?_ (fun _ _ h => h.elim)
        unfold SpacePartition.update at h3
        split at h3
        · cases h3
        · next d3 h4 =>
          split at h3
          · cases h3
          · next d4 h5 =>
            split at h3
            · cases h3
            · next d5 m5 h6 =>
              unfold updateRoots
              refine Tri.read_bind ?_
              simp only [h4, h5]
              refine Tri.modify_bind (Tri.modify_bind ?_)
              obtain ⟨n, l, hs⟩ := List.exists_cons_of_ne_nil hne
              · rw [hs, SpacePartition.rootLoop] at h6
                split at h6
                · cases h6
                · next r d7 h7 =>
                  have e : rootLoop node s.states 0 = rootLoop node (n :: l) 0 := by rw [hs]
                  rw [e, rootLoop]
                  refine Tri.bind (findRoot_any (sp := { s with ds := d4, rootTo := [] }) h7) ?_
                  rintro a' s' ⟨rfl, rfl⟩
                  rw [hn, if_pos rfl]
                  exact Tri.raise ⟨rfl, rfl, rfl⟩

end
section
variable {sp : SpacePartition} (hf : sp.Flat) {o : Nat → Bool}
include hf

theorem subspaceOf_tri {k i : Nat} {sp' : SpacePartition} (hk : k ∈ sp.states) (h : sp.subspaceOf k = .ok (i, sp')) {X : SpacePartition → Prop} :
    Tri o (subspaceOf k) sp (fun a s => s = sp ∧ a = i) X := by
  obtain ⟨r, h1⟩ := (hf k hk).findRoot
  unfold SpacePartition.subspaceOf at h
  rw [h1] at h
  simp only at h
  refine Tri.bind (findRoot_tri hf hk h1) ?_
  rintro a s ⟨rfl, rfl⟩
  refine Tri.read_bind ?_
  split at h
  · cases h
  · next j hj =>
    cases h
    rw [hj]
    exact Tri.pure ⟨rfl, rfl⟩

theorem foreachLoop_tri (l : List Nat) (hl : ∀ k ∈ l, k ∈ sp.states) {r : List (Nat × Nat)} {sp' : SpacePartition}
    (h : SpacePartition.foreachLoop l sp = .ok (r, sp')) :
    Tri o (foreachLoop l) sp (fun a s => s = sp ∧ a = r) (fun s => s = sp ∧ Fires o) := by
  induction l generalizing r sp' with
  | nil => cases h; exact Tri.pure ⟨rfl, rfl⟩
  | cons n l ih =>
    rw [SpacePartition.foreachLoop] at h
    split at h
    · cases h
    · next i s h1 =>
      have e := hf.subspaceOf (hl n List.mem_cons_self) h1
      subst e
      split at h
      · cases h
      · next r' s2 h2 =>
        cases h
        rw [foreachLoop]
        refine Tri.bind (subspaceOf_tri hf (hl n List.mem_cons_self) h1) ?_
        rintro a s' ⟨rfl, rfl⟩
        refine Tri.point_bind (fun hq => ⟨rfl, hq⟩) ?_
        refine Tri.bind (ih (fun k hk => hl k (List.mem_cons_of_mem _ hk)) h2) ?_
        rintro a' s' ⟨rfl, rfl⟩
        exact Tri.pure ⟨rfl, rfl⟩

theorem foreach_tri {r : List (Nat × Nat)} {sp' : SpacePartition} (h : sp.foreach = .ok (r, sp')) :
    Tri o foreach sp (fun a s => s = sp ∧ a = r) (fun s => s = sp ∧ Fires o) :=
  Tri.read_bind (foreachLoop_tri hf sp.states (fun _ h => h) h)

variable {H S : Type} [CommRing S] [DecidableEq S] [Algebra ℝ S] [HashImpl H Nat S] {op : LOperator S} {m : Nat → Nat → S}

theorem connAll_tri (inSub : Nat) (l : List (Nat × S)) (hl : ∀ p ∈ l, p.1 ∈ sp.states) {ds : DisjointSets} {cs cs' : List (Nat ×ₗ Nat)}
    (h : SpacePartition.connAll sp.rootTo inSub l sp.ds cs = some (ds, cs')) :
    Tri o (connAll inSub l cs) sp (fun a s => s = sp ∧ a = cs') (fun s => s = sp ∧ Fires o) := by
  induction l generalizing cs with
  | nil => cases h; exact Tri.pure ⟨rfl, rfl⟩
  | cons q l ih =>
    obtain ⟨t, a⟩ := q
    have ht := hl (t, a) List.mem_cons_self
    rw [SpacePartition.connAll] at h
    obtain ⟨r, h1⟩ := (hf t ht).findRoot
    rw [h1] at h
    simp only at h
    split at h
    · cases h
    · next j hj =>
      rw [connAll]
      refine Tri.bind (findRoot_tri hf ht h1) ?_
      rintro a' s ⟨rfl, rfl⟩
      refine Tri.read_bind ?_
      rw [hj]
      exact Tri.point_bind (fun hq => ⟨rfl, hq⟩) (ih (fun p hp => hl p (List.mem_cons_of_mem _ hp)) h)

theorem connLoop_tri (hop : OpActs H op sp.states m) (l : List Nat) (hl : ∀ k ∈ l, k ∈ sp.states)
    {u v : SparseSV H S} (hu : u.data.items = []) (hv : v.data.Nodup) {ds : DisjointSets} {cs cs' : List (Nat ×ₗ Nat)}
    (h : SpacePartition.connLoop sp.rootTo op l u v sp.ds cs = .ok (ds, cs')) :
    Tri o (connLoop op l u v cs) sp (fun a s => s = sp ∧ a = cs') (fun s => s = sp ∧ Fires o) := by
  induction l generalizing u v cs with
  | nil => cases h; exact Tri.pure ⟨rfl, rfl⟩
  | cons k l ih =>
    have hk := hl k List.mem_cons_self
    obtain ⟨r, h1⟩ := (hf k hk).findRoot
    obtain ⟨v1, e1, e2, e3⟩ := hop.act k hk _ v (single_set hu k) hv
    have hkeys := OpActs.keys e3
    rw [SpacePartition.connLoop, h1] at h
    simp only at h
    split at h
    · cases h
    · next inSub hin =>
      rw [e1] at h
      simp only at h
      cases h2 : SpacePartition.connAll sp.rootTo inSub v1.foreach sp.ds cs with
      | none => rw [h2] at h; cases h
      | some q =>
        obtain ⟨d, c⟩ := q
        rw [h2] at h
        simp only at h
        have hm : ∀ p ∈ v1.foreach, p.1 ∈ sp.states := fun p hp => hop.mem k hk _ ((hkeys p.1).1 (List.mem_map_of_mem hp))
        have := hf.connAll inSub v1.foreach hm h2
        subst this
        rw [connLoop]
        refine Tri.bind (findRoot_tri hf hk h1) ?_
        rintro a s ⟨rfl, rfl⟩
        refine Tri.read_bind ?_
        rw [hin]
        refine Tri.point_bind (fun hq => ⟨rfl, hq⟩) (Tri.point_bind (fun hq => ⟨rfl, hq⟩) ?_)
        rw [e1]
        refine Tri.bind (connAll_tri hf inSub _ hm h2) ?_
        rintro a' s' ⟨rfl, rfl⟩
        exact ih (fun j hj => hl j (List.mem_cons_of_mem _ hj)) rfl e2 h

theorem findConnections_tri (hop : OpActs H op sp.states m) {cs : List (Nat ×ₗ Nat)} {sp' : SpacePartition} (h : sp.findConnections H op = .ok (cs, sp')) :
    Tri o (findConnections H op) sp (fun a s => s = sp ∧ a = cs) (fun s => s = sp ∧ Fires o) := by
  unfold SpacePartition.findConnections at h
  split at h
  · cases h
  · next ds cs h1 =>
    cases h
    exact Tri.point_bind (fun hq => ⟨rfl, hq⟩) (Tri.point_bind (fun hq => ⟨rfl, hq⟩) (Tri.read_bind
      (connLoop_tri hf hop sp.states (fun _ h => h) rfl (nodup_make _) h1)))

end

/-! ### `hilbert_space` -/
section
variable {ι : Type} [LinearOrder ι] {o : Nat → Bool}

theorem recomputeLoop_tri (D R : List (ESpace ι × BitRange)) (s : HilbertSpace ι) (hs : s.spaces = D ++ R) :
    Tri o (recomputeLoop R D.length) s
      (fun _ t => t = { s with
        spaces := D ++ (HilbertSpace.recomputeLoop R s.algRanges s.bitRangeEnd).1,
        algRanges := (HilbertSpace.recomputeLoop R s.algRanges s.bitRangeEnd).2.1,
        bitRangeEnd := (HilbertSpace.recomputeLoop R s.algRanges s.bitRangeEnd).2.2 })
      (fun t => t.elementarySpaces = s.elementarySpaces ∧ t.dim = s.dim ∧ t.foreachAlg = s.foreachAlg ∧ Fires o) := by
  induction R generalizing D s with
  | nil =>
    refine Tri.pure ?_
    cases s
    simp only at hs
    subst hs
    rfl
  | cons q R ih =>
    obtain ⟨es, r⟩ := q
    rw [recomputeLoop]
    refine Tri.point_bind (fun hq => ⟨rfl, rfl, rfl, hq⟩) (Tri.read_bind (Tri.modify_bind ?_))
    have e1 : s.spaces.set D.length (es, ⟨s.bitRangeEnd + 1, s.bitRangeEnd + es.nBits⟩)
        = (D ++ [(es, ⟨s.bitRangeEnd + 1, s.bitRangeEnd + es.nBits⟩)]) ++ R := by
      rw [hs]; simp
    have e2 : (s.spaces.set D.length (es, ⟨s.bitRangeEnd + 1, s.bitRangeEnd + es.nBits⟩)).map (·.1) = s.spaces.map (·.1) := by
      rw [e1, hs]; simp
    refine Tri.point_bind (fun hq => ⟨e2, rfl, rfl, hq⟩) (Tri.modify_bind (Tri.modify_bind ?_))
    have := ih (D ++ [(es, ⟨s.bitRangeEnd + 1, s.bitRangeEnd + es.nBits⟩)])
      { s with
        spaces := s.spaces.set D.length (es, ⟨s.bitRangeEnd + 1, s.bitRangeEnd + es.nBits⟩),
        algRanges := HilbertSpace.updateAlg es.algebraId ⟨s.bitRangeEnd + 1, s.bitRangeEnd + es.nBits⟩ s.algRanges,
        bitRangeEnd := s.bitRangeEnd + es.nBits } e1
    rw [List.length_append, List.length_singleton] at this
    refine this.mono ?_ ?_
    · rintro _ t rfl
      simp only [HilbertSpace.recomputeLoop, List.append_assoc, List.singleton_append]
    · rintro t ⟨h1, h2, h3, h4⟩
      exact ⟨h1.trans e2, h2, h3, h4⟩

theorem recompute_tri (s : HilbertSpace ι) :
    Tri o recompute s (fun _ t => s.recompute = (t, none))
      (fun t => t.elementarySpaces = s.elementarySpaces ∧ t.dim = s.dim ∧ t.foreachAlg = s.foreachAlg ∧ (Fires o ∨ ∃ n, s.recompute = (t, some (.tooBig n)))) := by
  unfold recompute
  refine Tri.modify_bind (Tri.modify_bind (Tri.read_bind ?_))
  refine Tri.bind ((recomputeLoop_tri [] s.spaces { s with algRanges := [], bitRangeEnd := -1 } rfl).mono (fun _ _ h => h)
    (fun t h => ⟨h.1, h.2.1, h.2.2.1, Or.inl h.2.2.2⟩)) ?_
  rintro _ t rfl
  refine Tri.read_bind ?_
  simp only [List.nil_append]
  have keys : ((HilbertSpace.recomputeLoop s.spaces [] (-1)).1).map (·.1) = s.spaces.map (·.1) := by
    generalize ([] : List (Int × BitRange)) = a
    generalize (-1 : Int) = e
    induction s.spaces generalizing a e with
    | nil => rfl
    | cons q l ih => simp only [HilbertSpace.recomputeLoop, List.map_cons]; rw [ih]
  split
  · next h =>
    refine Tri.raise ⟨keys, rfl, rfl, Or.inr ⟨(HilbertSpace.recomputeLoop s.spaces [] (-1)).2.2 + 1, ?_⟩⟩
    simp only [HilbertSpace.recompute]
    rw [if_pos h]
  · next h =>
    refine Tri.pure ?_
    simp only [HilbertSpace.recompute]
    rw [if_neg h]

/-- What an exception may leave behind in `add()`. -/
theorem addSpace_tri (es : ESpace ι) (s : HilbertSpace ι) :
    Tri o (addSpace es) s (fun _ t => s.add es = (t, none))
      (fun t => (t = s ∧ (Fires o ∨ s.add es = (s, some .exists_))) ∨
        (∃ sp, HilbertSpace.emplaceSpace es s.spaces = some sp ∧ t.elementarySpaces = sp.map (·.1) ∧ t.foreachAlg = s.foreachAlg ∧
          (t.dim = s.dim ∨ t.dim = mul64 s.dim es.dim) ∧ (Fires o ∨ ∃ n, s.add es = (t, some (.tooBig n))))) := by
  refine Tri.point_bind (fun hq => Or.inl ⟨rfl, Or.inl hq⟩) (Tri.read_bind ?_)
  cases h : HilbertSpace.emplaceSpace es s.spaces with
  | none => exact Tri.raise (Or.inl ⟨rfl, Or.inr (by simp only [HilbertSpace.add, h])⟩)
  | some sp =>
    refine Tri.modify_bind ?_
    refine Tri.bind ((recompute_tri { s with spaces := sp }).mono (fun _ _ h => h) ?_) ?_
    · rintro t ⟨h1, h2, h3, h4⟩
      refine Or.inr ⟨sp, rfl, h1, h3, Or.inl h2, h4.imp id ?_⟩
      rintro ⟨n, hn⟩
      exact ⟨n, by simp only [HilbertSpace.add, h, hn]⟩
    · intro _ t ht
      have hd : t.dim = s.dim ∧ t.foreachAlg = s.foreachAlg ∧ t.elementarySpaces = sp.map (·.1) := by
        unfold HilbertSpace.recompute at ht
        simp only [Prod.mk.injEq] at ht
        obtain ⟨rfl, -⟩ := ht
        refine ⟨rfl, rfl, ?_⟩
        show ((HilbertSpace.recomputeLoop sp [] (-1)).1).map (·.1) = sp.map (·.1)
        generalize ([] : List (Int × BitRange)) = a
        generalize (-1 : Int) = e
        induction sp generalizing a e with
        | nil => rfl
        | cons q l ih =>
          simp only [HilbertSpace.recomputeLoop, List.map_cons]
          congr 1
          clear h ih
          induction l generalizing a e q with
          | nil => rfl
          | cons q' l ih => simp only [HilbertSpace.recomputeLoop, List.map_cons]; rw [ih]
      refine Tri.modify_bind (Tri.point_bind ?_ (Tri.point_bind ?_ (Tri.modify ?_)))
      · exact fun hq => Or.inr ⟨sp, rfl, hd.2.2, hd.2.1, Or.inr (by simp only [hd.1]), Or.inl hq⟩
      · exact fun hq => Or.inr ⟨sp, rfl, hd.2.2, hd.2.1, Or.inr (by simp only [hd.1]), Or.inl hq⟩
      · simp only [HilbertSpace.add, h, ht]

theorem assignLoop_tri (l : List (ESpace ι × BitRange)) (s : HilbertSpace ι) :
    Tri o (each l fun p => do
        point
        Flt.modify fun hs : HilbertSpace ι => { hs with spaces := hs.spaces ++ [p] }) s
      (fun _ t => t = { s with spaces := s.spaces ++ l })
      (fun t => (∃ k ≤ l.length, t = { s with spaces := s.spaces ++ l.take k }) ∧ Fires o) := by
  induction l generalizing s with
  | nil => exact Tri.pure (by simp)
  | cons p l ih =>
    rw [each]
    refine Tri.bind (Q := fun _ t => t = { s with spaces := s.spaces ++ [p] }) ?_ ?_
    · exact Tri.point_bind (fun hq => ⟨⟨0, by simp, by simp⟩, hq⟩) (Tri.modify rfl)
    · rintro _ t rfl
      refine (ih _).mono ?_ ?_
      · rintro _ t rfl
        simp only [List.append_assoc, List.singleton_append]
      · rintro t ⟨⟨k, hk, rfl⟩, hq⟩
        exact ⟨⟨k + 1, by simpa using hk, by simp only [List.take_succ_cons, List.append_assoc, List.singleton_append]⟩, hq⟩

/-- What an exception may leave behind in the copy assignment. -/
theorem assignSpace_tri (src s : HilbertSpace ι) :
    Tri o (assignSpace src) s (fun _ t => t = s.copyAssign src)
      (fun t => (∃ k ≤ src.spaces.length, t.spaces = src.spaces.take k) ∧ t.bitRangeEnd = src.bitRangeEnd ∧ t.foreachAlg = s.foreachAlg ∧
        t.algRanges = s.algRanges ∧ (t.dim = s.dim ∨ t.dim = src.dim) ∧ Fires o) := by
  refine Tri.modify_bind (Tri.modify_bind ?_)
  refine Tri.bind ((assignLoop_tri src.spaces _).mono (fun _ _ h => h) ?_) ?_
  · rintro t ⟨⟨k, hk, rfl⟩, hq⟩
    exact ⟨⟨k, hk, by simp⟩, rfl, rfl, rfl, Or.inl rfl, hq⟩
  · rintro _ t rfl
    refine Tri.modify_bind (Tri.point_bind (fun hq => ?_) (Tri.modify ?_))
    · exact ⟨⟨src.spaces.length, le_rfl, by simp⟩, rfl, rfl, rfl, Or.inr rfl, hq⟩
    · simp [HilbertSpace.copyAssign]

end
end Faults
end LC
