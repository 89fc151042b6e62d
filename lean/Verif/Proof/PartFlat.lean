import Verif.Proof.PartOps
/-
After `update_root_to_subspace` the parent of every basis state is its representative, so that `find_root` writes nothing.
-/
set_option linter.unusedSectionVars false
namespace LC
open DisjointSets HilbertSpace Expr

namespace DisjointSets

/-- The parent of `x` is a root. -/
def FlatAt (ps : List Nat) (x : Nat) : Prop := ∃ r, ps[x]? = some r ∧ ps[r]? = some r

theorem findRootRec_flat {fuel : Nat} {ps ps' : List Nat} {x r : Nat} (h : findRootRec fuel ps x = some (r, ps')) :
    (ps'[x]? = some r ∧ ps'[r]? = some r) ∧ ∀ y s : Nat, ps[y]? = some s → ps[s]? = some s → ps'[y]? = some s ∧ ps'[s]? = some s := by
  induction fuel generalizing ps ps' x r with
  | zero => cases h
  | succ f ih =>
    simp only [findRootRec] at h
    cases hp : ps[x]? with
    | none => rw [hp] at h; cases h
    | some p =>
      rw [hp] at h
      simp only at h
      cases hpp : ps[p]? with
      | none => rw [hpp] at h; cases h
      | some pp =>
        rw [hpp] at h
        simp only at h
        by_cases hne : pp = p
        · rw [if_neg (by simpa using hne), Option.some.injEq, Prod.mk.injEq] at h
          obtain ⟨rfl, rfl⟩ := h
          exact ⟨⟨hp, by rw [hpp, hne]⟩, fun y s h1 h2 => ⟨h1, h2⟩⟩
        · rw [if_pos hne] at h
          cases hrec : findRootRec f ps p with
          | none => rw [hrec] at h; cases h
          | some q =>
            obtain ⟨r1, ps1⟩ := q
            rw [hrec] at h
            simp only [Option.some.injEq, Prod.mk.injEq] at h
            obtain ⟨rfl, rfl⟩ := h
            obtain ⟨⟨i1, i2⟩, i3⟩ := ih hrec
            have hlen : ∀ {fuel : Nat} {ps ps' : List Nat} {x r : Nat}, findRootRec fuel ps x = some (r, ps') → ps'.length = ps.length := by
              intro fuel
              induction fuel with
              | zero => intro _ _ _ _ h; cases h
              | succ f ih =>
                intro ps ps' x r h
                simp only [findRootRec] at h
                split at h
                · cases h
                · split at h
                  · cases h
                  · split at h
                    · split at h
                      · cases h
                      · next h' =>
                        cases h
                        rw [List.length_set]; exact ih h'
                    · cases h; rfl
            have hx : x < ps1.length := by
              rw [hlen hrec]
              by_contra hc
              rw [List.getElem?_eq_none (by omega)] at hp; cases hp
            refine ⟨⟨by simp [hx], ?_⟩, fun y s h1 h2 => ?_⟩
            · by_cases e : x = r1
              · subst e; simp [hx]
              · rw [List.getElem?_set_ne e]; exact i2
            · obtain ⟨j1, j2⟩ := i3 y s h1 h2
              have hy : x ≠ y := by
                rintro rfl
                rw [hp] at h1; cases h1
                rw [hpp] at h2; cases h2; exact hne rfl
              have hs : x ≠ s := by
                rintro rfl
                rw [hp] at h2; cases h2
                rw [hp] at hpp; cases hpp; exact hne rfl
              rw [List.getElem?_set_ne hy, List.getElem?_set_ne hs]
              exact ⟨j1, j2⟩

theorem findRoot_flat {ds ds' : DisjointSets} {x r : Nat} (h : ds.findRoot x = some (r, ds')) :
    FlatAt ds'.parents x ∧ ∀ y, FlatAt ds.parents y → FlatAt ds'.parents y := by
  unfold findRoot at h
  cases h1 : findRootRec (ds.size + 1) ds.parents x with
  | none => rw [h1] at h; cases h
  | some q =>
    obtain ⟨q1, q2⟩ := q
    rw [h1] at h
    cases h
    obtain ⟨a1, a2⟩ := findRootRec_flat h1
    exact ⟨⟨_, a1⟩, fun y ⟨s, b1, b2⟩ => ⟨s, a2 y s b1 b2⟩⟩

theorem FlatAt.findRoot {ds : DisjointSets} {x : Nat} (h : FlatAt ds.parents x) : ∃ r, ds.findRoot x = some (r, ds) := by
  obtain ⟨r, h1, h2⟩ := h
  refine ⟨r, ?_⟩
  simp only [DisjointSets.findRoot, findRootRec, h1, h2]
  simp

theorem FlatAt.eq {ds ds' : DisjointSets} {x r : Nat} (h : FlatAt ds.parents x) (he : ds.findRoot x = some (r, ds')) : ds' = ds := by
  obtain ⟨s, h1⟩ := h.findRoot
  rw [h1] at he; cases he; rfl

end DisjointSets

namespace SpacePartition

/-- `find_root` writes nothing when it is called for basis states. -/
def Flat (sp : SpacePartition) : Prop := ∀ k ∈ sp.states, FlatAt sp.ds.parents k

theorem rootLoop_flat (l : List Nat) {ds ds' : DisjointSets} {m m' : List (Nat × Nat)} (h : rootLoop l ds m = .ok (ds', m')) :
    (∀ k ∈ l, FlatAt ds'.parents k) ∧ ∀ y, FlatAt ds.parents y → FlatAt ds'.parents y := by
  induction l generalizing ds m with
  | nil => cases h; exact ⟨by simp, fun _ h => h⟩
  | cons k l ih =>
    rw [rootLoop] at h
    cases h1 : ds.findRoot k with
    | none => rw [h1] at h; cases h
    | some q =>
      obtain ⟨r, d⟩ := q
      rw [h1] at h
      obtain ⟨a1, a2⟩ := findRoot_flat h1
      obtain ⟨b1, b2⟩ := ih h
      refine ⟨fun j hj => ?_, fun y hy => b2 y (a2 y hy)⟩
      rcases List.mem_cons.1 hj with rfl | hj
      · exact b2 _ a1
      · exact b1 j hj

theorem update_flat {states : List Nat} {n : Nat} {ds : DisjointSets} {sp : SpacePartition} (h : update states n ds = .ok sp) : sp.Flat := by
  unfold update at h
  cases h1 : ds.compressSets with
  | none => rw [h1] at h; cases h
  | some d1 =>
    rw [h1] at h
    simp only at h
    cases h2 : d1.normalizeSets with
    | none => rw [h2] at h; cases h
    | some d2 =>
      rw [h2] at h
      simp only at h
      cases h3 : rootLoop states d2 [] with
      | error e => rw [h3] at h; cases h
      | ok q =>
        obtain ⟨d3, m⟩ := q
        rw [h3] at h
        cases h
        exact (rootLoop_flat _ h3).1

namespace Flat
variable {sp sp' : SpacePartition} (hf : sp.Flat)
include hf

theorem subspaceOf {k i : Nat} (hk : k ∈ sp.states) (h : sp.subspaceOf k = .ok (i, sp')) : sp' = sp := by
  obtain ⟨r, h1⟩ := (hf k hk).findRoot
  rw [SpacePartition.subspaceOf, h1] at h
  simp only at h
  cases h2 : omapFind r sp.rootTo with
  | none => rw [h2] at h; cases h
  | some j => rw [h2] at h; cases h; rfl

theorem foreachLoop (l : List Nat) (hl : ∀ k ∈ l, k ∈ sp.states) {r : List (Nat × Nat)}
    (h : SpacePartition.foreachLoop l sp = .ok (r, sp')) : sp' = sp := by
  induction l generalizing r with
  | nil => cases h; rfl
  | cons k l ih =>
    rw [SpacePartition.foreachLoop] at h
    cases h1 : sp.subspaceOf k with
    | error e => rw [h1] at h; cases h
    | ok q =>
      obtain ⟨i, sp1⟩ := q
      rw [h1] at h
      have := hf.subspaceOf (hl k List.mem_cons_self) h1
      subst this
      simp only at h
      cases h2 : SpacePartition.foreachLoop l sp1 with
      | error e => rw [h2] at h; cases h
      | ok q =>
        obtain ⟨r, sp2⟩ := q
        rw [h2] at h
        cases h
        exact ih (fun j hj => hl j (List.mem_cons_of_mem _ hj)) h2

theorem foreach {r : List (Nat × Nat)} (h : sp.foreach = .ok (r, sp')) : sp' = sp := hf.foreachLoop sp.states (fun _ h => h) h

theorem subspaceBasis {i : Nat} {l : List Nat} (h : sp.subspaceBasis i = .ok (l, sp')) : sp' = sp := by
  unfold SpacePartition.subspaceBasis at h
  split at h
  · cases h
  · cases h1 : sp.foreach with
    | error e => rw [h1] at h; cases h
    | ok q => obtain ⟨r, s⟩ := q; rw [h1] at h; cases h; exact hf.foreach h1

theorem subspaceBases {l : List (List Nat)} (h : sp.subspaceBases = .ok (l, sp')) : sp' = sp := by
  unfold SpacePartition.subspaceBases at h
  cases h1 : sp.foreach with
  | error e => rw [h1] at h; cases h
  | ok q =>
    obtain ⟨r, s⟩ := q
    rw [h1] at h
    simp only at h
    split at h
    · cases h
    · cases h; exact hf.foreach h1

variable {H S : Type _} [CommRing S] [DecidableEq S] [Algebra ℝ S] [HashImpl H Nat S]
variable {op : LOperator S} {m : Nat → Nat → S}

theorem connAll (inSub : Nat) (l : List (Nat × S)) (hl : ∀ p ∈ l, p.1 ∈ sp.states) {rootTo : List (Nat × Nat)} {ds : DisjointSets} {cs cs' : List (Nat ×ₗ Nat)}
    (h : SpacePartition.connAll rootTo inSub l sp.ds cs = some (ds, cs')) : ds = sp.ds := by
  induction l generalizing cs with
  | nil => cases h; rfl
  | cons q l ih =>
    obtain ⟨t, a⟩ := q
    rw [SpacePartition.connAll] at h
    obtain ⟨r, h1⟩ := (hf t (hl (t, a) List.mem_cons_self)).findRoot
    rw [h1] at h
    simp only at h
    split at h
    · cases h
    · exact ih (fun p hp => hl p (List.mem_cons_of_mem _ hp)) h

theorem connLoop (hop : OpActs H op sp.states m) (l : List Nat) (hl : ∀ k ∈ l, k ∈ sp.states) {rootTo : List (Nat × Nat)}
    {u v : SparseSV H S} (hu : u.data.items = []) (hv : v.data.Nodup) {ds : DisjointSets} {cs cs' : List (Nat ×ₗ Nat)}
    (h : SpacePartition.connLoop rootTo op l u v sp.ds cs = .ok (ds, cs')) : ds = sp.ds := by
  induction l generalizing u v cs with
  | nil => cases h; rfl
  | cons k l ih =>
    have hk := hl k List.mem_cons_self
    obtain ⟨r, h1⟩ := (hf k hk).findRoot
    obtain ⟨v1, e1, e2, e3⟩ := hop.act k hk _ v (single_set hu k) hv
    have hkeys := OpActs.keys e3
    rw [SpacePartition.connLoop, h1] at h
    simp only at h
    split at h
    · cases h
    · next inSub _ =>
      rw [e1] at h
      simp only at h
      cases h2 : SpacePartition.connAll rootTo inSub v1.foreach sp.ds cs with
      | none => rw [h2] at h; cases h
      | some q =>
        obtain ⟨d, c⟩ := q
        rw [h2] at h
        simp only at h
        have := hf.connAll inSub v1.foreach (fun p hp => hop.mem k hk _ ((hkeys p.1).1 (List.mem_map_of_mem hp))) h2
        subst this
        exact ih (fun j hj => hl j (List.mem_cons_of_mem _ hj)) rfl e2 h

theorem findConnections (hop : OpActs H op sp.states m) {cs : List (Nat ×ₗ Nat)} (h : sp.findConnections H op = .ok (cs, sp')) : sp' = sp := by
  unfold SpacePartition.findConnections at h
  split at h
  · cases h
  · next ds cs h1 =>
    cases h
    have := hf.connLoop hop sp.states (fun _ h => h) rfl (nodup_make _) h1
    rw [this]

end Flat
variable {ι S H : Type _} [LinearOrder ι] {hs : HilbertSpace ι} [CommRing S] [DecidableEq S] [ConstScalar S] [ScalarLaws S]
  [IsDomain S] [CharZero S] [Star S] [Algebra ℝ S] [HashImpl H Nat S] {M : Nat → ι → Prop}

theorem query_pure (hc : Constructed hs) (hsmall : hs.foreachAlg.isSome → hs.dim < 2 ^ 31) (hM : HalfAlone M) (hpre : PredefinedSpaces hs)
    {sp sp' : SpacePartition} {R : Nat → Nat} (hi : HInv hs sp R) (hf : sp.Flat) (h : Query H S (InSpace M hs) hs sp sp') : sp' = sp := by
  cases h with
  | subspaceOf k i h =>
    have hk := ((hi.sub hc hsmall k i).1 ⟨_, h⟩).1
    exact hf.subspaceOf (by rw [hi.states, mem_states hc hsmall]; exact hk) h
  | foreach l h => exact hf.foreach h
  | basis i l h => exact hf.subspaceBasis h
  | bases l h => exact hf.subspaceBases h
  | findConnections e op cs ho h =>
    exact hf.findConnections (H := H) (op := op) (by rw [hi.states]; exact opActs (H := H) hc hsmall hM hpre ho) h

theorem partitionOf_flat (hc : Constructed hs) (hsmall : hs.foreachAlg.isSome → hs.dim < 2 ^ 31) (hM : HalfAlone M) (hpre : PredefinedSpaces hs)
    {sp : SpacePartition} (h : PartitionOf H S (InSpace M hs) hs sp) : sp.Flat := by
  induction h with
  | make e ho h =>
    unfold make at h
    split at h
    · cases h
    · exact update_flat h
  | makeMe e ho hme h =>
    unfold makeMe at h
    split at h
    · cases h
    · split at h
      · cases h
      · next h' => cases h; exact update_flat h'
  | merge e1 e2 _ h1 h2 h ih =>
    unfold mergeSubspaces at h
    split at h
    · cases h
    · split at h
      · cases h
      · split at h
        · cases h
        · next h' => cases h; exact update_flat h'
  | query h0 h ih =>
    obtain ⟨R, hi⟩ := partitionOf_inv hc hsmall hM hpre h0
    rw [query_pure hc hsmall hM hpre hi ih h]
    exact ih

end SpacePartition
end LC
