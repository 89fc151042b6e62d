import Verif.Props.Partition
import Verif.Props.Normalisation
import Mathlib.Data.List.Permutation
import Mathlib.Tactic.IntervalCases
/-
C57, finding F6: a Hilbert space, a Hamiltonian and operators for which `merge_subspaces` does not achieve what it announces.
-/
set_option linter.unusedSectionVars false
namespace LC
open HilbertSpace Expr SpacePartition BasisMapper

/-! ### Connections found by `merge_subspaces` when all subspaces are one-dimensional -/
namespace SpacePartition
section
variable {H S : Type _} [CommRing S] [DecidableEq S] [Algebra ℝ S] [HashImpl H Nat S] {op Cd C : LOperator S} {states : List Nat} {m mCd mC : Nat → Nat → S}

theorem multimapInsert_perm {K V : Type _} [LinearOrder K] (k : K) (v : V) (l : List (K × V)) : List.Perm (multimapInsert k v l) ((k, v) :: l) := by
  induction l with
  | nil => exact List.Perm.refl _
  | cons p l ih =>
    obtain ⟨k', v'⟩ := p
    rw [multimapInsert]
    split
    · exact List.Perm.refl _
    · exact (ih.cons _).trans (List.Perm.swap _ _ _)

/-- `find_root` does not modify the object and returns its argument. -/
def Discrete (ds : DisjointSets) (n : Nat) : Prop := ∀ x < n, ds.findRoot x = some (x, ds)

theorem fillAll_discrete {n : Nat} {ds : DisjointSets} (hd : Discrete ds n) (store : Bool) (k i : Nat) (l : List (Nat × S)) (hl : ∀ p ∈ l, p.1 < n)
    (hnd : (l.map Prod.fst).Nodup) (conn : List (Nat × Nat)) (hc : conn.Nodup) (hk : ∀ p ∈ l, (i, p.1) ∉ conn) (me : MatElems S) :
    ∃ conn' me', fillAll store k i l ds conn me = some (ds, conn', me') ∧ conn'.Nodup := by
  induction l generalizing conn me with
  | nil => exact ⟨conn, me, rfl, hc⟩
  | cons p l ih =>
    obtain ⟨t, a⟩ := p
    rw [fillAll, hd t (hl _ List.mem_cons_self)]
    rw [List.map_cons, List.nodup_cons] at hnd
    refine ih (fun q hq => hl q (List.mem_cons_of_mem _ hq)) hnd.2 _ ?_ ?_ _
    · rw [(multimapInsert_perm i t conn).nodup_iff, List.nodup_cons]
      exact ⟨hk (t, a) List.mem_cons_self, hc⟩
    · intro q hq h
      rw [(multimapInsert_perm i t conn).mem_iff, List.mem_cons] at h
      rcases h with h | h
      · cases h
        exact hnd.1 (List.mem_map.2 ⟨q, hq, rfl⟩)
      · exact hk q (List.mem_cons_of_mem _ hq) h

theorem fillConn_discrete {n : Nat} {ds : DisjointSets} (hd : Discrete ds n) (store : Bool) (hop : OpActs H op states m) (hlt : ∀ k ∈ states, k < n) {k : Nat}
    (hk : k ∈ states) {u v : SparseSV H S} (hu : Single u k) (hv : v.data.Nodup) {conn : List (Nat × Nat)} (hc : conn.Nodup)
    (hnot : ∀ t, (k, t) ∉ conn) (me : MatElems S) : ∃ v' conn' me', fillConn store op k k u v ds conn me = .ok (v', ds, conn', me') ∧ conn'.Nodup := by
  obtain ⟨v1, e1, e2, e3⟩ := hop.act k hk u v hu hv
  have hkeys := OpActs.keys e3
  obtain ⟨c1, me1, b1, b2⟩ := fillAll_discrete hd store k k v1.foreach
    (fun p hp => hlt _ (hop.mem k hk _ ((hkeys p.1).1 (List.mem_map_of_mem hp)))) e2 conn hc (fun p _ => hnot _) me
  exact ⟨v1, c1, me1, by rw [fillConn, e1]; simp only [b1], b2⟩

theorem fillLoop_discrete {n : Nat} {ds : DisjointSets} {R : Nat → Nat} (hg : DisjointSets.Good ds R) (hsz : ds.size = n) (hd : Discrete ds n) (store : Bool)
    (hCd : OpActs H Cd states mCd) (hC : OpActs H C states mC) (hlt : ∀ k ∈ states, k < n) (l : List Nat) (hl : ∀ k ∈ l, k ∈ states) (hnd : l.Nodup)
    {u v : SparseSV H S} (hu : u.data.items = []) (hv : v.data.Nodup) {cs : Conns S} (h1 : cs.cdConn.Pairwise fun p q => p.1 ≤ q.1)
    (h2 : cs.cConn.Pairwise fun p q => p.1 ≤ q.1) (h3 : OSorted cs.cdElems) (h4 : OSorted cs.cElems) (n1 : cs.cdConn.Nodup) (n2 : cs.cConn.Nodup)
    (hn1 : ∀ k ∈ l, ∀ t, (k, t) ∉ cs.cdConn) (hn2 : ∀ k ∈ l, ∀ t, (k, t) ∉ cs.cConn) :
    ∃ cs', fillLoop store Cd C l u v ds cs = .ok (ds, cs') ∧ cs'.cdConn.Nodup ∧ cs'.cConn.Nodup := by
  have hR : ∀ x < n, R x = x := fun x hx => by
    obtain ⟨d, a1, _⟩ := hg.findRoot (x := x) (by rw [hsz]; exact hx)
    rw [hd x hx, Option.some.injEq, Prod.mk.injEq] at a1
    exact a1.1.symm
  induction l generalizing u v cs with
  | nil => exact ⟨cs, rfl, n1, n2⟩
  | cons k l ih =>
    have hk := hl k List.mem_cons_self
    rw [List.nodup_cons] at hnd
    obtain ⟨v1, d1, c1, e1, b1, b2, b3, b4, b5, b6, b7⟩ := fillConn_spec store hCd hlt hk k (single_set hu k) hv hg hsz h1 h3
    obtain ⟨v1', c1', e1', x1, x2⟩ := fillConn_discrete hd store hCd hlt hk (single_set hu k) hv n1 (hn1 k List.mem_cons_self) cs.cdElems
    rw [b1] at x1; cases x1
    obtain ⟨v2, d2, c2, e2, f1, f2, f3, f4, f5, f6, f7⟩ := fillConn_spec store hC hlt hk k (single_set hu k) b2 hg hsz h2 h4
    obtain ⟨v2', c2', e2', y1, y2⟩ := fillConn_discrete hd store hC hlt hk (single_set hu k) b2 n2 (hn2 k List.mem_cons_self) cs.cElems
    rw [f1] at y1; cases y1
    have hne : ∀ j ∈ l, j ≠ k := fun j hj e => hnd.1 (e ▸ hj)
    obtain ⟨cs3, g1, g2, g3⟩ := ih (fun j hj => hl j (List.mem_cons_of_mem _ hj)) hnd.2 (u := (u.set k 1).setZeros) (v := v2) rfl f2
      (cs := ⟨c1, e1, c2, e2⟩) b5 f5 b7.1 f7.1 x2 y2
      (fun j hj t h => by
        rcases (b6 _).1 h with h | h
        · exact hn1 j (List.mem_cons_of_mem _ hj) t h
        · exact hne j hj h.1)
      (fun j hj t h => by
        rcases (f6 _).1 h with h | h
        · exact hn2 j (List.mem_cons_of_mem _ hj) t h
        · exact hne j hj h.1)
    refine ⟨cs3, ?_, g2, g3⟩
    rw [fillLoop, hd k (hlt k hk)]
    simp only [b1, f1]
    exact g1

end
end SpacePartition

/-! ### The example: two fermionic modes -/

/-- Occupation numbers of the two modes. -/
def cfg (a b : Nat) : Config Nat
  | .fermion 0 => a
  | .fermion 1 => b
  | _ => 0

/-- `c†_0 + c†_1 c_0 + c†_1 c_1 c_0`. -/
noncomputable def f6Cd [DecidableEq ℂ] : Expr (Gen Nat) ℂ :=
  ofMonomial 1 [.fermion true 0] + ofMonomial 1 [.fermion true 1, .fermion false 0] +
    ofMonomial 1 [.fermion true 1, .fermion false 1, .fermion false 0]

section
variable {hs : HilbertSpace Nat} (hsp : hs.spaces = [(ESpace.fermion 0, ⟨0, 0⟩), (ESpace.fermion 1, ⟨1, 1⟩)])
include hsp

theorem f6_bitRange (es : ESpace Nat) (h0 : es.key ≠ (ESpace.fermion 0).key) (h1 : es.key ≠ (ESpace.fermion 1).key) : hs.bitRange es = .error .notFound := by
  unfold HilbertSpace.bitRange
  cases h : findSpace es hs.spaces with
  | none => rfl
  | some k =>
    obtain ⟨h2, h3⟩ := findSpace_some h
    rw [hsp] at h2
    simp only [List.mem_cons, List.not_mem_nil, or_false] at h2
    rcases h2 with rfl | rfl
    · exact absurd h3.symm h0
    · exact absurd h3.symm h1

theorem f6_other (es : ESpace Nat) (h0 : es.key ≠ (ESpace.fermion 0).key) (h1 : es.key ≠ (ESpace.fermion 1).key) (s : Nat) : occ hs s es = 0 := by
  unfold occ; rw [f6_bitRange hsp es h0 h1]

theorem f6_conf {s : Nat} (hs4 : s < 4) : conf hs s = cfg (s % 2) (s / 2) := by
  funext x
  have b0 : hs.bitRange (ESpace.fermion 0) = .ok ⟨0, 0⟩ := by unfold HilbertSpace.bitRange; rw [hsp]; rfl
  have b1 : hs.bitRange (ESpace.fermion 1) = .ok ⟨1, 1⟩ := by unfold HilbertSpace.bitRange; rw [hsp]; rfl
  match x with
  | .fermion 0 => simp [conf, Mode.space, occ, b0, cfg]
  | .fermion 1 => 
    simp only [conf, Mode.space, occ, b1, cfg]
    interval_cases s <;> rfl
  | .fermion (n + 2) => exact f6_other hsp _ (by simp [Mode.space, ESpace.key, ESpace.fermion]) (by simp [Mode.space, ESpace.key, ESpace.fermion]) s
  | .boson i => exact f6_other hsp _ (by simp [Mode.space, ESpace.key, ESpace.fermion, ESpace.boson]) (by simp [Mode.space, ESpace.key, ESpace.fermion, ESpace.boson]) s
  | .spin i j => exact f6_other hsp _ (by simp [Mode.space, ESpace.key, ESpace.fermion, ESpace.spin]) (by simp [Mode.space, ESpace.key, ESpace.fermion, ESpace.spin]) s

theorem f6_encodes {k t a b : Nat} (ht : t < 4) : Encodes hs k (cfg a b) t ↔ t % 2 = a ∧ t / 2 = b := by
  unfold Encodes
  rw [f6_conf hsp ht]
  constructor
  · rintro ⟨h, _⟩
    exact ⟨congrFun h (.fermion 0), congrFun h (.fermion 1)⟩
  · rintro ⟨rfl, rfl⟩
    refine ⟨rfl, fun es he => ?_⟩
    have h0 : ∀ i, es.key ≠ (ESpace.fermion i).key := fun i h => he.1 (congrArg (fun x => (ofLex x).1) h)
    rw [f6_other hsp es (h0 0) (h0 1), f6_other hsp es (h0 0) (h0 1)]

omit hsp in
theorem cfg_upd0 (a b x : Nat) : Function.update (cfg a b) (.fermion 0) x = cfg x b := by
  funext y
  by_cases h : y = .fermion 0
  · subst h; rw [Function.update_self]; rfl
  · rw [Function.update_of_ne h]
    unfold cfg
    split <;> simp_all

omit hsp in
theorem cfg_upd1 (a b x : Nat) : Function.update (cfg a b) (.fermion 1) x = cfg a x := by
  funext y
  by_cases h : y = .fermion 1
  · subst h; rw [Function.update_self]; rfl
  · rw [Function.update_of_ne h]
    unfold cfg
    split <;> simp_all

omit hsp in
theorem cfg_0 (a b : Nat) : cfg a b (.fermion 0) = a := rfl
omit hsp in
theorem cfg_1 (a b : Nat) : cfg a b (.fermion 1) = b := rfl

theorem f6_mat (k t : Nat) (hk : k < 4) (ht : t < 4) :
    (matEl hs [.fermion true 0] t k ≠ 0 ↔ (k, t) ∈ [(0, 1), (2, 3)]) ∧
    (matEl hs [.fermion true 1, .fermion false 0] t k ≠ 0 ↔ (k, t) ∈ [(1, 2)]) ∧
    (matEl hs [.fermion true 1, .fermion false 1, .fermion false 0] t k ≠ 0 ↔ (k, t) ∈ [(3, 2)]) := by
  unfold matEl
  simp only [monAct, Option.bind_some, genAct, f6_conf hsp hk]
  refine ⟨?_, ?_, ?_⟩ <;>
  · interval_cases k <;> simp only [cfg_0, cfg_1, cfg_upd0, cfg_upd1, f6_encodes hsp ht, Nat.reduceMod, Nat.reduceDiv, if_true, if_false, Option.map_some,
      Option.bind_some, Option.bind_none, Option.map_none, one_ne_zero, zero_ne_one] <;> interval_cases t <;> simp

open scoped Classical in
theorem f6_el (m : List (Gen Nat)) (hm : CanonMon (Allowed fun n _ => n = 2) m) (t k : Nat) :
    opEl hs (ofMonomial (1 : ℂ) m) t k = ((matEl hs m t k : ℝ) : ℂ) := by
  have ht : (ofMonomial (1 : ℂ) m).terms = [(m, 1)] := by
    simp only [Expr.ofMonomial, if_neg one_ne_zero]
    rw [normalize_store, emits_of_canon (nfGen (fun n _ => n = 2) fun i n _ h => h) m hm 1 one_ne_zero]
    simp [Terms.storeAll, Terms.store, Terms.find?, Terms.emplace]
  rw [opEl, ht]
  simp

omit hsp in
theorem f6_canon : CanonMon (Allowed fun n (_ : Nat) => n = 2) [Gen.fermion true 0] ∧
    CanonMon (Allowed fun n (_ : Nat) => n = 2) [Gen.fermion true 1, .fermion false 0] ∧
    CanonMon (Allowed fun n (_ : Nat) => n = 2) [Gen.fermion true 1, .fermion false 1, .fermion false 0] := by
  refine ⟨⟨?_, ?_, ?_⟩, ⟨?_, ?_, ?_⟩, ⟨?_, ?_, ?_⟩⟩
  · simp [Allowed]
  · simp
  · intro g _ p hp hc
    have := List.countP_le_length (p := GenOps.eq g) (l := [Gen.fermion true 0])
    simp only [List.length_cons, List.length_nil] at this
    omega
  · simp [Allowed]
  · simp only [List.isChain_cons_cons, List.isChain_singleton, and_true]; unfold OKPair; decide
  · intro g _ p hp hc
    have := List.countP_le_length (p := GenOps.eq g) (l := [Gen.fermion true 1, .fermion false 0])
    simp only [List.length_cons, List.length_nil] at this
    omega
  · simp [Allowed]
  · simp only [List.isChain_cons_cons, List.isChain_singleton, and_true]; unfold OKPair; decide
  · intro g hg p hp hc
    exfalso
    revert hc
    simp only [List.mem_cons, List.not_mem_nil, or_false] at hg
    have : ∀ g ∈ [Gen.fermion true 1, Gen.fermion false 1, Gen.fermion false 0],
      List.countP (GenOps.eq g) [Gen.fermion true 1, .fermion false 1, .fermion false 0] = 1 := by decide
    rw [this g (by simpa using hg)]
    omega

open scoped Classical in
theorem f6_leads (hv : ∀ k, ValidState hs k ↔ k < 4) (k t : Nat) : Leads hs f6Cd k t ↔ (k, t) ∈ [(0, 1), (1, 2), (2, 3), (3, 2)] := by
  unfold Leads
  rw [hv, hv]
  by_cases hk : k < 4
  swap
  · simp only [List.mem_cons, Prod.mk.injEq, List.not_mem_nil, or_false]; omega
  by_cases ht : t < 4
  swap
  · simp only [List.mem_cons, Prod.mk.injEq, List.not_mem_nil, or_false]; omega
  obtain ⟨c1, c2, c3⟩ := f6_canon
  obtain ⟨a1, a2, a3⟩ := f6_mat hsp k t hk ht
  rw [f6Cd, opEl_add, opEl_add, f6_el hsp _ c1, f6_el hsp _ c2, f6_el hsp _ c3]
  by_cases h1 : (k, t) ∈ [(0, 1), (2, 3)]
  · have h2 : matEl hs [.fermion true 1, .fermion false 0] t k = 0 := by
      by_contra h; have := a2.1 h
      simp only [List.mem_cons, Prod.mk.injEq, List.not_mem_nil, or_false] at this h1; omega
    have h3 : matEl hs [.fermion true 1, .fermion false 1, .fermion false 0] t k = 0 := by
      by_contra h; have := a3.1 h
      simp only [List.mem_cons, Prod.mk.injEq, List.not_mem_nil, or_false] at this h1; omega
    have h4 := a1.2 h1
    simp only [h2, h3, Complex.ofReal_zero, add_zero, ne_eq, Complex.ofReal_eq_zero, h4, not_false_eq_true, and_true]
    simp only [List.mem_cons, Prod.mk.injEq, List.not_mem_nil, or_false] at h1 ⊢; omega
  · have h1' : matEl hs [.fermion true 0] t k = 0 := by by_contra h; exact h1 (a1.1 h)
    by_cases h2 : (k, t) ∈ [(1, 2)]
    · have h3 : matEl hs [.fermion true 1, .fermion false 1, .fermion false 0] t k = 0 := by
        by_contra h; have := a3.1 h
        simp only [List.mem_cons, Prod.mk.injEq, List.not_mem_nil, or_false] at this h2; omega
      have h4 := a2.2 h2
      simp only [h1', h3, Complex.ofReal_zero, add_zero, zero_add, ne_eq, Complex.ofReal_eq_zero, h4, not_false_eq_true, and_true]
      simp only [List.mem_cons, Prod.mk.injEq, List.not_mem_nil, or_false] at h2 ⊢; omega
    · have h2' : matEl hs [.fermion true 1, .fermion false 0] t k = 0 := by by_contra h; exact h2 (a2.1 h)
      simp only [h1', h2', Complex.ofReal_zero, zero_add, ne_eq, Complex.ofReal_eq_zero]
      rw [← ne_eq, a3]
      simp only [List.mem_cons, Prod.mk.injEq, List.not_mem_nil, or_false] at h1 h2 ⊢; omega

end

open scoped Classical in
/-- **C57** Finding F6: the loop merges the targets of two connections only if their sources follow each other in the multimap of connections, which
remains ordered by the representatives *before* the merging. For two fermionic modes, the Hamiltonian `0`, `Cd = c†_0 + c†_1 c_0 + c†_1 c_1 c_0` and
`C = conj(Cd)`, `merge_subspaces(Cd, C)` puts the states 1 and 3 into one subspace, but `C` connects it both to the subspace of the state 0 and to the different
subspace of the state 2. -/
theorem C57_F6_not_one_to_one {H : Type} [HashImpl H Nat ℂ] (store : Bool) : ∃ hs : HilbertSpace Nat, ∃ (op Cd C : LOperator ℂ) (sp sp' : SpacePartition)
    (me1 me2 : MatElems ℂ), Constructed hs ∧ PredefinedSpaces hs ∧ hs.dim = 4 ∧
      OperatorOn (InSpace (fun n _ => n = 2) hs) hs 0 op ∧ OperatorOn (InSpace (fun n _ => n = 2) hs) hs f6Cd Cd ∧
      OperatorOn (InSpace (fun n _ => n = 2) hs) hs f6Cd.conj C ∧
      SpacePartition.make H op hs.foreach hs.vecSize = .ok sp ∧ sp.mergeSubspaces H Cd C store = .ok (sp', me1, me2) ∧
      ∃ i j j', sp'.Sub 1 i ∧ sp'.Sub 3 i ∧ Leads hs f6Cd.conj 1 0 ∧ Leads hs f6Cd.conj 3 2 ∧ sp'.Sub 0 j ∧ sp'.Sub 2 j' ∧ j ≠ j' := by
  obtain ⟨hs, hof, hc, hpre, h3⟩ := smallSpace (l := [ESpace.fermion 0, ESpace.fermion 1])
    (by simp only [List.mem_cons, List.not_mem_nil, or_false, forall_eq_or_imp, forall_eq]; exact ⟨wf_fermion _, wf_fermion _⟩)
    (by simp only [List.mem_cons, List.not_mem_nil, or_false, forall_eq_or_imp, forall_eq]
        exact ⟨⟨fun _ => ⟨_, rfl⟩, by simp [ESpace.fermion], by simp [ESpace.fermion]⟩,
          ⟨fun _ => ⟨_, rfl⟩, by simp [ESpace.fermion], by simp [ESpace.fermion]⟩⟩)
    (by decide +kernel)
  have facts : ((HilbertSpace.ofArgs [ESpace.fermion 0, ESpace.fermion 1]).toOption.map fun hs : HilbertSpace Nat =>
    (decide (hs.foreach = [0, 1, 2, 3]) && decide (hs.dim = 4) && decide (hs.vecSize = 4) && hs.has (ESpace.fermion 0) && hs.has (ESpace.fermion 1) &&
      decide (hs.spaces = [(ESpace.fermion 0, ⟨0, 0⟩), (ESpace.fermion 1, ⟨1, 1⟩)]))) = some true := by decide +kernel
  rw [hof] at facts
  simp only [Except.toOption, Option.map_some, Option.some.injEq, Bool.and_eq_true, decide_eq_true_eq] at facts
  obtain ⟨⟨⟨⟨⟨f1, f2⟩, f3⟩, f4⟩, f5⟩, f6⟩ := facts
  have hM : HalfAlone (fun n (_ : Nat) => n = 2) := fun i n _ h => h
  have hsmall : hs.foreachAlg.isSome → hs.dim < 2 ^ 31 := fun _ => by rw [f2]; norm_num
  have hv : ∀ k, ValidState hs k ↔ k < 4 := fun k => by
    rw [← mem_states hc hsmall, f1]
    simp only [List.mem_cons, List.not_mem_nil, or_false]; omega
  have hmon : ∀ m : List (Gen Nat), (∀ g ∈ m, InSpace (fun n _ => n = 2) hs g) → Reachable (InSpace (fun n _ => n = 2) hs) (ofMonomial (1 : ℂ) m) :=
    fun m hm => .ofMonomial _ _ hm
  have hg0 : ∀ b, InSpace (fun n _ => n = 2) hs (Gen.fermion b 0) := fun b => ⟨trivial, f4⟩
  have hg1 : ∀ b, InSpace (fun n _ => n = 2) hs (Gen.fermion b 1) := fun b => ⟨trivial, f5⟩
  have hCd : Reachable (InSpace (fun n _ => n = 2) hs) f6Cd := by
    refine .add (.add (hmon _ ?_) (hmon _ ?_)) (hmon _ ?_) <;> simp only [List.mem_cons, List.not_mem_nil, or_false, forall_eq_or_imp, forall_eq]
    · exact hg0 _
    · exact ⟨hg1 _, hg0 _⟩
    · exact ⟨hg1 _, hg1 _, hg0 _⟩
  have hC : Reachable (InSpace (fun n _ => n = 2) hs) f6Cd.conj := .conj hCd
  have h0 : Reachable (InSpace (fun n _ => n = 2) hs) (0 : Expr (Gen Nat) ℂ) := .zero
  obtain ⟨op, hop⟩ := make_ok hc hpre (reach_actsOn hM h0)
  obtain ⟨Cd, hopCd⟩ := make_ok hc hpre (reach_actsOn hM hCd)
  obtain ⟨C, hopC⟩ := make_ok hc hpre (reach_actsOn hM hC)
  have lCd := f6_leads f6 hv
  have lC : ∀ k t, Leads hs f6Cd.conj k t ↔ (k, t) ∈ [(1, 0), (2, 1), (2, 3), (3, 2)] := by
    intro k t
    have hrev : Leads hs f6Cd.conj k t ↔ Leads hs f6Cd t k := by
      unfold Leads
      constructor
      · rintro ⟨g1, g2, g3⟩
        rw [opEl_conj (fun x => Complex.conj_ofReal x) hM hc hpre hCd g2 g1] at g3
        exact ⟨g2, g1, fun h => g3 (by rw [h, star_zero])⟩
      · rintro ⟨g1, g2, g3⟩
        refine ⟨g2, g1, ?_⟩
        rw [opEl_conj (fun x => Complex.conj_ofReal x) hM hc hpre hCd g1 g2]
        exact star_ne_zero.2 g3
    rw [hrev, lCd]
    simp only [List.mem_cons, Prod.mk.injEq, List.not_mem_nil, or_false]; omega
  have l0 : ∀ k t, ¬ Leads hs (0 : Expr (Gen Nat) ℂ) k t := fun k t h => h.2.2 rfl
  -- the partition before merging
  obtain ⟨sp, R, _, m1, _, m2, _⟩ := make_spec (H := H) hc hsmall hM hpre ⟨h0, hop⟩ (me := []) (by simp [OSorted])
  have hone : ∀ (l : List Nat) (hl : ∀ k ∈ l, k < 4) (u v : SparseSV H ℂ), u.data.items = [] → v.data.Nodup →
      makeLoop op l u v (.make 4) = .ok (.make 4) := by
    intro l hl
    induction l with
    | nil => intros; rfl
    | cons k l ih =>
      intro u v hu hvn
      obtain ⟨v', x1, x2, x3⟩ := (opActs (H := H) hc hsmall hM hpre ⟨h0, hop⟩).act k ((mem_states hc hsmall k).2 ((hv k).2 (hl k List.mem_cons_self)))
        (u.set k 1) v (single_set hu k) hvn
      have : v'.foreach = [] := by
        rw [List.eq_nil_iff_forall_not_mem]
        rintro ⟨t, a⟩ h
        obtain ⟨y1, y2⟩ := (x3 t a).1 h
        rw [y1] at y2
        exact l0 k t ((mat_ne _ _ _).1 y2)
      rw [makeLoop]
      simp only [x1, this, uniteAll]
      exact ih (fun j hj => hl j (List.mem_cons_of_mem _ hj)) _ _ rfl x2
  have hsp : sp = ⟨[0, 1, 2, 3], 4, .make 4, [(0, 0), (1, 1), (2, 2), (3, 3)]⟩ := by
    have hu : update [0, 1, 2, 3] 4 (.make 4) = .ok ⟨[0, 1, 2, 3], 4, .make 4, [(0, 0), (1, 1), (2, 2), (3, 3)]⟩ := by decide +kernel
    have := m1
    rw [SpacePartition.make, f1, f3, hone _ (by decide) _ _ rfl (nodup_make _)] at this
    simp only [hu] at this
    cases this; rfl
  -- the connections
  obtain ⟨hinv, hst, hsz, _⟩ := m2
  have aCd := opActs (H := H) hc hsmall hM hpre ⟨hCd, hopCd⟩
  have aC := opActs (H := H) hc hsmall hM hpre ⟨hC, hopC⟩
  rw [f1] at aCd aC
  have hgood := hinv.good
  have hgs := hinv.size
  rw [hsp] at hgood hgs
  have hd : Discrete (.make 4) 4 := by
    intro x hx; interval_cases x <;> decide +kernel
  have hR : ∀ x < 4, R x = x := fun x hx => by
    obtain ⟨d, a1, _⟩ := hgood.findRoot (x := x) (by rw [hgs]; exact hx)
    simp only [hd x hx, Option.some.injEq, Prod.mk.injEq] at a1
    exact a1.1.symm
  obtain ⟨cs, b1, b2, b3⟩ := fillLoop_discrete hgood hgs hd store aCd aC (by decide) [0, 1, 2, 3] (fun _ h => h) (by decide)
    (u := SparseSV.make 4) (v := SparseSV.make 4) rfl (nodup_make _) (cs := ⟨[], [], [], []⟩) (by simp) (by simp) (by simp [OSorted]) (by simp [OSorted])
    (by simp) (by simp) (by simp) (by simp)
  obtain ⟨d1, cs', a1, _, _, a4, a5, _, _⟩ := fillLoop_spec store aCd aC (by decide) [0, 1, 2, 3] (fun _ h => h)
    (u := SparseSV.make 4) (v := SparseSV.make 4) rfl (nodup_make _) hgood hgs (cs := ⟨[], [], [], []⟩) (by simp) (by simp) (by simp [OSorted])
    (by simp [OSorted])
  rw [b1] at a1; cases a1
  have key : ∀ (e : Expr (Gen Nat) ℂ) (L conn : List (Nat × Nat)), (∀ k t, Leads hs e k t ↔ (k, t) ∈ L) → L.Nodup → (∀ p ∈ L, p.1 < 4 ∧ p.2 < 4) → conn.Nodup →
      Connects R (mat hs e) [0, 1, 2, 3] [] conn → conn.Perm L := by
    intro e L conn hL hn hlt hcn hco
    rw [List.perm_ext_iff_of_nodup hcn hn]
    rintro ⟨a, b⟩
    rw [hco.2]
    simp only [List.not_mem_nil, false_or, mat_ne, hL]
    constructor
    · rintro ⟨k, _, t, h, he⟩
      obtain ⟨l1, l2⟩ := hlt _ h
      rw [hR k l1, hR t l2] at he
      rw [he]; exact h
    · intro h
      obtain ⟨l1, l2⟩ := hlt _ h
      refine ⟨a, ?_, b, h, by rw [hR a l1, hR b l2]⟩
      simp only [List.mem_cons, List.not_mem_nil, or_false]
      simp only at l1; omega
  have p1 := key _ _ _ lCd (by decide) (by decide) b2 a4
  have p2 := key _ _ _ lC (by decide) (by decide) b3 a5
  have q1 : cs.cdConn ∈ (List.permutations' [(0, 1), (1, 2), (2, 3), (3, 2)]).filter fun l => decide (l.Pairwise fun p q => p.1 ≤ q.1) :=
    List.mem_filter.2 ⟨List.mem_permutations'.2 p1, decide_eq_true a4.1⟩
  have q2 : cs.cConn ∈ (List.permutations' [(1, 0), (2, 1), (2, 3), (3, 2)]).filter fun l => decide (l.Pairwise fun p q => p.1 ≤ q.1) :=
    List.mem_filter.2 ⟨List.mem_permutations'.2 p2, decide_eq_true a5.1⟩
  rw [show ((List.permutations' [(0, 1), (1, 2), (2, 3), (3, 2)]).filter fun l => decide (l.Pairwise fun p q => p.1 ≤ q.1)) =
    [[(0, 1), (1, 2), (2, 3), (3, 2)]] by decide +kernel, List.mem_singleton] at q1
  rw [show ((List.permutations' [(1, 0), (2, 1), (2, 3), (3, 2)]).filter fun l => decide (l.Pairwise fun p q => p.1 ≤ q.1)) =
    [[(1, 0), (2, 1), (2, 3), (3, 2)], [(1, 0), (2, 3), (2, 1), (3, 2)]] by decide +kernel, List.mem_cons, List.mem_singleton] at q2
  -- the result
  have fin : ∀ c ∈ [[(1, 0), (2, 1), (2, 3), (3, 2)], [(1, 0), (2, 3), (2, 1), (3, 2)]],
      (((mergeWhile [(0, 1), (1, 2), (2, 3), (3, 2)] c ((DisjointSets.make 4).numSets + 1) (.make 4)).map fun ds => (update [0, 1, 2, 3] 4 ds).toOption.map fun sp =>
        [(sp.subspaceOf 0).toOption.map Prod.fst, (sp.subspaceOf 1).toOption.map Prod.fst, (sp.subspaceOf 2).toOption.map Prod.fst,
          (sp.subspaceOf 3).toOption.map Prod.fst]) = some (some [some 0, some 1, some 2, some 1])) := by decide +kernel
  have fin := fin cs.cConn (by simpa using q2)
  cases hmw : mergeWhile [(0, 1), (1, 2), (2, 3), (3, 2)] cs.cConn ((DisjointSets.make 4).numSets + 1) (.make 4) with
  | none => rw [hmw] at fin; cases fin
  | some ds2 =>
    rw [hmw] at fin
    cases hup : update [0, 1, 2, 3] 4 ds2 with
    | error e => rw [Option.map_some, hup] at fin; simp [Except.toOption] at fin
    | ok sp' =>
      rw [Option.map_some, hup] at fin
      simp only [Except.toOption, Option.map_some, Option.some.injEq, List.cons.injEq, and_true] at fin
      obtain ⟨s0, s1, s2, s3⟩ := fin
      have hsub : ∀ k i, Option.map Prod.fst (sp'.subspaceOf k).toOption = some i → sp'.Sub k i := by
        intro k i h
        cases hk : sp'.subspaceOf k with
        | error e => rw [hk] at h; simp [Except.toOption] at h
        | ok r =>
          rw [hk] at h
          simp only [Except.toOption, Option.map_some, Option.some.injEq] at h
          exact ⟨r.2, by rw [hk, ← h]⟩
      refine ⟨hs, op, Cd, C, sp, sp', cs.cdElems, cs.cElems, hc, hpre, f2, ⟨h0, hop⟩, ⟨hCd, hopCd⟩, ⟨hC, hopC⟩, m1, ?_, 1, 0, 2, hsub _ _ s1, hsub _ _ s3,
        (lC _ _).2 (by decide), (lC _ _).2 (by decide), hsub _ _ s0, hsub _ _ s2, by decide⟩
      rw [hsp, mergeSubspaces]
      simp only [b1, q1, hmw, hup]
end LC
