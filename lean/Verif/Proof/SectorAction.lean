import Verif.Proof.Views
import Verif.Proof.Sector
import Verif.Spec.LOperator
/-
Operators and fermion numbers; the result of an operator acting into a view.
-/
set_option linter.unusedSectionVars false
namespace LC
open HilbertSpace
variable {ι : Type _} [LinearOrder ι]

theorem sum_update_fermion (n : Config ι) (i : ι) (x : Nat) (is : List ι) (hn : is.Nodup) :
    ((is.map fun j => (Function.update n (.fermion i) x (.fermion j) : Nat)).sum : Int) =
      (is.map fun j => n (.fermion j)).sum + if i ∈ is then (x : Int) - n (.fermion i) else 0 := by
  induction is with
  | nil => simp
  | cons j is ih =>
    rw [List.nodup_cons] at hn
    have ih := ih hn.2
    simp only [List.map_cons, List.sum_cons, Nat.cast_add, List.mem_cons, ih]
    by_cases hij : i = j
    · subst hij
      rw [if_neg hn.1, if_pos (Or.inl rfl), Function.update_self]
      omega
    · rw [Function.update_of_ne (by simpa using Ne.symm hij)]
      simp only [hij, false_or]
      omega

theorem sum_update_other (n : Config ι) (k : Mode ι) (x : Nat) (is : List ι) (hk : ∀ i, k ≠ .fermion i) :
    (is.map fun j => (Function.update n k x (.fermion j) : Nat)) = is.map fun j => n (.fermion j) :=
  List.map_congr_left fun j _ => Function.update_of_ne (hk j).symm _ _

/-- A generator changes the number of fermions by its charge. -/
theorem genAct_charge (bd : ι → ℕ∞) (g : Gen ι) (n n' : Config ι) (x : ℝ) (is : List ι) (hn : is.Nodup)
    (h : genAct bd g n = some (n', x)) :
    ((is.map fun j => n' (.fermion j)).sum : Int) = (is.map fun j => n (.fermion j)).sum + (countFermions is).gen g := by
  match g, h with
  | .fermion true i, h =>
    simp only [genAct] at h
    split at h
    · next h0 =>
      cases h
      rw [sum_update_fermion n i 1 is hn, h0]; simp [countFermions, Charge.gen]
    · cases h
  | .fermion false i, h =>
    simp only [genAct] at h
    split at h
    · next h0 =>
      cases h
      rw [sum_update_fermion n i 0 is hn, h0]
      simp only [countFermions, Charge.gen, Bool.false_eq_true, if_false]
      split <;> simp
    · cases h
  | .boson true i, h =>
    simp only [genAct] at h
    split at h
    · cases h; rw [sum_update_other _ _ _ _ (by simp)]; simp [countFermions, Charge.gen]
    · cases h
  | .boson false i, h =>
    simp only [genAct] at h
    split at h
    · cases h
    · cases h; rw [sum_update_other _ _ _ _ (by simp)]; simp [countFermions, Charge.gen]
  | .spin m .plus i, h =>
    simp only [genAct] at h
    split at h
    · cases h; rw [sum_update_other _ _ _ _ (by simp)]; simp [countFermions, Charge.gen]
    · cases h
  | .spin m .minus i, h =>
    simp only [genAct] at h
    split at h
    · cases h
    · cases h; rw [sum_update_other _ _ _ _ (by simp)]; simp [countFermions, Charge.gen]
  | .spin m .z i, h =>
    simp only [genAct] at h
    split at h
    · cases h
    · cases h; simp [Charge.gen]

theorem monAct_charge (bd : ι → ℕ∞) (m : List (Gen ι)) (n n' : Config ι) (x : ℝ) (is : List ι) (hn : is.Nodup)
    (h : monAct bd m n = some (n', x)) :
    ((is.map fun j => n' (.fermion j)).sum : Int) = (is.map fun j => n (.fermion j)).sum + (countFermions is).mon m := by
  induction m generalizing n' x with
  | nil => simp only [monAct, Option.some.injEq, Prod.mk.injEq] at h; rw [← h.1]; simp [Charge.mon]
  | cons g m ih =>
    rw [monAct] at h
    obtain ⟨⟨n1, x1⟩, h1, h2⟩ := Option.bind_eq_some_iff.1 h
    obtain ⟨⟨n2, x2⟩, h3, h4⟩ := Option.map_eq_some_iff.1 h2
    simp only [Prod.mk.injEq] at h4
    obtain ⟨rfl, -⟩ := h4
    rw [genAct_charge bd g n1 n2 x2 is hn h3, ih n1 x1 h1, Charge.mon, Charge.mon, List.map_cons, List.sum_cons]
    omega

/-- A product of generators connects basis states whose fermion numbers differ by its charge. -/
theorem matEl_charge (hs : HilbertSpace ι) (m : List (Gen ι)) (t k : Nat) (is : List ι) (hn : is.Nodup) (h : matEl hs m t k ≠ 0) :
    (nFermions hs t is : Int) = nFermions hs k is + (countFermions is).mon m := by
  unfold matEl at h
  split at h
  · exact absurd rfl h
  · next n x hm =>
    split at h
    · next he =>
      have := monAct_charge _ _ _ _ _ is hn hm
      rw [← he.1] at this
      exact this
    · exact absurd rfl h

variable {X S T : Type _} [CommRing S] [Algebra ℝ S] [AddCommMonoid T] [DecidableEq T] [Module S T] [StateVec X T] [ViewOf X (DenseSV T) T]

/-- The action of an operator into a view of a `std::vector` changes nothing but the elements of the vector. -/
theorem applyTo_put (hupd : ∀ (v : X) n a v', StateVec.updateAdd v n a = .ok v' → ∃ k, ViewOf.idx v n = .ok k)
    {Y : Type _} [StateVec Y T] (op : LOperator S) (src : Y) (dst dst' : X)
    (h : op.applyTo src dst = .ok dst') : ∃ w, dst' = ViewOf.put dst w ∧ w.data.length = (ViewOf.base dst).data.length := by
  have key := applyAll_rel (S := S) (T := T) (W := X)
    (fun v v' => ∃ w, v' = ViewOf.put v w ∧ w.data.length = (ViewOf.base v).data.length)
    (fun v => ⟨ViewOf.base v, (ViewOf.put_base v).symm, rfl⟩)
    (by
      rintro u v w ⟨a, rfl, e1⟩ ⟨b, rfl, e2⟩
      exact ⟨b, ViewOf.put_put _ _ _, by rw [e2, ViewOf.base_put, e1]⟩)
    (by
      intro v n a v' hu
      obtain ⟨k, hk⟩ := hupd v n a v' hu
      rw [ViewOf.upd_eq v n k a hk] at hu
      simp only [StateVec.updateAdd, DenseSV.updateAdd] at hu
      cases hx : (ViewOf.base v).data[k]? with
      | none => simp only [hx] at hu; cases hu
      | some x => simp only [hx] at hu; cases hu; exact ⟨_, rfl, by simp⟩)
  rw [LOperator.applyTo, LOperator.actImpl] at h
  cases hf : StateVec.foreach src with
  | error e => rw [hf] at h; cases h
  | ok l =>
    rw [hf] at h
    obtain ⟨w, hw, e2⟩ := key _ _ _ _ h
    rw [ViewOf.zero_eq] at hw e2
    refine ⟨w, by rw [hw, ViewOf.put_put], ?_⟩
    rw [e2, ViewOf.base_put]
    simp [StateVec.setZeros, DenseSV.setZeros]

theorem view_amp_eq (v : X) (hv : LawfulSV.inv v) {t i : Nat} (ht : t ∈ LawfulSV.dom v) (hi : ViewOf.idx v t = .ok i) :
    LawfulSV.amp v t = (ViewOf.base v).data.getD i 0 := by
  have hm : t ∈ (ViewOf.states v).map Prod.fst := ht
  obtain ⟨p, hp, rfl⟩ := List.mem_map.1 hm
  have h5 := ViewOf.vamp_of_mem hv hp
  have h6 := ViewOf.Good.idx_eq hv p hp
  rw [hi] at h6
  cases h6
  exact h5

end LC
