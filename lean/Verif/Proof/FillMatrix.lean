import Verif.Model.FillMatrix
import Verif.Proof.Eigen
import Verif.Props.SectorAction
import Verif.Props.CompView
import Verif.Props.LOperator
/-
Filling matrices column by column.
-/
set_option linter.unusedSectionVars false
set_option linter.unusedSimpArgs false
namespace LC
namespace FillMatrix
open HilbertSpace Expr
variable {ι S T : Type _} [LinearOrder ι] [CommRing S] [DecidableEq S] [ConstScalar S] [ScalarLaws S] [IsDomain S] [CharZero S] [Star S]
  [Algebra ℝ S]

section
variable {X : Type _} [StateVec X S] [ViewOf X (EigenSV S) S]

/-- The action of an operator into a view of an Eigen object changes nothing but the elements of the object. -/
theorem applyTo_put (hupd : ∀ (v : X) n (a : S) v', StateVec.updateAdd v n a = .ok v' → ∃ k, ViewOf.idx v n = .ok k)
    {Y : Type _} [StateVec Y S] (op : LOperator S) (src : Y) (dst dst' : X) (h : op.applyTo src dst = .ok dst') :
    ∃ mem', dst' = ViewOf.put dst (EigenSV.mk mem' (ViewOf.base dst).view) ∧ (ViewOf.base dst).view.OnlyHere (ViewOf.base dst).mem mem' := by
  have key := applyAll_rel (S := S) (T := S) (W := X)
    (fun v v' => ∃ mem', v' = ViewOf.put v (EigenSV.mk mem' (ViewOf.base v).view) ∧ (ViewOf.base v).view.OnlyHere (ViewOf.base v).mem mem')
    (fun v => ⟨(ViewOf.base v).mem, (ViewOf.put_base v).symm, .refl _ _⟩)
    (by
      rintro u v w ⟨a, rfl, e1⟩ ⟨b, rfl, e2⟩
      rw [ViewOf.base_put] at e2 ⊢
      exact ⟨b, by rw [ViewOf.put_put], e1.trans e2⟩)
    (by
      intro v n a v' hu
      obtain ⟨k, hk⟩ := hupd v n a v' hu
      rw [ViewOf.upd_eq v n k a hk] at hu
      cases hx : StateVec.updateAdd (ViewOf.base v) k a with
      | error e => rw [hx] at hu; cases hu
      | ok w =>
        rw [hx] at hu
        cases hu
        obtain ⟨a1, a2⟩ := EigenSV.updateAdd_here hx
        exact ⟨w.mem, by rw [← a1], a2⟩)
  rw [LOperator.applyTo, LOperator.actImpl] at h
  cases hf : StateVec.foreach src with
  | error e => rw [hf] at h; cases h
  | ok l =>
    rw [hf] at h
    obtain ⟨w, hw, e2⟩ := key _ _ _ _ h
    rw [ViewOf.zero_eq, ViewOf.base_put] at hw e2
    rw [ViewOf.put_put] at hw
    refine ⟨w, hw, .trans ?_ e2⟩
    exact EigenSV.zeroLoop_here (ViewOf.base dst).view _ (fun n hn => List.mem_range.1 hn) _

theorem view_amp (v : X) (hv : LawfulSV.inv v) {t i : Nat} (ht : t ∈ LawfulSV.dom v) (hi : ViewOf.idx v t = .ok i) :
    LawfulSV.amp v t = (ViewOf.base v).view.amp (ViewOf.base v).mem i := by
  have hm : t ∈ (ViewOf.states v).map Prod.fst := ht
  obtain ⟨p, hp, rfl⟩ := List.mem_map.1 hm
  have h5 := ViewOf.vamp_of_mem hv hp
  have h6 := ViewOf.Good.idx_eq hv p hp
  rw [hi] at h6
  cases h6
  exact h5
end

theorem unit_inside (dim i : Nat) : (unit (S := S) dim i).view.Inside (unit (S := S) dim i).mem.length := by
  refine ⟨fun j hj => ?_, fun j _ k _ e => ?_⟩
  · have : j < dim := hj
    simpa [unit, EigenView.map, EigenView.addr] using this
  · simpa [unit, EigenView.map, EigenView.addr] using e

theorem unit_amp (dim i j : Nat) (hi : i < dim) : (unit (S := S) dim i).view.amp (unit (S := S) dim i).mem j = if j = i then 1 else 0 := by
  simp only [unit, EigenView.amp, EigenView.map, EigenView.addr, Nat.one_mul, Nat.zero_add]
  by_cases hj : j < dim
  · rw [if_pos hj, List.getD_eq_getElem?_getD, List.getElem?_set]
    by_cases e : j = i
    · subst e; simp [hj]
    · rw [if_neg (fun h => e h.symm), if_neg e]; simp [hj]
  · rw [if_neg hj, if_neg (by omega)]

theorem col_inside {n i : Nat} (hi : i < n) {mem : List S} (hm : mem.length = n * n) : (EigenView.col 0 n i).Inside mem.length := by
  refine ⟨fun j hj => ?_, fun j _ k _ e => ?_⟩
  · have : j < n := hj
    simp only [EigenView.col, EigenView.addr, hm]
    have : n * i + n ≤ n * n := by
      calc n * i + n = n * (i + 1) := by ring
        _ ≤ n * n := Nat.mul_le_mul_left _ hi
    omega
  · simp only [EigenView.col, EigenView.addr] at e; omega

theorem col_ne {n i i' j : Nat} (hj : j < n) (h : i' ≠ i) : ∀ k < (EigenView.col 0 n i).size, n * i' + j ≠ (EigenView.col 0 n i).addr k := by
  intro k hk e
  have hk : k < n := hk
  simp only [EigenView.col, EigenView.addr] at e
  have h1 : (n * i' + j) / n = i' := by rw [Nat.mul_add_div (by omega), Nat.div_eq_of_lt hj, add_zero]
  have h2 : (n * i + k) / n = i := by rw [Nat.mul_add_div (by omega), Nat.div_eq_of_lt hk, add_zero]
  have : n * i' + j = n * i + k := by omega
  rw [this, h2] at h1
  exact h h1.symm

variable {X Y K : Type _} [StateVec X S] [ViewOf X (EigenSV S) S] [StateVec Y S] [ViewOf Y (EigenSV S) S] {hs : HilbertSpace ι} {M : Nat → ι → Prop}

/-- What the loop needs to know about the views. -/
structure Setup (hs : HilbertSpace ι) (e : Expr (Gen ι) S) (l : List Nat) (src : EigenSV S → X) (dst : EigenSV S → Option Y) : Prop where
  valid : ∀ s ∈ l, ValidState hs s
  stay : ∀ k ∈ l, ∀ p ∈ e.terms, ∀ t, ValidState hs t → matEl hs p.1 t k ≠ 0 → t ∈ l
  src_inv : ∀ i < l.length, LawfulSV.inv (src (unit l.length i))
  src_amp : ∀ i a, l[i]? = some a → ∀ s, LawfulSV.amp (src (unit l.length i)) s = if s = a then 1 else 0
  dst_ok : ∀ i < l.length, ∀ mem : List S, mem.length = l.length * l.length → ∃ vd, dst ⟨mem, .col 0 l.length i⟩ = some vd ∧
    ViewOf.base vd = ⟨mem, .col 0 l.length i⟩ ∧ LawfulSV.inv vd ∧ (∀ n, n ∈ LawfulSV.dom vd ↔ n ∈ l) ∧
    ∀ j n, l[j]? = some n → ViewOf.idx vd n = .ok j

theorem opApply_unit (hs : HilbertSpace ι) (e : Expr (Gen ι) S) {ψ : Nat → S} {a : Nat} (ha : ValidState hs a)
    (h : ∀ s, ψ s = if s = a then 1 else 0) {t : Nat} (ht : ValidState hs t) : opApply hs e ψ t = opEl hs e t a := by
  rw [opApply, if_pos ht, Finset.sum_eq_single a]
  · rw [h, if_pos rfl, smul_eq_mul, mul_one]
  · intro b _ hb; rw [h, if_neg hb, smul_zero]
  · intro hn
    exact absurd (Finset.mem_filter.2 ⟨Finset.mem_range.2 ha.1, ha⟩) hn

theorem loop_spec (hupd : ∀ (v : Y) n (a : S) v', StateVec.updateAdd v n a = .ok v' → ∃ k, ViewOf.idx v n = .ok k)
    (hM : HalfAlone M) (h : Constructed hs) (hpre : PredefinedSpaces hs) (e : Expr (Gen ι) S) (he : Reachable (InSpace M hs) e) (op : LOperator S)
    (hop : LOperator.make e hs = .ok op) (l : List Nat) (src : EigenSV S → X) (dst : EigenSV S → Option Y)
    (H : Setup hs e l src dst) (pos : K → Option Nat) (ks : List K) (is : List Nat) (hpos : ks.map pos = is.map some) (his : ∀ i ∈ is, i < l.length)
    (mem : List S) (hmem : mem.length = l.length * l.length) :
    ∃ mem', loop op l.length pos src dst (fun vd => (ViewOf.base vd).mem) ks mem = some mem' ∧ mem'.length = mem.length ∧
      (∀ i ∈ is, ∀ a, l[i]? = some a → ∀ j b, l[j]? = some b → mem'.getD (l.length * i + j) 0 = opEl hs e b a) ∧
      ∀ i ∉ is, ∀ j < l.length, mem'[l.length * i + j]? = mem[l.length * i + j]? := by
  induction ks generalizing is mem with
  | nil =>
    cases is with
    | nil => exact ⟨mem, rfl, rfl, by simp, by simp⟩
    | cons i is => simp at hpos
  | cons k ks ih =>
    cases is with
    | nil => simp at hpos
    | cons i is =>
      simp only [List.map_cons, List.cons.injEq] at hpos
      have hi := his i (by simp)
      obtain ⟨vd, d1, d2, d3, d4, d5⟩ := H.dst_ok i hi mem hmem
      obtain ⟨op', hop', hact⟩ := C38_operator_action (V := X) (W := Y) hM h hpre e he
      rw [hop] at hop'
      cases hop'
      have hvis : ∀ k ∈ LawfulSV.visited (src (unit l.length i)), k = l[i] := by
        intro k hk
        have h0 : LawfulSV.amp (src (unit l.length i)) k ≠ 0 := hk
        rw [H.src_amp i _ (List.getElem?_eq_getElem hi)] at h0
        by_contra hne
        exact h0 (if_neg hne)
      have hmemi : l[i] ∈ l := List.getElem_mem hi
      obtain ⟨vd', c1, c2, c3, c4⟩ := hact (src (unit l.length i)) vd (H.src_inv i hi) d3 (fun k hk => by rw [hvis k hk]; exact H.valid _ hmemi)
        (fun k hk p hp t ht hne => (d4 t).2 (H.stay k (by rw [hvis k hk]; exact hmemi) p hp t ht hne))
      obtain ⟨w, rfl, hw⟩ := applyTo_put hupd op _ vd vd' c1
      rw [d2] at hw
      have hw1 : w.length = mem.length := hw.1
      obtain ⟨mem', m1, m2, m3, m4⟩ := ih is hpos.2 (fun i hi => his i (by simp [hi])) w (hw1.trans hmem)
      refine ⟨mem', ?_, m2.trans hw1, ?_, ?_⟩
      · rw [loop, hpos.1]
        simp only [d1, c1, ViewOf.base_put]
        exact m1
      · intro i' hi' a ha j b hb
        by_cases hin : i' ∈ is
        · exact m3 i' hin a ha j b hb
        · rcases List.mem_cons.1 hi' with rfl | h2
          · have hj : j < l.length := (List.getElem?_eq_some_iff.1 hb).1
            rw [List.getD_eq_getElem?_getD, m4 i' hin j hj]
            have hbl : b ∈ l := List.mem_of_getElem? hb
            have e1 := view_amp (ViewOf.put vd (EigenSV.mk w (ViewOf.base vd).view)) c2 (t := b) (i := j) (by rw [c3]; exact (d4 b).2 hbl)
              (by rw [ViewOf.idx_put]; exact d5 j b hb)
            rw [c4, ViewOf.base_put, d2, opApply_unit hs e (H.valid a (List.mem_of_getElem? ha)) (H.src_amp i' a ha) (H.valid b hbl)] at e1
            rw [e1, EigenView.amp, if_pos (by exact hj), List.getD_eq_getElem?_getD]
            simp [EigenView.col, EigenView.addr]
          · exact absurd h2 hin
      · intro i' hi' j hj
        rw [m4 i' (fun h => hi' (by simp [h])) j hj]
        exact hw.2 _ (col_ne hj fun h => hi' (by simp [h]))

end FillMatrix
end LC
