import Verif.Proof.JaynesCummings
import Verif.Props.BasisIndex
/-
C109: linear operators and the Fock space; the program examples/jaynes_cummings.cpp for all values of its constants.
-/
set_option linter.unusedSectionVars false
namespace LC
open Expr HilbertSpace Classical

section
variable {ι : Type _} [LinearOrder ι] {hs : HilbertSpace ι}
theorem findSpace_key {es es' : ESpace ι} (h : es.key = es'.key) : ∀ l, findSpace es l = findSpace es' l
  | [] => rfl
  | (k, r) :: t => by
    have h1 : k.ltOp es = k.ltOp es' := by rw [Bool.eq_iff_iff, ESpace.ltOp_iff, ESpace.ltOp_iff, h]
    have h2 : es.ltOp k = es'.ltOp k := by rw [Bool.eq_iff_iff, ESpace.ltOp_iff, ESpace.ltOp_iff, h]
    rw [findSpace, findSpace, h1, h2, findSpace_key h t]

theorem occ_key {es es' : ESpace ι} (h : es.key = es'.key) (s : Nat) : occ hs s es = occ hs s es' := by
  unfold occ bitRange
  rw [findSpace_key h]
end

section
variable {ι S : Type _} [LinearOrder ι] [CommRing S] [Algebra ℝ S] [ConstScalar S] [ScalarLaws S] [DecidableEq S] [Star S] [IsDomain S]
  [CharZero S] {hs : HilbertSpace ι} {M : Nat → ι → Prop}

/-- **C109** A linear operator acts on a state vector like the operator of the untruncated Fock space on the same vector,
after which the components outside the Hilbert space are discarded. -/
theorem C109_fock_action (hM : HalfAlone M) (hc : Constructed hs) (hpre : PredefinedSpaces hs)
    (hnf : ∀ es ∈ hs.elementarySpaces, ¬ es.Foreign) (e : Expr (Gen ι) S) (he : Reachable (InSpace M hs) e) :
    ∃ op, LOperator.make e hs = .ok op ∧ ∀ φ : DenseSV S, φ.data.length = hs.vecSize → (∀ k, φ.data.getD k 0 ≠ 0 → ValidState hs k) →
      ∃ ψ, op.apply φ = .ok ψ ∧ ψ.data.length = hs.vecSize ∧
        (∀ t (ht : ValidState hs t), ψ.data.getD t 0 =
          evalExpr (fockGen S) e (fockVec hs fun k => φ.data.getD k 0) ⟨conf hs t, conf_phys hc hpre ht⟩) ∧
        ∀ t, ¬ ValidState hs t → ψ.data.getD t 0 = 0 := by
  obtain ⟨op, o1, A⟩ := C38_dense (T := S) hM hc hpre e he
  refine ⟨op, o1, fun φ h1 h2 => ?_⟩
  obtain ⟨ψ, b1, b2, b3⟩ := A φ h1 h2
  refine ⟨ψ, b1, b2, fun t ht => ?_, fun t ht => ?_⟩
  · rw [b3, opApply_fock hM hc hpre hnf he _ ht]
  · rw [b3, opApply, if_neg ht]

/-- **C109** An eigenvector of the operator of the Fock space that fits into the Hilbert space is an eigenvector of the linear
operator with the same eigenvalue. -/
theorem C109_eigenvectors (hM : HalfAlone M) (hc : Constructed hs) (hpre : PredefinedSpaces hs)
    (hnf : ∀ es ∈ hs.elementarySpaces, ¬ es.Foreign) (e : Expr (Gen ι) S) (he : Reachable (InSpace M hs) e) (φ : DenseSV S)
    (h1 : φ.data.length = hs.vecSize) (h2 : ∀ k, φ.data.getD k 0 ≠ 0 → ValidState hs k) (E : S)
    (h : evalExpr (fockGen S) e (fockVec hs fun k => φ.data.getD k 0) = E • fockVec hs fun k => φ.data.getD k 0) :
    ∃ op ψ, LOperator.make e hs = .ok op ∧ op.apply φ = .ok ψ ∧ ψ.data.length = hs.vecSize ∧
      ∀ t, ψ.data.getD t 0 = E * φ.data.getD t 0 := by
  obtain ⟨op, o1, A⟩ := C109_fock_action hM hc hpre hnf e he
  obtain ⟨ψ, b1, b2, b3, b4⟩ := A φ h1 h2
  refine ⟨op, ψ, o1, b1, b2, fun t => ?_⟩
  by_cases ht : ValidState hs t
  · rw [b3 t ht, h, Finsupp.smul_apply, fockVec_apply hc hpre hnf _ ht, smul_eq_mul]
  · rw [b4 t ht]
    by_cases h0 : φ.data.getD t 0 = 0
    · rw [h0, mul_zero]
    · exact (ht (h2 t h0)).elim
end

namespace JaynesCummings

/-- **C109** `[H, N]`, as computed by the example program, is the expression 0 (no terms) for all values of the constants. -/
theorem _root_.LC.C109_printed (p : Params) : (printed p).eqOp 0 = true := by
  rw [eqOp_iff]
  obtain ⟨r1, r2⟩ := r_ham (P := FBS) (fun d => trivial) (fun c => rfl) p
  refine FBS.ext ((r1.mul r2).sub (r2.mul r1)) .zero ?_
  rw [printed, eval_sub, eval_zero, sub_eq_zero, eval_mul FBS.rep (FBS.inP r1) (FBS.inP r2), eval_mul FBS.rep (FBS.inP r2) (FBS.inP r1)]
  exact ham_num Reg.rep_textbook p

variable {dim : Nat} {hs : HilbertSpace Unit}

theorem space_spec (hd : 0 < dim) (h : space dim = .ok hs) : Constructed hs ∧ PredefinedSpaces hs ∧
    (∀ es ∈ hs.elementarySpaces, ¬ es.Foreign) ∧ hs.elementarySpaces.Perm [ESpace.spin 2 (), ESpace.boson dim ()] := by
  have hw : ∀ es ∈ [ESpace.spin 2 (), ESpace.boson dim ()], es.Wf := by
    simp only [List.mem_cons, List.not_mem_nil, or_false, forall_eq_or_imp, forall_eq]
    exact ⟨LC.wf_spin _ (by decide) _, wf_boson _ hd _⟩
  have hp : hs.elementarySpaces.Perm [ESpace.spin 2 (), ESpace.boson dim ()] := by
    obtain ⟨h1, h2⟩ := ofArgs_spec _ hw
    by_cases ha : Acceptable [ESpace.spin 2 (), ESpace.boson dim ()]
    · obtain ⟨l, k1, _, k3⟩ := h1 ha
      rw [space, k3] at h
      cases h
      have hel : (canon l).elementarySpaces = l := by
        unfold elementarySpaces; rw [canon_spaces, layout_fst]
      rw [hel]; exact k1
    · obtain ⟨e, k⟩ := h2 ha
      rw [space, k] at h; cases h
  refine ⟨.ofArgs hw h, fun es he => ?_, fun es he => ?_, hp⟩
  · have := hp.mem_iff.1 he
    simp only [List.mem_cons, List.not_mem_nil, or_false] at this
    rcases this with rfl | rfl
    · refine ⟨by simp [ESpace.spin], by simp [ESpace.spin], fun _ => ⟨2, (), by decide, rfl⟩⟩
    · refine ⟨by simp [ESpace.boson], fun _ => ⟨_, _, rfl⟩, by simp [ESpace.boson]⟩
  · have := hp.mem_iff.1 he
    simp only [List.mem_cons, List.not_mem_nil, or_false] at this
    rcases this with rfl | rfl <;> simp [ESpace.Foreign, ESpace.spin, ESpace.boson]

theorem dims (hd : 0 < dim) (h : space dim = .ok hs) : hs.dimOf (ESpace.boson dim ()) = .ok dim ∧ hs.dimOf (ESpace.spin 2 ()) = .ok 2 := by
  obtain ⟨hc, _, _, hp⟩ := space_spec hd h
  have hmem : ∀ es ∈ hs.elementarySpaces, hs.dimOf es = .ok es.dim := fun es he => by
    obtain ⟨p, hp, rfl⟩ := List.mem_map.1 he
    obtain ⟨f, _, hl⟩ := loc_of_mem hc hp rfl
    exact hl.dimOf
  exact ⟨hmem _ (hp.mem_iff.2 (by simp)), hmem _ (hp.mem_iff.2 (by simp))⟩

/-- The basis state `|n, s⟩`. -/
theorem index_spec (hd : 0 < dim) (h : space dim = .ok hs) {n s : Nat} (hn : n < dim) (hs2 : s < 2) :
    ∃ i, index hs dim n s = .ok i ∧ ValidState hs i ∧ i < hs.vecSize ∧ conf hs i = cfg n s := by
  obtain ⟨hc, _, _, hp⟩ := space_spec hd h
  obtain ⟨d1, d2⟩ := dims hd h
  obtain ⟨i, a, b, c, d, e⟩ := C108_sum hc [(ESpace.boson dim (), n), (ESpace.spin 2 (), s)]
    (by simp [NamedOnce, ESpace.eqOp, ESpace.equal, ESpace.boson, ESpace.spin])
    (by
      simp only [NumbersFit, List.mem_cons, List.not_mem_nil, or_false, forall_eq_or_imp, forall_eq]
      exact ⟨⟨_, d1, hn⟩, ⟨_, d2, hs2⟩⟩)
  refine ⟨i, ?_, b, c, ?_⟩
  · obtain ⟨x, hx, hx1, hx2, _⟩ := C108_single hc _ n _ d1 hn
    obtain ⟨y, hy, hy1, hy2, _⟩ := C108_single hc _ s _ d2 hs2
    have ylt : y < 2 ^ 64 := by
      rw [SpacePartition.vecSize_eq hc] at hy2
      have := (C26_bit_ranges hs hc).2.2.1
      exact hy2.trans_le (Nat.pow_le_pow_right (by norm_num) (by omega))
    simp only [sumIndex, hx, hy, bind, Except.bind, pure, Except.pure, Nat.add_zero, Nat.mod_eq_of_lt ylt] at a
    simp only [index, hx, hy, bind, Except.bind, pure, Except.pure, a]
  · funext k
    cases k with
    | boson j =>
      rw [conf, occ_key (es' := ESpace.boson dim ()) (by rfl), d (ESpace.boson dim (), n) (by simp)]
      rfl
    | fermion j =>
      exact e _ (by simp [ESpace.eqOp, ESpace.equal, ESpace.boson, ESpace.spin, Mode.space, ESpace.fermion])
    | spin m j =>
      by_cases hm : m = 2
      · subst hm
        have := d (ESpace.spin 2 (), s) (by simp)
        rw [conf, cfg, if_pos rfl]; exact this
      · rw [conf, cfg, if_neg hm]
        refine e _ ?_
        simp [ESpace.eqOp, ESpace.equal, ESpace.boson, ESpace.spin, Mode.space, Ne.symm hm]

theorem vec2_getD {i j : Nat} (hi : i < hs.vecSize) (hj : j < hs.vecSize) (hij : i ≠ j) (x y : ℝ) (k : Nat) :
    (vec2 hs i j x y).data.getD k 0 = if k = j then y else if k = i then x else 0 := by
  simp only [vec2, List.getD_eq_getElem?_getD, List.getElem?_set, List.length_set, List.length_replicate, List.getElem?_replicate]
  generalize hs.vecSize = V at *
  by_cases h1 : k = j
  · subst h1; simp [hj]
  · by_cases h2 : k = i
    · subst h2; simp [hi, h1, Ne.symm h1]
    · rw [if_neg (Ne.symm h1), if_neg (Ne.symm h2), if_neg h1, if_neg h2]
      split_ifs <;> rfl

theorem vec1_getD {i : Nat} (hi : i < hs.vecSize) (x : ℝ) (k : Nat) : (vec1 hs i x).data.getD k 0 = if k = i then x else 0 := by
  simp only [vec1, List.getD_eq_getElem?_getD, List.getElem?_set, List.length_replicate, List.getElem?_replicate]
  generalize hs.vecSize = V at *
  by_cases h2 : k = i
  · subst h2; simp [hi]
  · rw [if_neg (Ne.symm h2), if_neg h2]
    split_ifs <;> rfl

theorem fockVec_two {i j : Nat} (hi : ValidState hs i) (hj : ValidState hs j) (hij : i ≠ j) (x y : ℝ) :
    fockVec hs (fun k => if k = j then y else if k = i then x else 0) = x • ket ℝ (conf hs i) + y • ket ℝ (conf hs j) := by
  have : ∀ k, (if k = j then y else if k = i then x else 0) • ket ℝ (conf hs k) =
      (if k = i then x • ket ℝ (conf hs i) else 0) + if k = j then y • ket ℝ (conf hs j) else 0 := by
    intro k
    by_cases h1 : k = j
    · subst h1; simp [Ne.symm hij]
    · by_cases h2 : k = i
      · subst h2; simp [h1]
      · simp [h1, h2]
  simp only [fockVec, this, Finset.sum_add_distrib, Finset.sum_ite_eq', mem_basisStates, hi, hj, if_true]

theorem fockVec_one {i : Nat} (hi : ValidState hs i) (x : ℝ) :
    fockVec hs (fun k => if k = i then x else 0) = x • ket ℝ (conf hs i) := by
  simp only [fockVec, ite_smul, zero_smul, Finset.sum_ite_eq', mem_basisStates, hi, if_true]

theorem foldl_sq (f : Nat → ℝ) : ∀ (l : List Nat) (z : ℝ), l.foldl (fun d i => d + f i ^ 2) z = z + (l.map fun i => f i ^ 2).sum
  | [], z => by simp
  | i :: l, z => by rw [List.foldl_cons, foldl_sq f l, List.map_cons, List.sum_cons, add_assoc]

/-- `diff` vanishes exactly if the vectors agree. -/
theorem diff_zero {psi phi : DenseSV ℝ} {e : ℝ} : diff psi phi e = 0 ↔ ∀ i < psi.data.length, psi.data.getD i 0 = e * phi.data.getD i 0 := by
  have h0 : 0 ≤ ((List.range psi.data.length).map fun i => (psi.data.getD i 0 - e * phi.data.getD i 0) ^ 2).sum :=
    List.sum_nonneg fun x hx => by obtain ⟨i, _, rfl⟩ := List.mem_map.1 hx; positivity
  unfold diff
  rw [foldl_sq (fun i => psi.data.getD i 0 - e * phi.data.getD i 0), zero_add, Real.sqrt_eq_zero h0]
  constructor
  · intro h i hi
    have := (List.single_le_sum (l := (List.range psi.data.length).map fun i => (psi.data.getD i 0 - e * phi.data.getD i 0) ^ 2)
      (fun x hx => by obtain ⟨i, _, rfl⟩ := List.mem_map.1 hx; positivity)) _ (List.mem_map.2 ⟨i, List.mem_range.2 hi, rfl⟩)
    rw [h] at this
    have := pow_eq_zero_iff (two_ne_zero) |>.1 (le_antisymm this (sq_nonneg _))
    linarith
  · intro h
    refine List.sum_eq_zero fun x hx => ?_
    obtain ⟨i, hi, rfl⟩ := List.mem_map.1 hx
    rw [h i (List.mem_range.1 hi)]; ring

/-- The mixing angle. -/
theorem angle (p : Params) (n : Nat) (hδ : p.delta ≠ 0) :
    p.delta = SignType.sign p.delta * Real.sqrt (p.delta * p.delta + n * p.omega * p.omega) * Real.cos (alpha p n) ∧
    p.omega * Real.sqrt n = SignType.sign p.delta * Real.sqrt (p.delta * p.delta + n * p.omega * p.omega) * Real.sin (alpha p n) := by
  have hn : Real.sqrt (n : ℝ) ^ 2 = n := Real.sq_sqrt (by positivity)
  have hR : Real.sqrt (p.delta * p.delta + n * p.omega * p.omega) =
      |p.delta| * Real.sqrt (1 + (p.omega * Real.sqrt n / p.delta) ^ 2) := by
    rw [← Real.sqrt_sq_eq_abs, ← Real.sqrt_mul (sq_nonneg _)]
    congr 1
    field_simp
    rw [hn]; ring
  have hpos : 0 < Real.sqrt (1 + (p.omega * Real.sqrt n / p.delta) ^ 2) := Real.sqrt_pos.2 (by positivity)
  have hs : (SignType.sign p.delta : ℝ) * |p.delta| = p.delta := sign_mul_abs _
  rw [alpha, Real.cos_arctan, Real.sin_arctan, hR, ← mul_assoc, hs]
  constructor
  · field_simp
  · field_simp

theorem reach_ham {p : Params} (hd : 0 < dim) (h : space dim = .ok hs) :
    Reachable (InSpace (fun n _ => n = 2) hs) (ham p) := by
  obtain ⟨d1, d2⟩ := dims hd h
  refine (r_ham (fun d => ⟨trivial, ?_⟩) (fun c => ⟨rfl, MatF.has_of_dim d2⟩) p).1
  have := MatF.has_of_dim d1
  unfold HilbertSpace.has at this ⊢
  show (findSpace (ESpace.boson 1 ()) hs.spaces).isSome = true
  rwa [findSpace_key (es' := ESpace.boson dim ()) (by rfl)]

theorem eigen_diff {p : Params} (hd : 0 < dim) (h : space dim = .ok hs) (φ : DenseSV ℝ) (h1 : φ.data.length = hs.vecSize)
    (h2 : ∀ k, φ.data.getD k 0 ≠ 0 → ValidState hs k) (E : ℝ)
    (h3 : HF p (fockVec hs fun k => φ.data.getD k 0) = E • fockVec hs fun k => φ.data.getD k 0) :
    ∃ op ψ, LOperator.make (ham p) hs = .ok op ∧ op.apply φ = .ok ψ ∧ ψ.data.length = hs.vecSize ∧
      (∀ t, ψ.data.getD t 0 = E * φ.data.getD t 0) ∧ diff ψ φ E = 0 := by
  obtain ⟨hc, hpre, hnf, _⟩ := space_spec hd h
  obtain ⟨op, ψ, a, b, c, d⟩ := C109_eigenvectors (M := fun n _ => n = 2) (fun i n _ hn => hn) hc hpre hnf (ham p) (reach_ham hd h) φ h1 h2 E (by
    rw [(eval_ham (fock_textbook (fun n i hn => by rw [hn]; norm_num)) p).1]; exact h3)
  exact ⟨op, ψ, a, b, c, d, diff_zero.2 fun t _ => d t⟩

/-- **C109** `|0, g⟩` is an eigenvector with the energy `E_gs`: the difference printed is 0, for all values of the constants and
every number of bosonic states. -/
theorem _root_.LC.C109_ground_state (p : Params) (hd : 0 < dim) (h : space dim = .ok hs) :
    ∃ i op ψ, index hs dim 0 0 = .ok i ∧ LOperator.make (ham p) hs = .ok op ∧ op.apply (vec1 hs i 1) = .ok ψ ∧
      diff ψ (vec1 hs i 1) (energyGs p) = 0 := by
  obtain ⟨i, h1, h2, h3, h4⟩ := index_spec (s := 0) hd h hd (by norm_num)
  obtain ⟨op, ψ, a, b, _, _, d⟩ := eigen_diff (p := p) hd h (vec1 hs i 1) (by simp [vec1]) (fun k hk => by
    rw [vec1_getD h3] at hk; by_cases hki : k = i
    · rw [hki]; exact h2
    · simp [hki] at hk) (energyGs p) (by
    simp only [vec1_getD h3]
    rw [fockVec_one h2, h4, one_smul, HF_gs])
  exact ⟨i, op, ψ, h1, a, b, d⟩

theorem doublet {p : Params} (hd : 0 < dim) (h : space dim = .ok hs) {n : Nat} (hn : n + 1 < dim) (x y r : ℝ)
    (h1 : p.delta * x + p.omega * Real.sqrt ((n + 1 : ℕ) : ℝ) * y = r * x)
    (h2 : p.omega * Real.sqrt ((n + 1 : ℕ) : ℝ) * x - p.delta * y = r * y) :
    ∃ i j, index hs dim n 1 = .ok i ∧ index hs dim (n + 1) 0 = .ok j ∧ i ≠ j ∧ i < hs.vecSize ∧ j < hs.vecSize ∧
      ∃ op ψ, LOperator.make (ham p) hs = .ok op ∧ op.apply (vec2 hs i j x y) = .ok ψ ∧ ψ.data.length = hs.vecSize ∧
        (∀ t, ψ.data.getD t 0 = (p.hbar * p.wc * ((n : ℝ) + 1 - 0.5) + 0.5 * p.hbar * r) * (vec2 hs i j x y).data.getD t 0) := by
  obtain ⟨i, i1, i2, i3, i4⟩ := index_spec (n := n) (s := 1) hd h (by omega) (by norm_num)
  obtain ⟨j, j1, j2, j3, j4⟩ := index_spec (n := n + 1) (s := 0) hd h hn (by norm_num)
  have hij : i ≠ j := by
    rintro rfl
    rw [i4] at j4
    have := congrFun j4 (.boson ())
    simp [cfg] at this
  refine ⟨i, j, i1, j1, hij, i3, j3, ?_⟩
  obtain ⟨op, ψ, a, b, c, d, _⟩ := eigen_diff (p := p) hd h (vec2 hs i j x y) (by simp [vec2]) (fun k hk => by
    rw [vec2_getD i3 j3 hij] at hk
    by_cases hkj : k = j
    · rw [hkj]; exact j2
    · by_cases hki : k = i
      · rw [hki]; exact i2
      · simp [hki, hkj] at hk) (p.hbar * p.wc * ((n : ℝ) + 1 - 0.5) + 0.5 * p.hbar * r) (by
    simp only [vec2_getD i3 j3 hij]
    rw [fockVec_two i2 j2 hij, i4, j4]
    push_cast at h1 h2
    exact HF_doublet p n x y _ r h1 h2 rfl)
  exact ⟨op, ψ, a, b, c, d⟩

/-- The dressed states and their energies for either sign of the detuning. -/
theorem dressed {p : Params} (hδ : p.delta ≠ 0) (hd : 0 < dim) (h : space dim = .ok hs) {n : Nat} (h1 : 1 ≤ n) (hn : n < dim) :
    ∃ i j op, index hs dim (n - 1) 1 = .ok i ∧ index hs dim n 0 = .ok j ∧ i ≠ j ∧ i < hs.vecSize ∧ j < hs.vecSize ∧
      LOperator.make (ham p) hs = .ok op ∧
      (∃ ψ, op.apply (vec2 hs i j (Real.cos (alpha p n / 2)) (Real.sin (alpha p n / 2))) = .ok ψ ∧ ψ.data.length = hs.vecSize ∧
        ∀ t, ψ.data.getD t 0 = energy p (SignType.sign p.delta) n *
          (vec2 hs i j (Real.cos (alpha p n / 2)) (Real.sin (alpha p n / 2))).data.getD t 0) ∧
      (∃ ψ, op.apply (vec2 hs i j (Real.sin (alpha p n / 2)) (-Real.cos (alpha p n / 2))) = .ok ψ ∧ ψ.data.length = hs.vecSize ∧
        ∀ t, ψ.data.getD t 0 = energy p (-SignType.sign p.delta) n *
          (vec2 hs i j (Real.sin (alpha p n / 2)) (-Real.cos (alpha p n / 2))).data.getD t 0) := by
  obtain ⟨n, rfl⟩ : ∃ m, n = m + 1 := ⟨n - 1, by omega⟩
  obtain ⟨a1, a2⟩ := angle p (n + 1) hδ
  have en : ∀ x : ℝ, energy p x (n + 1) = p.hbar * p.wc * ((n : ℝ) + 1 - 0.5) + 0.5 * p.hbar *
      (x * Real.sqrt (p.delta * p.delta + (n + 1 : ℕ) * p.omega * p.omega)) := fun x => by rw [energy]; push_cast; ring
  set R := Real.sqrt (p.delta * p.delta + (n + 1 : ℕ) * p.omega * p.omega) with hR
  set α := alpha p (n + 1) with hα
  set σ : ℝ := (SignType.sign p.delta : ℝ) with hσ
  have hcos : Real.cos α = Real.cos (α / 2) * Real.cos (α / 2) - Real.sin (α / 2) * Real.sin (α / 2) := by
    rw [← Real.cos_add]; congr 1; ring
  have hsin : Real.sin α = Real.sin (α / 2) * Real.cos (α / 2) + Real.cos (α / 2) * Real.sin (α / 2) := by
    rw [← Real.sin_add]; congr 1; ring
  have h2 := Real.sin_sq_add_cos_sq (α / 2)
  rw [hcos] at a1
  rw [hsin] at a2
  obtain ⟨i, j, i1, j1, hij, i2, j2, op, ψ, o1, o2, o3, o4⟩ := doublet (p := p) hd h hn (Real.cos (α / 2)) (Real.sin (α / 2)) (σ * R)
    (by rw [a2]; linear_combination Real.cos (α / 2) * a1 + σ * R * Real.cos (α / 2) * h2)
    (by rw [a2]; linear_combination - Real.sin (α / 2) * a1 + σ * R * Real.sin (α / 2) * h2)
  obtain ⟨i', j', i1', j1', _, _, _, op', ψ', o1', o2', o3', o4'⟩ := doublet (p := p) hd h hn (Real.sin (α / 2)) (-Real.cos (α / 2)) (-σ * R)
    (by rw [a2]; linear_combination Real.sin (α / 2) * a1 - σ * R * Real.sin (α / 2) * h2)
    (by rw [a2]; linear_combination Real.cos (α / 2) * a1 + σ * R * Real.cos (α / 2) * h2)
  rw [i1] at i1'; rw [j1] at j1'; rw [o1] at o1'
  cases i1'; cases j1'; cases o1'
  exact ⟨i, j, op, i1, j1, hij, i2, j2, o1, ⟨ψ, o2, o3, by rw [en]; exact o4⟩, ⟨ψ', o2', o3', by rw [en]; exact o4'⟩⟩

/-- **C109** The dressed states `|n, ±⟩` are eigenvectors with the energies `E_±(n)`: the differences printed are 0 for all
values of the constants with a positive detuning, every number of bosonic states, and every doublet that fits. -/
theorem _root_.LC.C109_doublets (p : Params) (hδ : 0 < p.delta) (h : space dim = .ok hs) (n : Nat) (h1 : 1 ≤ n) (hn : n < dim) :
    ∃ i j op, index hs dim (n - 1) 1 = .ok i ∧ index hs dim n 0 = .ok j ∧ LOperator.make (ham p) hs = .ok op ∧
      (∃ ψ, op.apply (vec2 hs i j (Real.cos (alpha p n / 2)) (Real.sin (alpha p n / 2))) = .ok ψ ∧
        diff ψ (vec2 hs i j (Real.cos (alpha p n / 2)) (Real.sin (alpha p n / 2))) (energy p 1 n) = 0) ∧
      (∃ ψ, op.apply (vec2 hs i j (Real.sin (alpha p n / 2)) (-Real.cos (alpha p n / 2))) = .ok ψ ∧
        diff ψ (vec2 hs i j (Real.sin (alpha p n / 2)) (-Real.cos (alpha p n / 2))) (energy p (-1) n) = 0) := by
  obtain ⟨i, j, op, a, b, _, _, _, c, ⟨ψ, d1, _, d2⟩, ⟨ψ', e1, _, e2⟩⟩ := dressed (p := p) hδ.ne' (by omega) h h1 hn
  rw [sign_pos hδ] at d2 e2
  simp only [SignType.coe_one] at d2 e2
  exact ⟨i, j, op, a, b, c, ⟨ψ, d1, diff_zero.2 fun t _ => d2 t⟩, ⟨ψ', e1, diff_zero.2 fun t _ => e2 t⟩⟩

/-- With a negative detuning the formula of the program for the mixing angle belongs to the other energy: the state it calls
`|n, +⟩` has the energy `E_-(n)` and vice versa, and the differences it would print are not 0. -/
theorem _root_.LC.C109_negative_detuning (p : Params) (hδ : p.delta < 0) (hħ : p.hbar ≠ 0) (h : space dim = .ok hs) (n : Nat)
    (h1 : 1 ≤ n) (hn : n < dim) :
    ∃ i j op, index hs dim (n - 1) 1 = .ok i ∧ index hs dim n 0 = .ok j ∧ LOperator.make (ham p) hs = .ok op ∧
      ∃ ψ, op.apply (vec2 hs i j (Real.cos (alpha p n / 2)) (Real.sin (alpha p n / 2))) = .ok ψ ∧
        diff ψ (vec2 hs i j (Real.cos (alpha p n / 2)) (Real.sin (alpha p n / 2))) (energy p (-1) n) = 0 ∧
        diff ψ (vec2 hs i j (Real.cos (alpha p n / 2)) (Real.sin (alpha p n / 2))) (energy p 1 n) ≠ 0 := by
  obtain ⟨i, j, op, a, b, hij, hi, hj, c, ⟨ψ, d1, hl, d2⟩, _⟩ := dressed (p := p) hδ.ne (by omega) h h1 hn
  rw [sign_neg hδ] at d2
  simp only [SignType.coe_neg, SignType.coe_one] at d2
  refine ⟨i, j, op, a, b, c, ψ, d1, diff_zero.2 fun t _ => d2 t, fun h0 => ?_⟩
  have k := diff_zero.1 h0 i (by rw [hl]; exact hi)
  rw [d2, vec2_getD hi hj hij, if_neg hij, if_pos rfl] at k
  have hcos : 0 < Real.cos (alpha p n / 2) := by
    have q1 := Real.neg_pi_div_two_lt_arctan (p.omega * Real.sqrt n / p.delta)
    have q2 := Real.arctan_lt_pi_div_two (p.omega * Real.sqrt n / p.delta)
    have := Real.pi_pos
    refine Real.cos_pos_of_mem_Ioo ⟨?_, ?_⟩ <;> rw [alpha] <;> linarith
  have k' := mul_right_cancel₀ hcos.ne' k
  have hR : 0 < Real.sqrt (p.delta * p.delta + n * p.omega * p.omega) := by
    refine Real.sqrt_pos.2 ?_
    have : (0 : ℝ) ≤ n * p.omega * p.omega := by rw [mul_assoc]; exact mul_nonneg (by positivity) (mul_self_nonneg _)
    nlinarith [mul_pos_of_neg_of_neg hδ hδ]
  have : p.hbar * Real.sqrt (p.delta * p.delta + n * p.omega * p.omega) = 0 := by
    simp only [energy] at k'; linarith
  rcases mul_eq_zero.1 this with h | h
  · exact hħ h
  · exact hR.ne' h

/-- The space of the program exists, with its 1024 bosonic states and with any other number of up to 2⁶² states, and its
constants have a positive detuning. -/
theorem _root_.LC.c109_hypotheses : (∃ hs, space 1024 = .ok hs ∧ hs.vecSize = 2048) ∧
    (∀ dim, 0 < dim → dim ≤ 2 ^ 62 → ∃ hs, space dim = .ok hs) ∧ 0 < (⟨1, 1, 1.1, 0.2⟩ : Params).delta := by
  refine ⟨⟨_, rfl, by decide +kernel⟩, fun dim h0 h1 => ?_, by norm_num [Params.delta]⟩
  refine (C26_construction_succeeds_iff [ESpace.spin 2 (), ESpace.boson dim ()] ?_).1.2 ⟨?_, ?_⟩
  · simp only [List.mem_cons, List.not_mem_nil, or_false, forall_eq_or_imp, forall_eq]
    exact ⟨LC.wf_spin _ (by decide) _, wf_boson _ h0 _⟩
  · simp [ESpace.eqOp, ESpace.equal, ESpace.boson, ESpace.spin]
  · have h2 : Nat.clog 2 dim ≤ 62 := Nat.clog_le_of_le_pow h1
    have h3 : Nat.clog 2 2 = 1 := by decide
    simp only [List.map_cons, List.map_nil, List.sum_cons, List.sum_nil, ESpace.boson, ESpace.spin, h3]
    omega

end JaynesCummings
end LC
