import Verif.Proof.ThrowAction
import Verif.Proof.LOpReach
import Verif.Props.IntScalar
import Verif.Props.LOperator
/-
C84: linear operators with integer (`int`, `long`, `mpz_class`) and rational (`mpq_class`, `boost::rational`) coefficients.
-/
set_option linter.unusedSectionVars false
set_option linter.unusedVariables false
namespace LC
open HilbertSpace Expr Thr
variable {ι S R T T' : Type _} [LinearOrder ι] {hs : HilbertSpace ι}

theorem embedReal_int : EmbedReal (Int.castRingHom ℝ) where
  exact x s h := by
    simp only [DoubleConst.makeDouble] at h
    split at h
    · next h1 => cases h; exact h1
    · cases h

theorem embedReal_rat : EmbedReal (Rat.castHom ℝ) where
  exact x s h := by
    simp only [DoubleConst.makeDouble] at h
    split at h
    · next h1 => cases h; simpa using h1
    · cases h

theorem hasInt_int : HasInt ℤ := fun z => ⟨z, by simp [DoubleConst.makeDouble]⟩
theorem hasInt_rat : HasInt ℚ := fun z => ⟨z, by simp [DoubleConst.makeDouble]⟩

theorem actsOn_rat {M : Nat → ι → Prop} (hM : HalfAlone M) {e : Expr (Gen ι) ℚ} (he : Reachable (InSpace M hs) e) : Thr.ActsOn hs e := by
  have h := he.allCanon (nfGen_on hM) conjOK_on
  exact fun p hp => ⟨canonicalMonomial_of_chain (h p hp).chain, fun g hg => ((h p hp).mem g hg).2⟩

theorem actsOn_int {M : Nat → ι → Prop} (hM : HalfAlone M) {e : Expr (Gen ι) ℤ} (he : ReachableInt (InSpace M hs) e) :
    Thr.ActsOn hs e := fun p hp =>
  actsOn_rat hM (C77_reachable he) (p.1, (p.2 : ℚ)) (List.mem_map.2 ⟨p, hp, rfl⟩)

section general
variable [CommRing S] [DoubleConst S] [CommRing R] [Algebra ℝ R] {emb : S →+* R} [AddCommGroup T] [Module S T] [DecidableEq T]
  [AddCommGroup T'] [Module R T'] [DecidableEq T'] {j : T →+ T'}

theorem getD_mapTo (v : DenseSV T) (t : Nat) : (v.mapTo j).data.getD t 0 = j (v.data.getD t 0) := by
  simp only [DenseSV.mapTo, List.getD_eq_getElem?_getD, List.getElem?_map]
  cases v.data[t]? <;> simp

/-- **C84** Scalar types that are embedded in the real (or complex) numbers by `emb`, vectors of elements embedded by `j`:
`make_loperator` succeeds, and `op(src, dst)` with `std::vector`s of `vec_size()` elements either throws, because a square root
or a half-integer number cannot be converted, or sets `dst` to exactly the matrix times `src`. -/
theorem C84_exact_or_exception (hE : EmbedReal emb) (hj : Function.Injective j) (hsm : ∀ (s : S) (a : T), j (s • a) = emb s • j a)
    (hc : Constructed hs) (hpre : PredefinedSpaces hs) (e : Expr (Gen ι) S) (hA : Thr.ActsOn hs e) :
    ∃ op, LOperator.make e hs = .ok op ∧ ∀ src dst : DenseSV T, dst.data.length = hs.vecSize →
      (∀ k, src.data.getD k 0 ≠ 0 → ValidState hs k) →
      Thr.applyTo op src dst = .error .thrown ∨
      ∃ dst', Thr.applyTo op src dst = .ok dst' ∧ dst'.data.length = hs.vecSize ∧
        ∀ t, j (dst'.data.getD t 0) = opApply hs (e.mapCoeffs emb) (fun k => j (src.data.getD k 0)) t := by
  have hA' : LC.ActsOn hs (e.mapCoeffs emb) := by
    intro p hp
    obtain ⟨q, hq, rfl⟩ := List.mem_map.1 hp
    exact hA q hq
  obtain ⟨op', hop'⟩ := make_ok hc hpre hA'
  have hmap := make_mapTo (emb := emb) hs e
  have hop'' : LOperator.make (⟨e.terms.map fun p => (p.1, emb p.2)⟩ : Expr (Gen ι) R) hs = .ok op' := hop'
  rw [hop''] at hmap
  cases hop : LOperator.make e hs with
  | error x => rw [hop] at hmap; cases hmap
  | ok op =>
    rw [hop] at hmap
    have hmap : op' = op.mapTo emb := by cases hmap; rfl
    subst hmap
    refine ⟨op, rfl, fun src dst hlen hv => ?_⟩
    have hsim := actImpl_sim hE hj hsm op src (StateVec.setZeros dst)
    have h63 := (C26_bit_ranges hs hc).2.2.1
    have hvs : hs.vecSize = 2 ^ hs.totalNBits.toNat := by unfold vecSize; rw [pow2_eq (by omega)]
    have hlen0 : ((StateVec.setZeros dst : DenseSV T).mapTo j).data.length = hs.vecSize := by
      rw [← hlen]; simp [DenseSV.mapTo, StateVec.setZeros, DenseSV.setZeros]
    obtain ⟨w, e1, e2, e3, e4⟩ := actImpl_spec (T := T') hc hpre hop'' (fun p hp => (hA' p hp).1) (src.mapTo j)
      ((StateVec.setZeros dst : DenseSV T).mapTo j) trivial trivial
      (fun k hk => hv k (by
        have hk : (src.mapTo j).data.getD k 0 ≠ 0 := hk
        rw [getD_mapTo] at hk
        intro h0; rw [h0, map_zero] at hk; exact hk rfl))
      (fun k _ p _ t ht _ => by
        show t < ((StateVec.setZeros dst : DenseSV T).mapTo j).data.length
        rw [hlen0, hvs]; exact ht.1)
    rw [e1] at hsim
    show Thr.actImpl op src (StateVec.setZeros dst) = _ ∨ ∃ dst', Thr.actImpl op src (StateVec.setZeros dst) = _ ∧ _
    rcases hr : Thr.actImpl op src (StateVec.setZeros dst) with (x | _) | dst'
    · rw [hr] at hsim; cases hsim
    · left; rfl
    · rw [hr] at hsim
      have hw : w = dst'.mapTo j := by cases hsim; rfl
      subst hw
      refine Or.inr ⟨dst', rfl, ?_, fun t => ?_⟩
      · have : ∀ n, n < (dst'.mapTo j).data.length ↔ n < ((StateVec.setZeros dst : DenseSV T).mapTo j).data.length := fun n => by
          have := congrArg (n ∈ ·) e3
          exact iff_of_eq this
        rw [hlen0] at this
        have l1 : (dst'.mapTo j).data.length = dst'.data.length := by simp [DenseSV.mapTo]
        rw [l1] at this
        have e1 := this hs.vecSize
        have e2 := this dst'.data.length
        omega
      · have h4 := e4 t
        have h5 : LawfulSV.amp ((StateVec.setZeros dst : DenseSV T).mapTo j) t = (0 : T') := by
          show ((StateVec.setZeros dst : DenseSV T).mapTo j).data.getD t 0 = 0
          rw [getD_mapTo]
          have : (StateVec.setZeros dst : DenseSV T).data.getD t 0 = 0 := by
            simp only [StateVec.setZeros, DenseSV.setZeros, List.getD_eq_getElem?_getD, List.getElem?_map]
            cases dst.data[t]? <;> simp
          rw [this, map_zero]
        rw [h5, zero_add] at h4
        have h6 : LawfulSV.amp (dst'.mapTo j) t = j (dst'.data.getD t 0) := getD_mapTo dst' t
        have h7 : (LawfulSV.amp (src.mapTo j) : Nat → T') = fun k => j (src.data.getD k 0) := funext fun k => getD_mapTo src k
        rw [h6, h7] at h4
        exact h4

/-- **C84** Nothing is thrown if all matrix elements of the generators are integers: fermions, `S_±` of spins 1/2, `S_z` of
integer spins. -/
theorem C84_no_exception (hI : HasInt S) (hc : Constructed hs) (hpre : PredefinedSpaces hs) (e : Expr (Gen ι) S) (hA : Thr.ActsOn hs e)
    (hi : ∀ p ∈ e.terms, ∀ g ∈ p.1, IntegerElements g) (op : LOperator S) (hop : LOperator.make e hs = .ok op) (src dst : DenseSV T) :
    Thr.applyTo op src dst ≠ .error .thrown :=
  actImpl_safe hI hc hpre hop (fun p hp => ⟨(hA p hp).1, hi p hp⟩) _ _

end general

/-- **C84** Integer coefficients and vectors of integers, with the exceptions of `C84_exact_or_exception`. -/
theorem C84_integer {M : Nat → ι → Prop} (hM : HalfAlone M) (hc : Constructed hs) (hpre : PredefinedSpaces hs) (e : Expr (Gen ι) ℤ)
    (he : ReachableInt (InSpace M hs) e) :
    ∃ op, LOperator.make e hs = .ok op ∧ ∀ src dst : DenseSV ℤ, dst.data.length = hs.vecSize →
      (∀ k, src.data.getD k 0 ≠ 0 → ValidState hs k) →
      ((∀ p ∈ e.terms, ∀ g ∈ p.1, IntegerElements g) → Thr.applyTo op src dst ≠ .error .thrown) ∧
      (Thr.applyTo op src dst = .error .thrown ∨
      ∃ dst', Thr.applyTo op src dst = .ok dst' ∧ dst'.data.length = hs.vecSize ∧
        ∀ t, ((dst'.data.getD t 0 : ℤ) : ℝ)
          = opApply hs (e.mapCoeffs fun n : ℤ => (n : ℝ)) (fun k => ((src.data.getD k 0 : ℤ) : ℝ)) t) := by
  obtain ⟨op, hop, h⟩ := C84_exact_or_exception (T := ℤ) (T' := ℝ) (j := Int.castAddHom ℝ) embedReal_int Int.cast_injective
    (fun s a => by simp) hc hpre e (actsOn_int hM he)
  exact ⟨op, hop, fun src dst h1 h2 => ⟨fun hi => C84_no_exception hasInt_int hc hpre e (actsOn_int hM he) hi op hop src dst,
    h src dst h1 h2⟩⟩

/-- **C84** Rational coefficients and vectors of rational numbers. -/
theorem C84_rational {M : Nat → ι → Prop} (hM : HalfAlone M) (hc : Constructed hs) (hpre : PredefinedSpaces hs) (e : Expr (Gen ι) ℚ)
    (he : Reachable (InSpace M hs) e) :
    ∃ op, LOperator.make e hs = .ok op ∧ ∀ src dst : DenseSV ℚ, dst.data.length = hs.vecSize →
      (∀ k, src.data.getD k 0 ≠ 0 → ValidState hs k) →
      ((∀ p ∈ e.terms, ∀ g ∈ p.1, IntegerElements g) → Thr.applyTo op src dst ≠ .error .thrown) ∧
      (Thr.applyTo op src dst = .error .thrown ∨
      ∃ dst', Thr.applyTo op src dst = .ok dst' ∧ dst'.data.length = hs.vecSize ∧
        ∀ t, ((dst'.data.getD t 0 : ℚ) : ℝ)
          = opApply hs (e.mapCoeffs fun n : ℚ => (n : ℝ)) (fun k => ((src.data.getD k 0 : ℚ) : ℝ)) t) := by
  obtain ⟨op, hop, h⟩ := C84_exact_or_exception (T := ℚ) (T' := ℝ) (j := (Rat.castHom ℝ : ℚ →+ ℝ)) embedReal_rat Rat.cast_injective
    (fun s a => by simp) hc hpre e (actsOn_rat hM he)
  exact ⟨op, hop, fun src dst h1 h2 => ⟨fun hi => C84_no_exception hasInt_rat hc hpre e (actsOn_rat hM he) hi op hop src dst,
    h src dst h1 h2⟩⟩

/-- The hypotheses are met: `2 c†_0 c_1 − 3 n_2` on the space of `act_hypotheses`. -/
example : ∃ hs : HilbertSpace Nat, Constructed hs ∧ PredefinedSpaces hs ∧
    ReachableInt (InSpace (fun _ _ => False) hs)
      (Any.addAssign ⟨[([.fermion true 0, .fermion false 1], 2)]⟩ ⟨[([.fermion true 2, .fermion false 2], -3)]⟩) := by
  obtain ⟨hs, hof, hc, hpre, _⟩ := act_hypotheses
  have hhas : ∀ i ∈ [0, 1, 2], hs.has (ESpace.fermion i) = true := by
    have : ∀ i ∈ [0, 1, 2], ((HilbertSpace.ofArgs actSpaces).toOption.map fun hs => hs.has (ESpace.fermion i)) = some true := by
      decide +kernel
    intro i hi
    have := this i hi
    rw [hof] at this
    simpa [Except.toOption] using this
  refine ⟨hs, hc, hpre, .add (.ofMonomial 2 [.fermion true 0, .fermion false 1] ?_ rfl) (.ofMonomial (-3) [.fermion true 2, .fermion false 2] ?_ rfl)⟩
  · intro g hg
    simp at hg
    rcases hg with rfl | rfl
    · exact ⟨trivial, hhas 0 (by simp)⟩
    · exact ⟨trivial, hhas 1 (by simp)⟩
  · intro g hg
    simp at hg
    rcases hg with rfl | rfl
    · exact ⟨trivial, hhas 2 (by simp)⟩
    · exact ⟨trivial, hhas 2 (by simp)⟩

/-- **C84**, finding F33: with integer coefficients the particle number operator `a† a` of a boson throws in states with a
number of particles `n` that is not a square, although the matrix element is the integer `n`. -/
theorem C84_F33_boson_number (hc : Constructed hs) (i : ι) (hi : hs.has (Mode.boson i).space = true) {s : Nat} (hv : ValidState hs s)
    (hn : ¬ IsSquare (conf hs s (.boson i))) (a : MonomialAction)
    (ha : MonomialAction.make [.boson true i, .boson false i] hs = .ok a) :
    Thr.act a s (1 : ℤ) = .error .thrown ∧
    monAct (bosonDims hs) [.boson true i, .boson false i] (conf hs s) = some (conf hs s, (conf hs s (.boson i) : ℝ)) := by
  obtain ⟨f, nb, d, hl⟩ := loc_of_has hc hi
  have hcf := conf_loc hl s
  have hlt := valid_occ hl hv
  have hbd := loc_bosonDims hl
  have hsm := hl.small
  have hft := hl.fits
  set n := conf hs s (.boson i) with hnd
  have hn0 : n ≠ 0 := fun h => hn (h ▸ ⟨0, rfl⟩)
  have hd : 1 < d := by rw [← hcf] at hlt; omega
  constructor
  · unfold MonomialAction.make at ha
    have e1 := hl.range
    have e2 := hl.dimOf
    simp only [Mode.space] at e1 e2 hi
    have hdW : d < W64 := by
      have := hl.le
      have h2 : (2 : Nat) ^ nb ≤ 2 ^ 63 := Nat.pow_le_pow_right (by norm_num) (by omega)
      unfold W64
      omega
    have hs1 : sub64 d 1 = d - 1 := sub64_one (by omega) hdW
    have hnb : ((f : Int) + nb - 1 - f + 1).toNat = nb := by omega
    have f1 : findSubrange (-3) [Gen.boson true i, .boson false i] = .ok ([], [.boson true i, .boson false i]) := rfl
    have f2 : findSubrange (-2) [Gen.boson true i, .boson false i] = .ok ([.boson true i, .boson false i], []) := rfl
    have f3 : BosonAction.make [.boson true i, .boson false i] hs
        = .ok ⟨[⟨f, sub64 (pow2 nb) 1, 1, d - 1⟩, ⟨f, sub64 (pow2 nb) 1, -1, d - 1⟩], makeSqrRoots (add64 (d - 1) 1), false⟩ := by
      unfold BosonAction.make
      rw [bosonLoop, if_pos (by simp [runEnds, Gen.eqOp, Gen.algebraId, Gen.equal]), if_neg (by simp [hi]), e1, e2]
      simp only [hs1, hnb, Int.toNat_natCast]
      rw [if_neg (by omega), bosonLoop, if_pos (by simp [runEnds]), if_neg (by simp [hi]), e1, e2]
      simp only [hs1, hnb, Int.toNat_natCast]
      rw [if_neg (by omega), bosonLoop]
      simp
    rw [f1] at ha
    simp only [FermionAction.make, List.isEmpty_nil, if_true] at ha
    rw [f2] at ha
    simp only at ha
    rw [f3] at ha
    simp only [SpinAction.make, spinLoop, List.isEmpty_nil, if_true, Except.ok.injEq] at ha
    subst ha
    have hsq : ∀ c : ℤ, mulConst c (Real.sqrt (n : ℝ)) = .error .thrown := by
      intro c
      unfold mulConst
      have : (DoubleConst.makeDouble (Real.sqrt (n : ℝ)) : Option ℤ) = none := by
        simp only [DoubleConst.makeDouble]
        rw [if_neg]
        intro h
        apply hn
        have h0 : 0 ≤ ⌊Real.sqrt (n : ℝ)⌋ := Int.floor_nonneg.2 (Real.sqrt_nonneg _)
        obtain ⟨z, hz⟩ := Int.eq_ofNat_of_zero_le h0
        rw [hz] at h
        refine ⟨z, ?_⟩
        have h1 : (z : ℝ) * z = n := by
          have := Real.mul_self_sqrt (show (0 : ℝ) ≤ n by positivity)
          rw [← h] at this
          simpa using this
        exact_mod_cast h1.symm
      rw [this]
    unfold act andThen fermionAct
    simp only [if_true]
    unfold bosonAct
    simp only [Bool.false_eq_true, if_false, List.reverse_cons, List.reverse_nil, List.nil_append, List.singleton_append]
    rw [Thr.bosonActLoop]
    simp only [field_mask f nb s (by omega), ← hcf]
    rw [if_neg (by omega)]
    have : BosonUpdate.rootArgs ⟨f, sub64 (pow2 nb) 1, -1, d - 1⟩ (n : Int) = [n] := by simp [BosonUpdate.rootArgs]
    rw [this, Thr.mulRoots]
    have : sqrRoot (makeSqrRoots (add64 (d - 1) 1)) n = some (Real.sqrt n) := by
      unfold sqrRoot makeSqrRoots
      have : add64 (d - 1) 1 = d := by
        unfold add64; rw [Nat.sub_add_cancel (by omega), Nat.mod_eq_of_lt hdW]
      rw [this]
      split
      · next h1 =>
        rw [List.getElem?_map, List.getElem?_range]
        · rfl
        · omega
      · rfl
    rw [this]
    simp only
    rw [hsq]
  · simp only [monAct, Option.bind_some, genAct]
    rw [if_neg hn0]
    simp only [Option.map_some, Option.bind_some, Function.update_self, hbd]
    rw [if_pos (by exact_mod_cast (by omega : n - 1 + 1 < d))]
    simp only [Option.map_some, Function.update_idem, mul_one, Option.some.injEq, Prod.mk.injEq]
    constructor
    · rw [Nat.sub_add_cancel (by omega)]; exact Function.update_eq_self _ _
    · have : ((n - 1 : Nat) : ℝ) + 1 = n := by
        have : n - 1 + 1 = n := by omega
        exact_mod_cast this
      rw [this]
      exact Real.mul_self_sqrt (by positivity)

/-- **C84**, finding F33: with rational coefficients `S_z` of a spin 1/2 throws in every state, although the rational types
have `1/2`: their `make_const(double)` accepts only integers. -/
theorem C84_F33_spin_half (hc : Constructed hs) (i : ι) (hi : hs.has (Mode.spin 2 i).space = true) {s : Nat} (a : MonomialAction)
    (ha : MonomialAction.make [.spin 2 .z i] hs = .ok a) : Thr.act a s (1 : ℚ) = .error .thrown := by
  obtain ⟨f, nb, d, hl⟩ := loc_of_has hc hi
  have e1 := hl.range
  simp only [Mode.space] at e1 hi
  have hnb : ((f : Int) + nb - 1 - f + 1).toNat = nb := by omega
  unfold MonomialAction.make at ha
  have f1 : findSubrange (-3) [Gen.spin 2 .z i] = .ok ([], [.spin 2 .z i]) := rfl
  have f2 : findSubrange (-2) [Gen.spin 2 .z i] = .ok ([], [.spin 2 .z i]) := rfl
  have f3 : SpinAction.make [.spin 2 .z i] hs = .ok ⟨[⟨1, f, sub64 (pow2 nb) 1, .z, 1⟩], makeSqrRoots (max 0 (spinSS 2 + 1))⟩ := by
    unfold SpinAction.make
    rw [spinLoop, if_pos (by simp [runEnds]), if_neg (by simp [hi]), e1]
    simp only [hnb, Int.toNat_natCast]
    rw [spinLoop]
    simp
  rw [f1] at ha
  simp only [FermionAction.make, List.isEmpty_nil, if_true] at ha
  rw [f2] at ha
  simp only [BosonAction.make, bosonLoop, List.isEmpty_nil, if_true] at ha
  rw [f3] at ha
  simp only [Except.ok.injEq] at ha
  subst ha
  unfold act andThen fermionAct
  simp only [if_true]
  unfold bosonAct
  simp only [Bool.false_eq_true, if_false, List.reverse_nil, Thr.bosonActLoop]
  unfold spinAct
  simp only [List.reverse_singleton, Thr.spinActLoop]
  norm_num
  generalize (s >>> f) &&& sub64 (pow2 nb) 1 = n
  unfold mulConst
  have : (DoubleConst.makeDouble ((n : ℝ) - 1 / 2) : Option ℚ) = none := by
    simp only [DoubleConst.makeDouble]
    rw [if_neg]
    intro h
    have h2 : (2 * ⌊(n : ℝ) - 1 / 2⌋ : ℝ) = 2 * n - 1 := by rw [h]; ring
    have h3 : 2 * ⌊(n : ℝ) - 1 / 2⌋ = 2 * (n : ℤ) - 1 := by exact_mod_cast h2
    omega
  rw [this]

end LC
