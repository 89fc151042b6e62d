import Verif.Proof.FockPhys
import Verif.Spec.Textbook
import Mathlib.Tactic.Ring
import Mathlib.Tactic.Module
import Mathlib.Tactic.LinearCombination
/-
The operators on the standard Fock space satisfy the textbook relations.
-/
set_option linter.unusedSectionVars false
set_option linter.unusedSimpArgs false
namespace LC
variable {ι S : Type _} [LinearOrder ι] [CommRing S] [Algebra ℝ S]

theorem fock_ext {A B : Module.End S (FockSpace ι S)} (h : ∀ n : Config ι, Phys n → A (ket S n) = B (ket S n)) : A = B := by
  refine Finsupp.lhom_ext fun n b => ?_
  have := h n.1 n.2
  unfold ket at this
  rw [dif_pos n.2] at this
  have e : (Finsupp.single n b : FockSpace ι S) = b • Finsupp.single ⟨n.1, n.2⟩ 1 := by simp
  rw [e, map_smul, map_smul, this]

theorem fockGen_ket (g : Gen ι) {n : Config ι} (h : Phys n) : fockGen S g (ket S n) = ketAmp S (genAct (fun _ => ⊤) g n) := by
  unfold ket fockGen
  rw [dif_pos h, Finsupp.linearCombination_single, one_smul]

theorem fockGen_amp (g : Gen ι) (o : Option (Config ι × ℝ)) (h : ∀ p ∈ o, Phys p.1) :
    fockGen S g (ketAmp S o) = ketAmp S (o.bind fun p => (genAct (fun _ => ⊤) g p.1).map fun q => (q.1, q.2 * p.2)) := by
  cases o with
  | none => simp [ketAmp]
  | some p =>
    obtain ⟨n, x⟩ := p
    simp only [Option.bind_some, ketAmp, map_smul, fockGen_ket g (h _ rfl)]
    cases genAct (fun _ => ⊤) g n with
    | none => simp [ketAmp]
    | some q => simp only [ketAmp, Option.map_some, smul_smul, map_mul, mul_comm]

theorem fockMon_ket (m : List (Gen ι)) {n : Config ι} (h : Phys n) :
    evalMon (fockGen S) m (ket S n) = ketAmp S (monAct (fun _ => ⊤) m n) := by
  induction m with
  | nil => simp [evalMon, monAct, ketAmp]
  | cons g m ih =>
    have : evalMon (fockGen S) (g :: m) = fockGen S g * evalMon (fockGen S) m := by simp [evalMon]
    rw [this, Module.End.mul_apply, ih, fockGen_amp, monAct]
    intro p hp
    exact (monAct_phys (x := p.2) h hp).1

/-- Commutation up to a sign of generators of different modes. -/
theorem fock_comm {g h : Gen ι} (hm : g.mode ≠ h.mode) (ε : ℝ)
    (hs : ∀ n, Phys n → ∀ y x, own (fun _ => ⊤) g (n g.mode) = some (y, x) → ∀ y' x', own (fun _ => ⊤) h (n h.mode) = some (y', x') →
      sgn h (Function.update n g.mode y) * sgn g n = ε * (sgn g (Function.update n h.mode y') * sgn h n)) :
    fockGen S h * fockGen S g = algebraMap ℝ S ε • (fockGen S g * fockGen S h) := by
  refine fock_ext fun n hn => ?_
  rw [Module.End.mul_apply, LinearMap.smul_apply, Module.End.mul_apply, fockGen_ket _ hn, fockGen_ket _ hn,
    fockGen_amp _ _ (fun p hp => (genAct_phys (x := p.2) hn hp).1), fockGen_amp _ _ (fun p hp => (genAct_phys (x := p.2) hn hp).1)]
  rw [genAct_eq g n, genAct_eq h n]
  cases hg : own (fun _ => ⊤) g (n g.mode) with
  | none =>
    cases hh : own (fun _ => ⊤) h (n h.mode) with
    | none => simp [ketAmp]
    | some q => simp [genAct_eq, Function.update_of_ne hm, hg, ketAmp]
  | some p =>
    cases hh : own (fun _ => ⊤) h (n h.mode) with
    | none => simp [genAct_eq, Function.update_of_ne hm.symm, hh, ketAmp]
    | some q =>
      have := hs n hn p.1 p.2 hg q.1 q.2 hh
      simp only [Option.map_some, Option.bind_some, genAct_eq, Function.update_of_ne hm, Function.update_of_ne hm.symm, hg, hh, ketAmp]
      rw [Function.update_comm hm, smul_smul, ← map_mul]
      congr 2
      linear_combination p.2 * q.2 * this

theorem fock_comm_bs {g h : Gen ι} (hm : g.mode ≠ h.mode) (hf : (∀ i, g.mode ≠ .fermion i) ∨ ∀ i, h.mode ≠ .fermion i) :
    fockGen S g * fockGen S h = fockGen S h * fockGen S g := by
  have := fock_comm (S := S) (g := g) (h := h) hm 1 (fun n hn y x _ y' x' _ => ?_)
  · rw [this, map_one, one_smul]
  · rw [one_mul]
    have key : ∀ (g h : Gen ι) (y : Nat), ((∀ i, g.mode ≠ .fermion i) ∨ ∀ i, h.mode ≠ .fermion i) →
        sgn g (Function.update n h.mode y) = sgn g n := by
      intro g h y hgh
      cases g with
      | fermion d i =>
        rcases hgh with hgh | hgh
        · exact absurd rfl (hgh i)
        · simp only [sgn]; rw [jw_update hgh]
      | boson d i => rfl
      | spin m c i => rfl
    rw [key g h y' hf, key h g y hf.symm, mul_comm]

/-- Changing the occupation of a preceding mode changes the parity. -/
theorem jw_flip {n : Config ι} (hn : Phys n) {i j : ι} (hij : i < j) {y : Nat} (hy : (n (.fermion i) = 0 ∧ y = 1) ∨ (n (.fermion i) = 1 ∧ y = 0)) :
    ((-1 : ℝ)) ^ jw (Function.update n (.fermion i) y) j = - (-1) ^ jw n j := by
  have hfin : {k | k < j ∧ n (.fermion k) ≠ 0}.Finite := hn.finite.subset fun k hk => hk.2
  rcases hy with ⟨h0, rfl⟩ | ⟨h1, rfl⟩
  · have : {k | k < j ∧ Function.update n (.fermion i) 1 (.fermion k) ≠ 0} = insert i {k | k < j ∧ n (.fermion k) ≠ 0} := by
      ext k
      simp only [Set.mem_ofPred_eq, Set.mem_insert_iff]
      by_cases e : k = i
      · subst e; simp [hij]
      · rw [Function.update_of_ne (by simpa using e)]; simp [e]
    unfold jw
    rw [this, Set.ncard_insert_of_notMem (by simp [h0]) hfin, pow_succ]
    ring
  · have : {k | k < j ∧ n (.fermion k) ≠ 0} = insert i {k | k < j ∧ Function.update n (.fermion i) 0 (.fermion k) ≠ 0} := by
      ext k
      simp only [Set.mem_ofPred_eq, Set.mem_insert_iff]
      by_cases e : k = i
      · subst e; simp [hij, h1]
      · rw [Function.update_of_ne (by simpa using e)]; simp [e]
    have hfin' : {k | k < j ∧ Function.update n (.fermion i) 0 (.fermion k) ≠ 0}.Finite :=
      (hn.update_fermion i (by omega)).finite.subset fun k hk => hk.2
    unfold jw
    rw [this, Set.ncard_insert_of_notMem (by simp) hfin', pow_succ]
    ring

/-- Changing the occupation of a mode that does not precede changes nothing. -/
theorem jw_keep (n : Config ι) {i j : ι} (hij : j ≤ i) (y : Nat) : jw (Function.update n (.fermion i) y) j = jw n j := by
  unfold jw
  congr 1
  ext k
  simp only [Set.mem_ofPred_eq]
  refine and_congr_right fun hk => ?_
  rw [Function.update_of_ne]
  simpa using (lt_of_lt_of_le hk hij).ne

theorem own_fermion {d : Bool} {i : ι} {bd : ι → ℕ∞} {x : ℝ} {k y : Nat} (h : own bd (.fermion d i) k = some (y, x)) :
    (k = 0 ∧ y = 1) ∨ (k = 1 ∧ y = 0) := by
  cases d <;> simp only [own] at h <;> split at h <;> simp at h <;> omega

theorem fock_anticomm {d e : Bool} {i j : ι} (hij : i < j) :
    fockGen S (.fermion e j) * fockGen S (.fermion d i) = - (fockGen S (.fermion d i) * fockGen S (.fermion e j)) := by
  have := fock_comm (S := S) (g := Gen.fermion d i) (h := Gen.fermion e j) (by simpa [Gen.mode] using hij.ne) (-1)
    (fun n hn y x hx y' x' hx' => ?_)
  · rw [this, map_neg (algebraMap ℝ S), map_one]
    refine LinearMap.ext fun v => ?_
    rw [LinearMap.smul_apply, LinearMap.neg_apply, neg_smul, one_smul]
  · simp only [sgn, Gen.mode] at hx hx' ⊢
    rw [jw_flip hn hij (own_fermion hx), jw_keep n hij.le]
    ring

/-- `A|n⟩` for `A` the product of two fermionic operators of the same mode. -/
theorem fock_car_same (d e : Bool) (i : ι) : fockGen S (.fermion d i) * fockGen S (.fermion e i)
    + fockGen S (.fermion e i) * fockGen S (.fermion d i) = if d ≠ e then 1 else 0 := by
  refine fock_ext fun n hn => ?_
  have h01 := hn.fermion i
  have hsq : ((-1 : ℝ) ^ jw n i) * (-1) ^ jw n i = 1 := by rw [← mul_pow]; simp
  rw [LinearMap.add_apply, Module.End.mul_apply, Module.End.mul_apply, fockGen_ket _ hn, fockGen_ket _ hn,
    fockGen_amp _ _ (fun p hp => (genAct_phys (x := p.2) hn hp).1), fockGen_amp _ _ (fun p hp => (genAct_phys (x := p.2) hn hp).1)]
  have up : ∀ y z : Nat, n (.fermion i) = z → Function.update (Function.update n (Mode.fermion i) y) (.fermion i) z = n := by
    intro y z hz; rw [Function.update_idem, ← hz, Function.update_eq_self]
  rcases (by omega : n (.fermion i) = 0 ∨ n (.fermion i) = 1) with h | h <;> cases d <;> cases e <;>
    simp [genAct, h, ketAmp, jw_keep n le_rfl, hsq, up _ _ h]

theorem fock_car (d : Bool) (i : ι) (e : Bool) (j : ι) : fockGen S (.fermion d i) * fockGen S (.fermion e j)
    + fockGen S (.fermion e j) * fockGen S (.fermion d i) = if i = j ∧ d ≠ e then 1 else 0 := by
  rcases lt_trichotomy i j with h | rfl | h
  · rw [fock_anticomm h, if_neg (fun x => h.ne x.1)]; abel
  · rw [fock_car_same]; simp
  · rw [fock_anticomm h, if_neg (fun x => h.ne' x.1)]; abel

theorem algMap_sqrt {x : ℝ} (h : 0 ≤ x) : algebraMap ℝ S (Real.sqrt x) * algebraMap ℝ S (Real.sqrt x) = algebraMap ℝ S x := by
  rw [← map_mul, Real.mul_self_sqrt h]

theorem fock_ccr_same_mode (i : ι) : fockGen S (.boson false i) * fockGen S (.boson true i)
    - fockGen S (.boson true i) * fockGen S (.boson false i) = 1 := by
  refine fock_ext fun n hn => ?_
  rw [LinearMap.sub_apply, Module.End.mul_apply, Module.End.mul_apply, fockGen_ket _ hn, fockGen_ket _ hn,
    fockGen_amp _ _ (fun p hp => (genAct_phys (x := p.2) hn hp).1), fockGen_amp _ _ (fun p hp => (genAct_phys (x := p.2) hn hp).1)]
  have up : ∀ y z : Nat, n (.boson i) = z → Function.update (Function.update n (Mode.boson i) y) (.boson i) z = n := by
    intro y z hz; rw [Function.update_idem, ← hz, Function.update_eq_self]
  have e1 : ketAmp S ((genAct (fun _ => ⊤) (.boson true i) n).bind fun p => (genAct (fun _ => ⊤) (.boson false i) p.1).map
      fun q => (q.1, q.2 * p.2)) = algebraMap ℝ S (n (.boson i) + 1) • ket S n := by
    simp only [genAct, if_pos (ENat.natCast_lt_top _), Option.bind_some, Function.update_self, Nat.succ_ne_zero, if_false, Option.map_some,
      ketAmp, Nat.add_sub_cancel, up _ _ rfl]
    rw [map_mul, Nat.cast_add, Nat.cast_one, algMap_sqrt (by positivity)]
  have e2 : ketAmp S ((genAct (fun _ => ⊤) (.boson false i) n).bind fun p => (genAct (fun _ => ⊤) (.boson true i) p.1).map
      fun q => (q.1, q.2 * p.2)) = algebraMap ℝ S (n (.boson i)) • ket S n := by
    simp only [genAct]
    split
    · rename_i h; simp [ketAmp, h]
    · rename_i h
      have h1 : n (.boson i) - 1 + 1 = n (.boson i) := by omega
      have h2 : ((n (.boson i) - 1 : Nat) : ℝ) + 1 = n (.boson i) := by exact_mod_cast h1
      simp only [if_pos (ENat.natCast_lt_top _), Option.bind_some, Function.update_self, Option.map_some, ketAmp, h1, h2, up _ _ rfl]
      rw [map_mul, algMap_sqrt (by positivity)]
  rw [e1, e2, ← sub_smul, ← map_sub]
  simp

section spin
variable {m : Nat} {i : ι}

theorem fock_pm_ket (hm : 1 ≤ m) {n : Config ι} (hn : Phys n) :
    fockGen S (.spin m .plus i) (fockGen S (.spin m .minus i) (ket S n))
      = algebraMap ℝ S (((m : ℝ) - n (.spin m i)) * n (.spin m i)) • ket S n := by
  have hlt : n (.spin m i) < m := by have := hn.spin m i; omega
  rw [fockGen_ket _ hn, fockGen_amp _ _ (fun p hp => (genAct_phys (x := p.2) hn hp).1)]
  simp only [genAct]
  split
  · rename_i h; simp [ketAmp, h]
  · rename_i h
    have h1 : n (.spin m i) - 1 + 1 = n (.spin m i) := by omega
    have h2 : ((n (.spin m i) - 1 : Nat) : ℝ) + 1 = n (.spin m i) := by exact_mod_cast h1
    simp only [Option.bind_some, Function.update_self, h1, if_pos hlt, Option.map_some, ketAmp, Function.update_idem, Function.update_eq_self]
    rw [spin_minus_arg, spin_plus_arg]
    have h3 : (m : ℝ) - 1 - ((n (.spin m i) - 1 : Nat) : ℝ) = m - n (.spin m i) := by rw [← h2]; ring
    rw [h3, h2, map_mul, algMap_sqrt]
    have : ((n (.spin m i) : Nat) : ℝ) < m := by exact_mod_cast hlt
    exact mul_nonneg (by linarith) (by positivity)

theorem fock_mp_ket (hm : 1 ≤ m) {n : Config ι} (hn : Phys n) :
    fockGen S (.spin m .minus i) (fockGen S (.spin m .plus i) (ket S n))
      = algebraMap ℝ S (((m : ℝ) - 1 - n (.spin m i)) * (n (.spin m i) + 1)) • ket S n := by
  have hlt : n (.spin m i) < m := by have := hn.spin m i; omega
  rw [fockGen_ket _ hn, fockGen_amp _ _ (fun p hp => (genAct_phys (x := p.2) hn hp).1)]
  simp only [genAct]
  split
  · rename_i h
    simp only [Option.bind_some, Function.update_self, Nat.succ_ne_zero, if_false, Option.map_some, ketAmp, Function.update_idem,
      Nat.add_sub_cancel, Function.update_eq_self]
    rw [spin_minus_arg, spin_plus_arg]
    have h3 : (m : ℝ) - ((n (.spin m i) + 1 : Nat) : ℝ) = m - 1 - n (.spin m i) := by push_cast; ring
    rw [h3, Nat.cast_add, Nat.cast_one, map_mul, algMap_sqrt]
    have : ((n (.spin m i) + 1 : Nat) : ℝ) < m := by exact_mod_cast h
    push_cast at this
    exact mul_nonneg (by linarith) (by positivity)
  · rename_i h
    have : ((n (.spin m i) + 1 : Nat) : ℝ) = m := by exact_mod_cast (by omega : n (.spin m i) + 1 = m)
    have h0 : (m : ℝ) - 1 - n (.spin m i) = 0 := by rw [← this]; push_cast; ring
    simp [ketAmp, h0]

theorem fock_z_ket {n : Config ι} (hn : Phys n) :
    fockGen S (.spin m .z i) (ket S n) = algebraMap ℝ S ((n (.spin m i) : ℝ) - spinS m) • ket S n := by
  rw [fockGen_ket _ hn]
  simp only [genAct]
  split
  · rename_i h; rw [h]; simp [ketAmp]
  · rfl

theorem fock_plus_ket {n : Config ι} (hn : Phys n) :
    ∃ x : S, fockGen S (.spin m .plus i) (ket S n) = if n (.spin m i) + 1 < m then
      x • ket S (Function.update n (.spin m i) (n (.spin m i) + 1)) else 0 := by
  rw [fockGen_ket _ hn]
  simp only [genAct]
  split
  · exact ⟨_, rfl⟩
  · exact ⟨0, rfl⟩

theorem fock_minus_ket {n : Config ι} (hn : Phys n) :
    ∃ x : S, fockGen S (.spin m .minus i) (ket S n) = if n (.spin m i) = 0 then 0 else
      x • ket S (Function.update n (.spin m i) (n (.spin m i) - 1)) := by
  rw [fockGen_ket _ hn]
  simp only [genAct]
  split
  · exact ⟨0, rfl⟩
  · exact ⟨_, rfl⟩

theorem fock_zp : fockGen S (.spin m .z i) * fockGen S (.spin m .plus i) - fockGen S (.spin m .plus i) * fockGen S (.spin m .z i)
    = fockGen S (.spin m .plus i) := by
  refine fock_ext fun n hn => ?_
  rw [LinearMap.sub_apply, Module.End.mul_apply, Module.End.mul_apply, fock_z_ket hn, map_smul]
  obtain ⟨x, hx⟩ := fock_plus_ket (S := S) (m := m) (i := i) hn
  rw [hx]
  split
  · rename_i h
    rw [map_smul, fock_z_ket (hn.update_spin m i (by omega)), Function.update_self]
    push_cast
    simp only [map_sub, map_add, map_one, smul_smul, ← sub_smul]
    congr 1; ring
  · simp

theorem fock_zm : fockGen S (.spin m .z i) * fockGen S (.spin m .minus i) - fockGen S (.spin m .minus i) * fockGen S (.spin m .z i)
    = - fockGen S (.spin m .minus i) := by
  refine fock_ext fun n hn => ?_
  rw [LinearMap.sub_apply, Module.End.mul_apply, Module.End.mul_apply, fock_z_ket hn, map_smul, LinearMap.neg_apply]
  obtain ⟨x, hx⟩ := fock_minus_ket (S := S) (m := m) (i := i) hn
  rw [hx]
  split
  · simp
  · rename_i h
    have := hn.spin m i
    have h2 : ((n (.spin m i) - 1 : Nat) : ℝ) = n (.spin m i) - 1 := by rw [Nat.cast_sub (by omega), Nat.cast_one]
    rw [map_smul, fock_z_ket (hn.update_spin m i (by omega)), Function.update_self, h2]
    simp only [map_sub, map_add, map_one, smul_smul, ← sub_smul, ← neg_smul]
    congr 1; ring

theorem fock_plus_pow (p : Nat) {n : Config ι} (hn : Phys n) :
    ∃ x : S, (fockGen S (.spin m .plus i) ^ p) (ket S n) = x • ket S (Function.update n (.spin m i) (n (.spin m i) + p)) ∧
      (p = 0 ∨ n (.spin m i) + p < m ∨ x = 0) := by
  induction p with
  | zero => exact ⟨1, by simp, Or.inl rfl⟩
  | succ p ih =>
    obtain ⟨x, hx, h⟩ := ih
    rw [pow_succ', Module.End.mul_apply, hx, map_smul]
    by_cases h0 : n (.spin m i) + p = 0 ∨ n (.spin m i) + p < m
    · obtain ⟨y, hy⟩ := fock_plus_ket (S := S) (m := m) (i := i) (hn.update_spin m i h0)
      rw [hy, Function.update_self, Function.update_idem]
      split
      · rename_i hlt
        exact ⟨x * y, by rw [smul_smul]; rfl, Or.inr (Or.inl hlt)⟩
      · exact ⟨0, by simp, Or.inr (Or.inr rfl)⟩
    · rcases h with h | h | h
      · subst h
        have := hn.spin m i
        exact absurd (by simpa using this) h0
      · exact absurd (Or.inr h) h0
      · exact ⟨0, by rw [h]; simp, Or.inr (Or.inr rfl)⟩

theorem fock_minus_pow (p : Nat) {n : Config ι} (hn : Phys n) :
    ∃ x : S, (fockGen S (.spin m .minus i) ^ p) (ket S n) = x • ket S (Function.update n (.spin m i) (n (.spin m i) - p)) ∧
      (p ≤ n (.spin m i) ∨ x = 0) := by
  induction p with
  | zero => exact ⟨1, by simp, Or.inl (by omega)⟩
  | succ p ih =>
    obtain ⟨x, hx, h⟩ := ih
    have := hn.spin m i
    rw [pow_succ', Module.End.mul_apply, hx, map_smul]
    obtain ⟨y, hy⟩ := fock_minus_ket (S := S) (m := m) (i := i)
      (hn.update_spin m i (y := n (.spin m i) - p) (by omega))
    rw [hy, Function.update_self, Function.update_idem]
    split
    · exact ⟨0, by simp, Or.inr rfl⟩
    · rename_i hne
      exact ⟨x * y, by rw [smul_smul]; rfl, Or.inl (by omega)⟩

end spin

theorem fock_textbook {M : Nat → ι → Prop} (hpos : ∀ n i, M n i → 1 ≤ n) : TextbookRel S M (fockGen (ι := ι) S) where
  car := fock_car
  ccr i j := by
    by_cases h : i = j
    · subst h; rw [fock_ccr_same_mode, if_pos rfl]
    · rw [fock_comm_bs (by simpa [Gen.mode] using h) (Or.inl (by simp [Gen.mode])), sub_self, if_neg h]
  ccr_same d i j := by
    by_cases h : i = j
    · subst h; rfl
    · exact fock_comm_bs (by simpa [Gen.mode] using h) (Or.inl (by simp [Gen.mode]))
  spin_pm n i hM := by
    refine fock_ext fun k hk => ?_
    rw [two_mul, LinearMap.sub_apply, LinearMap.add_apply, Module.End.mul_apply, Module.End.mul_apply, fock_pm_ket (hpos n i hM) hk,
      fock_mp_ket (hpos n i hM) hk, fock_z_ket hk, ← sub_smul, ← add_smul, ← map_sub, ← map_add]
    congr 2
    unfold spinS; ring
  spin_zp n i _ := fock_zp
  spin_zm n i _ := fock_zm
  spin_comm n c i m e j _ _ h := fock_comm_bs (by
    intro e; simp only [Gen.mode, Mode.spin.injEq] at e; tauto) (Or.inl (by simp [Gen.mode]))
  spin_nil n c i hM hc := by
    refine fock_ext fun k hk => ?_
    have hs := hk.spin n i
    have h1 := hpos n i hM
    cases c with
    | plus =>
      obtain ⟨x, hx, h⟩ := fock_plus_pow (S := S) (m := n) (i := i) n hk
      have : x = 0 := by
        rcases h with h | h | h
        · omega
        · omega
        · exact h
      rw [hx, this]; simp
    | minus =>
      obtain ⟨x, hx, h⟩ := fock_minus_pow (S := S) (m := n) (i := i) n hk
      have : x = 0 := by
        rcases h with h | h
        · omega
        · exact h
      rw [hx, this]; simp
    | z => exact absurd rfl hc
  half_zz i hM := by
    refine fock_ext fun k hk => ?_
    have hs := hk.spin 2 i
    have e4 : (4 : Module.End S (FockSpace ι S)) = algebraMap S _ 4 := (map_ofNat _ 4).symm
    rw [e4, ← Algebra.smul_def, LinearMap.smul_apply, Module.End.mul_apply, fock_z_ket hk, map_smul, fock_z_ket hk, smul_smul, smul_smul,
      Module.End.one_apply]
    have : (4 : S) = algebraMap ℝ S 4 := (map_ofNat _ 4).symm
    rw [this, ← map_mul, ← map_mul]
    have : (4 * ((k (.spin 2 i) : ℝ) - spinS 2) * ((k (.spin 2 i) : ℝ) - spinS 2) : ℝ) = 1 := by
      rcases (by omega : k (.spin 2 i) = 0 ∨ k (.spin 2 i) = 1) with h | h <;> rw [h] <;> unfold spinS <;> norm_num
    rw [this, map_one, one_smul]
  half_pm i hM := by
    refine fock_ext fun k hk => ?_
    have hs := hk.spin 2 i
    rw [LinearMap.add_apply, Module.End.mul_apply, Module.End.mul_apply, fock_pm_ket (by omega) hk, fock_mp_ket (by omega) hk, ← add_smul, ← map_add,
      Module.End.one_apply]
    have : (((2 : Nat) : ℝ) - k (.spin 2 i)) * k (.spin 2 i) + (((2 : Nat) : ℝ) - 1 - k (.spin 2 i)) * (k (.spin 2 i) + 1) = 1 := by
      rcases (by omega : k (.spin 2 i) = 0 ∨ k (.spin 2 i) = 1) with h | h <;> rw [h] <;> norm_num
    rw [this, map_one, one_smul]
  half_z i c hM hc := by
    refine fock_ext fun k hk => ?_
    have hs := hk.spin 2 i
    rw [LinearMap.add_apply, Module.End.mul_apply, Module.End.mul_apply, fock_z_ket hk, map_smul, LinearMap.zero_apply]
    cases c with
    | z => exact absurd rfl hc
    | plus =>
      obtain ⟨x, hx⟩ := fock_plus_ket (S := S) (m := 2) (i := i) hk
      rw [hx]
      split
      · rename_i h
        have h0 : k (.spin 2 i) = 0 := by omega
        rw [map_smul, fock_z_ket (hk.update_spin 2 i (by omega)), Function.update_self, smul_smul, smul_smul, ← add_smul]
        have : x * algebraMap ℝ S (((k (.spin 2 i) + 1 : Nat) : ℝ) - spinS 2) + algebraMap ℝ S ((k (.spin 2 i) : ℝ) - spinS 2) * x
            = x * algebraMap ℝ S ((((k (.spin 2 i) + 1 : Nat) : ℝ) - spinS 2) + ((k (.spin 2 i) : ℝ) - spinS 2)) := by
          rw [map_add]; ring
        rw [this, h0]
        unfold spinS
        norm_num
      · simp
    | minus =>
      obtain ⟨x, hx⟩ := fock_minus_ket (S := S) (m := 2) (i := i) hk
      rw [hx]
      split
      · simp
      · rename_i h
        have h0 : k (.spin 2 i) = 1 := by omega
        rw [map_smul, fock_z_ket (hk.update_spin 2 i (by omega)), Function.update_self, smul_smul, smul_smul, ← add_smul]
        have : x * algebraMap ℝ S (((k (.spin 2 i) - 1 : Nat) : ℝ) - spinS 2) + algebraMap ℝ S ((k (.spin 2 i) : ℝ) - spinS 2) * x
            = x * algebraMap ℝ S ((((k (.spin 2 i) - 1 : Nat) : ℝ) - spinS 2) + ((k (.spin 2 i) : ℝ) - spinS 2)) := by
          rw [map_add]; ring
        rw [this, h0]
        unfold spinS
        norm_num
  comm_fb d i e j := fock_comm_bs (by simp [Gen.mode]) (Or.inr (by simp [Gen.mode]))
  comm_fs d i n c j _ := fock_comm_bs (by simp [Gen.mode]) (Or.inr (by simp [Gen.mode]))
  comm_bs d i n c j _ := fock_comm_bs (by simp [Gen.mode]) (Or.inl (by simp [Gen.mode]))

end LC
