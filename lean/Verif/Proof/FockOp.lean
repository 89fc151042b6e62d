import Verif.Proof.FockRep
import Verif.Proof.LOpReach
/-
Operators on a truncated Hilbert space as compressions of operators on the Fock space: products and adjoints.
-/
set_option linter.unusedSectionVars false
set_option linter.unusedSimpArgs false
set_option linter.unusedVariables false
set_option linter.unusedTactic false
namespace LC
open HilbertSpace Expr
variable {ι S : Type _} [LinearOrder ι] {hs : HilbertSpace ι}

/-- Bosonic annihilation operators stand to the right of the creation operators. -/
def NormalOrdered (m : List (Gen ι)) : Prop := m.Pairwise fun g h => ∀ i j, ¬ (g = .boson false i ∧ h = .boson true j)

theorem normalOrdered_of_chain {m : List (Gen ι)} (h : m.IsChain OKPair) : NormalOrdered m := by
  have hp : m.Pairwise fun a b => Gen.gtOp a b = false := pairwise_of_chain h
  refine hp.imp fun {a b} hab i j e => ?_
  obtain ⟨rfl, rfl⟩ := e
  simp [Gen.gtOp, Gen.greater, Gen.algebraId] at hab

theorem genAct_boson {bd : ι → ℕ∞} {g : Gen ι} {n n' : Config ι} {x : ℝ} (h : genAct bd g n = some (n', x)) (i : ι) :
    n' (.boson i) = n (.boson i) ∨ (g = .boson true i ∧ n' (.boson i) = n (.boson i) + 1) ∨
      (g = .boson false i ∧ n' (.boson i) = n (.boson i) - 1) := by
  by_cases hk : Mode.boson i = g.mode
  · cases g with
    | fermion d j => simp [Gen.mode] at hk
    | spin m c j => simp [Gen.mode] at hk
    | boson d j =>
      simp only [Gen.mode, Mode.boson.injEq] at hk
      subst hk
      cases d <;> (simp only [genAct] at h; split at h <;> simp at h; rw [← h.1]; simp)
  · exact Or.inl (genAct_other h hk)

theorem monAct_le {bd : ι → ℕ∞} {m : List (Gen ι)} {n n' : Config ι} {x : ℝ} (h : monAct bd m n = some (n', x)) (i : ι) :
    n' (.boson i) ≤ n (.boson i) + m.count (.boson true i) := by
  induction m generalizing n' x with
  | nil => simp only [monAct, Option.some.injEq, Prod.mk.injEq] at h; rw [← h.1]; simp
  | cons g m ih =>
    rw [monAct] at h
    cases hm : monAct bd m n with
    | none => rw [hm] at h; simp at h
    | some p =>
      rw [hm] at h
      simp only [Option.bind_some] at h
      cases hg : genAct bd g p.1 with
      | none => rw [hg] at h; simp at h
      | some q =>
        rw [hg] at h
        simp only [Option.map_some, Option.some.injEq, Prod.mk.injEq] at h
        have h1 := ih (n' := p.1) (x := p.2) hm
        rw [← h.1, List.count_cons]
        rcases genAct_boson (n' := q.1) (x := q.2) hg i with h2 | ⟨rfl, h2⟩ | ⟨rfl, h2⟩
        · rw [h2]; omega
        · rw [h2]; simp; omega
        · rw [h2]; omega

/-- Truncation of a normal-ordered product acts on the final state only. -/
theorem monAct_trunc {B : ι → Prop} {bd : ι → ℕ∞} {m : List (Gen ι)} (hno : NormalOrdered m)
    (hB : ∀ d i, Gen.boson d i ∈ m → B i) {n : Config ι} (hn : Within B bd n) :
    monAct bd m n = match monAct (fun _ => ⊤) m n with
      | none => none
      | some (n', x) => open Classical in if Within B bd n' then some (n', x) else none := by
  induction m with
  | nil => simp only [monAct]; rw [if_pos hn]
  | cons g m ih =>
    unfold NormalOrdered at hno
    rw [List.pairwise_cons] at hno
    have ih' := ih hno.2 (fun d i h => hB d i (List.mem_cons_of_mem _ h))
    rw [monAct, monAct, ih']
    cases hm : monAct (fun _ => ⊤) m n with
    | none => rfl
    | some p =>
      obtain ⟨n1, x1⟩ := p
      simp only [Option.bind_some]
      by_cases hw : Within B bd n1
      · rw [if_pos hw]
        simp only [Option.bind_some]
        by_cases hg : ∃ i, g = .boson true i
        · obtain ⟨i, rfl⟩ := hg
          have hBi := hB true i (by simp)
          simp only [genAct, if_pos (ENat.natCast_lt_top _), Option.map_some]
          split
          · rename_i hlt
            rw [if_pos]
            · rfl
            · intro j hj
              by_cases e : j = i
              · subst e; rw [Function.update_self]; exact hlt
              · rw [Function.update_of_ne (by simpa using e)]; exact hw j hj
          · rename_i hlt
            rw [if_neg]
            · rfl
            · intro h
              have := h i hBi
              rw [Function.update_self] at this
              exact hlt this
        · have e : genAct bd g n1 = genAct (fun _ => ⊤) g n1 := by
            cases g with
            | fermion d i => cases d <;> rfl
            | boson d i =>
              cases d
              · rfl
              · exact absurd ⟨i, rfl⟩ hg
            | spin m c i => cases c <;> rfl
          rw [e]
          cases hga : genAct (fun _ => ⊤) g n1 with
          | none => rfl
          | some q =>
            simp only [Option.map_some]
            rw [if_pos]
            intro j hj
            rcases genAct_boson (n' := q.1) (x := q.2) hga j with h2 | ⟨rfl, h2⟩ | ⟨rfl, h2⟩
            · rw [h2]; exact hw j hj
            · exact absurd ⟨j, rfl⟩ hg
            · rw [h2]; exact lt_of_le_of_lt (by exact_mod_cast Nat.sub_le _ _) (hw j hj)
      · rw [if_neg hw]
        simp only [Option.bind_none]
        cases hga : genAct (fun _ => ⊤) g n1 with
        | none => rfl
        | some q =>
          simp only [Option.map_some]
          rw [if_neg]
          intro hq
          apply hw
          intro j hj
          have hqj := hq j hj
          rcases genAct_boson (n' := q.1) (x := q.2) hga j with h2 | ⟨rfl, h2⟩ | ⟨rfl, h2⟩
          · rw [h2] at hqj; exact hqj
          · rw [h2] at hqj
            exact lt_of_le_of_lt (by exact_mod_cast Nat.le_succ _) hqj
          · have hle := monAct_le hm j
            rw [List.count_eq_zero.2] at hle
            · exact lt_of_le_of_lt (by exact_mod_cast hle) (hn j hj)
            · intro hmem
              exact hno.1 _ hmem j j ⟨rfl, rfl⟩

theorem conf_within (hc : Constructed hs) {s : Nat} (hv : ValidState hs s) : Within (HasBoson hs) (bosonDims hs) (conf hs s) := by
  intro i hi
  obtain ⟨f, nb, d, hl⟩ := loc_of_has hc hi
  rw [conf_loc hl, loc_bosonDims hl]
  exact_mod_cast valid_occ hl hv

/-- The same states of the elementary spaces of user-defined algebras. -/
def SameForeign (hs : HilbertSpace ι) (t k : Nat) : Prop := ∀ es : ESpace ι, es.Foreign → occ hs t es = occ hs k es

section
variable [CommRing S] [Algebra ℝ S]

theorem ketAmp_apply {o : Option (Config ι × ℝ)} (n : FockBasis ι) :
    ketAmp S o n = match o with
      | none => 0
      | some (n', x) => open Classical in if n' = n.1 then algebraMap ℝ S x else 0 := by
  cases o with
  | none => rfl
  | some p =>
    obtain ⟨n', x⟩ := p
    simp only [ketAmp, ket]
    split_ifs with h1 h2 h2
    · subst h2; rw [Finsupp.smul_apply, Finsupp.single_eq_same, smul_eq_mul, mul_one]
    · have : (⟨n', h1⟩ : FockBasis ι) ≠ n := fun e => h2 (by rw [← e])
      rw [Finsupp.smul_apply, Finsupp.single_eq_of_ne' this, smul_zero]
    · subst h2; exact absurd n.2 h1
    · simp

theorem matEl_fock (hc : Constructed hs) (hpre : PredefinedSpaces hs) {m : List (Gen ι)} (hno : NormalOrdered m)
    (hB : ∀ d i, Gen.boson d i ∈ m → HasBoson hs i) {t k : Nat} (ht : ValidState hs t) (hk : ValidState hs k) :
    algebraMap ℝ S (matEl hs m t k) = open Classical in if SameForeign hs t k then
      evalMon (fockGen S) m (ket S (conf hs k)) ⟨conf hs t, conf_phys hc hpre ht⟩ else 0 := by
  unfold matEl
  rw [fockMon_ket m (conf_phys hc hpre hk), ketAmp_apply, monAct_trunc hno hB (conf_within hc hk)]
  cases monAct (fun _ => ⊤) m (conf hs k) with
  | none => simp
  | some p =>
    obtain ⟨n, x⟩ := p
    simp only
    by_cases hw : Within (HasBoson hs) (bosonDims hs) n
    · rw [if_pos hw]
      simp only
      by_cases h1 : conf hs t = n
      · by_cases h2 : SameForeign hs t k
        · rw [if_pos (show Encodes hs k n t from ⟨h1, h2⟩), if_pos h2, if_pos h1.symm]
        · rw [if_neg (fun h : Encodes hs k n t => h2 h.2), if_neg h2, map_zero]
      · rw [if_neg (fun h : Encodes hs k n t => h1 h.1), if_neg (fun h : n = conf hs t => h1 h.symm), map_zero, ite_self]
    · rw [if_neg hw, if_neg (fun e : n = conf hs t => hw (e ▸ conf_within hc ht)), ite_self]
      exact map_zero _

/-- Expressions in normal order over the modes of `hs`. -/
def NormalOn (hs : HilbertSpace ι) (e : Expr (Gen ι) S) : Prop :=
  ∀ p ∈ e.terms, NormalOrdered p.1 ∧ ∀ g ∈ p.1, hs.has g.mode.space = true

variable [DecidableEq S] [ConstScalar S]

theorem evalExpr_apply (e : Expr (Gen ι) S) (v : FockSpace ι S) (n : FockBasis ι) :
    evalExpr (fockGen S) e v n = (e.terms.map fun p => p.2 * evalMon (fockGen S) p.1 v n).sum := by
  unfold evalExpr evalTerms
  induction e.terms with
  | nil => rfl
  | cons p l ih =>
    simp only [List.map_cons, List.sum_cons, LinearMap.add_apply, Finsupp.add_apply, ih]
    rfl

theorem opEl_fock (hc : Constructed hs) (hpre : PredefinedSpaces hs) {e : Expr (Gen ι) S} (he : NormalOn hs e) {t k : Nat}
    (ht : ValidState hs t) (hk : ValidState hs k) :
    opEl hs e t k = open Classical in if SameForeign hs t k then
      evalExpr (fockGen S) e (ket S (conf hs k)) ⟨conf hs t, conf_phys hc hpre ht⟩ else 0 := by
  unfold opEl
  have h1 : (e.terms.map fun p => p.2 * algebraMap ℝ S (matEl hs p.1 t k))
      = e.terms.map fun p => open Classical in if SameForeign hs t k then
        p.2 * evalMon (fockGen S) p.1 (ket S (conf hs k)) ⟨conf hs t, conf_phys hc hpre ht⟩ else 0 := by
    refine List.map_congr_left fun p hp => ?_
    rw [matEl_fock hc hpre (he p hp).1 (fun d i h => (he p hp).2 _ h) ht hk, mul_ite, mul_zero]
  rw [h1]
  split_ifs with h
  · rw [evalExpr_apply]
  · simp

/-- Adjoint of a single generator. -/
theorem genAct_dag {g : Gen ι} {n n' : Config ι} {x : ℝ} (hn : Phys n) (h : genAct (fun _ => ⊤) g n = some (n', x)) :
    genAct (fun _ => ⊤) g.dag n' = some (n, x) := by
  have up : ∀ (k : Mode ι) (y z : Nat), n k = z → Function.update (Function.update n k y) k z = n := by
    intro k y z hz; rw [Function.update_idem, ← hz, Function.update_eq_self]
  cases g with
  | fermion d i =>
    cases d <;> (simp only [genAct] at h; split at h <;> simp at h; rename_i h0; rw [← h.1, ← h.2])
    · simp [Gen.dag, genAct, jw_keep n le_rfl, up _ _ _ h0]
    · simp [Gen.dag, genAct, jw_keep n le_rfl, up _ _ _ h0]
  | boson d i =>
    cases d
    · simp only [genAct] at h; split at h <;> simp at h; rename_i h0; rw [← h.1, ← h.2]
      have h1 : n (.boson i) - 1 + 1 = n (.boson i) := by omega
      have h2 : ((n (.boson i) - 1 : Nat) : ℝ) + 1 = n (.boson i) := by exact_mod_cast h1
      simp only [Gen.dag, Bool.not_false, genAct, if_pos (ENat.natCast_lt_top _), Function.update_self, h1, h2, up _ _ _ rfl]
    · simp only [genAct, if_pos (ENat.natCast_lt_top _), Option.some.injEq, Prod.mk.injEq] at h; rw [← h.1, ← h.2]
      simp only [Gen.dag, Bool.not_true, genAct, Function.update_self, Nat.succ_ne_zero, if_false, Nat.add_sub_cancel, up _ _ _ rfl]
      push_cast; rfl
  | spin m c i =>
    have hsp := hn.spin m i
    cases c
    · simp only [genAct] at h; split at h <;> simp at h; rename_i h0; rw [← h.1, ← h.2]
      simp only [Gen.dag, genAct, Function.update_self, Nat.succ_ne_zero, if_false, Nat.add_sub_cancel, up _ _ _ rfl]
      rw [spin_minus_arg, spin_plus_arg]
      congr 3; push_cast; ring
    · simp only [genAct] at h; split at h <;> simp at h; rename_i h0; rw [← h.1, ← h.2]
      have h1 : n (.spin m i) - 1 + 1 = n (.spin m i) := by omega
      have h2 : ((n (.spin m i) - 1 : Nat) : ℝ) + 1 = n (.spin m i) := by exact_mod_cast h1
      have hlt : n (.spin m i) < m := by omega
      simp only [Gen.dag, genAct, Function.update_self, h1, if_pos hlt, up _ _ _ rfl]
      rw [spin_minus_arg, spin_plus_arg]
      congr 3; rw [← h2]; push_cast; ring
    · simp only [genAct] at h; split at h <;> simp at h; rename_i h0; rw [← h.1, ← h.2]
      simp only [Gen.dag, genAct, if_neg h0]

/-- Adjoint of a product of generators. -/
theorem monAct_dag {m : List (Gen ι)} {n n' : Config ι} {x : ℝ} (hn : Phys n) (h : monAct (fun _ => ⊤) m n = some (n', x)) :
    monAct (fun _ => ⊤) (m.reverse.map Gen.dag) n' = some (n, x) := by
  induction m generalizing n' x with
  | nil => simp only [monAct, Option.some.injEq, Prod.mk.injEq] at h; rw [← h.1, ← h.2]; rfl
  | cons g m ih =>
    rw [monAct] at h
    cases hm : monAct (fun _ => ⊤) m n with
    | none => rw [hm] at h; simp at h
    | some p =>
      rw [hm] at h
      simp only [Option.bind_some] at h
      cases hg : genAct (fun _ => ⊤) g p.1 with
      | none => rw [hg] at h; simp at h
      | some q =>
        rw [hg] at h
        simp only [Option.map_some, Option.some.injEq, Prod.mk.injEq] at h
        have h1 := (monAct_phys (x := p.2) hn hm).1
        have h2 := genAct_dag (n' := q.1) (x := q.2) h1 hg
        have h3 := ih (n' := p.1) (x := p.2) hm
        rw [List.reverse_cons, List.map_append, monAct_append, List.map_singleton]
        rw [← h.1, ← h.2]
        simp only [monAct, Option.bind_some, h2, h3, Option.map_some, mul_one, mul_comm]

theorem evalMon_dag_apply (m : List (Gen ι)) (n n' : FockBasis ι) :
    evalMon (fockGen S) (m.reverse.map Gen.dag) (ket S n.1) n' = evalMon (fockGen S) m (ket S n'.1) n := by
  rw [fockMon_ket _ n.2, fockMon_ket _ n'.2, ketAmp_apply, ketAmp_apply]
  have key : ∀ (m : List (Gen ι)) (n n' : FockBasis ι) (x : ℝ), monAct (fun _ => ⊤) m n.1 = some (n'.1, x) →
      monAct (fun _ => ⊤) (m.reverse.map Gen.dag) n'.1 = some (n.1, x) := fun m n n' x h => monAct_dag n.2 h
  have key' : ∀ (m : List (Gen ι)) (n n' : FockBasis ι) (x : ℝ), monAct (fun _ => ⊤) (m.reverse.map Gen.dag) n.1 = some (n'.1, x) →
      monAct (fun _ => ⊤) m n'.1 = some (n.1, x) := by
    intro m n n' x h
    have := key _ n n' x h
    rw [← List.map_reverse, List.reverse_reverse, List.map_map] at this
    rwa [show Gen.dag ∘ Gen.dag = (id : Gen ι → Gen ι) from funext Gen.dag_dag, List.map_id] at this
  cases h1 : monAct (fun _ => ⊤) (m.reverse.map Gen.dag) n.1 with
  | none =>
    cases h2 : monAct (fun _ => ⊤) m n'.1 with
    | none => rfl
    | some q =>
      simp only
      rw [if_neg]
      intro e
      have := key m n' n q.2 (by rw [h2, ← e])
      rw [h1] at this; cases this
  | some p =>
    simp only
    split_ifs with e
    · have := key' m n n' p.2 (by rw [h1, ← e])
      rw [this]; simp
    · cases h2 : monAct (fun _ => ⊤) m n'.1 with
      | none => rfl
      | some q =>
        simp only
        rw [if_neg]
        intro e'
        have := key m n' n q.2 (by rw [h2, ← e'])
        rw [h1] at this
        cases this
        exact e rfl

variable [ScalarLaws S] [IsDomain S] [CharZero S] {M : Nat → ι → Prop}

theorem reach_normalOn [Star S] (hM : HalfAlone M) {e : Expr (Gen ι) S}
    (he : Reachable (AllowedOn M fun k => hs.has k.space = true) e) : NormalOn hs e := fun p hp =>
  ⟨normalOrdered_of_chain (reach_canon hM he p hp).chain, fun g hg => ((reach_canon hM he p hp).mem g hg).2⟩

theorem reach_pos [Star S] (hM : HalfAlone M) (hc : Constructed hs) (hpre : PredefinedSpaces hs) {e : Expr (Gen ι) S}
    (he : Reachable (AllowedOn M fun k => hs.has k.space = true) e) : e.InP (Allowed fun n i => M n i ∧ 1 ≤ n) := by
  intro p hp g hg
  obtain ⟨h1, h2⟩ := (reach_canon hM he p hp).mem g hg
  cases g with
  | fermion d i => trivial
  | boson d i => trivial
  | spin n c i =>
    refine ⟨h1, ?_⟩
    obtain ⟨f, nb, d, hl⟩ := loc_of_has hc h2
    obtain ⟨e', he', hk, hd, hb⟩ := hl.mem
    by_contra h0
    have : n = 0 := by omega
    subst this
    rw [ESpace.key_eq_iff] at hk
    obtain ⟨m', j, _, rfl⟩ := (hpre e' (List.mem_map.2 ⟨_, he', rfl⟩)).2.2 hk.1
    have h3 : m' = 0 := hk.2.1
    have h4 : m' = d := hd
    have := hl.pos
    omega

theorem reach_ne_zero [Star S] (hM : HalfAlone M) {e : Expr (Gen ι) S}
    (he : Reachable (AllowedOn M fun k => hs.has k.space = true) e) : ∀ p ∈ e.terms, p.2 ≠ 0 :=
  (he.wf (conjOK (fun _ _ => True)).good).2

theorem halfAlone_pos (hM : HalfAlone M) : HalfAlone fun n i => M n i ∧ 1 ≤ n := fun i n h1 h2 => hM i n h1.1 h2.1

/-- **Adjoints.** -/
theorem opEl_conj [StarRing S] (hreal : ∀ x : ℝ, star (algebraMap ℝ S x) = algebraMap ℝ S x) (hM : HalfAlone M)
    (hc : Constructed hs) (hpre : PredefinedSpaces hs) {e : Expr (Gen ι) S}
    (he : Reachable (AllowedOn M fun k => hs.has k.space = true) e) {t k : Nat} (ht : ValidState hs t) (hk : ValidState hs k) :
    opEl hs e.conj t k = star (opEl hs e k t) := by
  rw [opEl_fock hc hpre (reach_normalOn hM he.conj) ht hk, opEl_fock hc hpre (reach_normalOn hM he) hk ht]
  have hsym : SameForeign hs t k ↔ SameForeign hs k t :=
    ⟨fun h es hes => (h es hes).symm, fun h es hes => (h es hes).symm⟩
  by_cases h : SameForeign hs t k
  · rw [if_pos h, if_pos (hsym.1 h)]
    have hrep := represents_of_textbook (S := S) (halfAlone_pos hM) (fock_textbook (ι := ι) (S := S) (M := fun n i => M n i ∧ 1 ≤ n)
      fun n i h => h.2)
    rw [Expr.eval_conj hrep (nfGen _ (halfAlone_pos hM)) (conjOK _) (reach_pos hM hc hpre he) (reach_ne_zero hM he)]
    simp only [evalLin_conj]
    rw [evalExpr_apply]
    have key : ∀ l : List (List (Gen ι) × S), ((l.map fun p => star p.2 • (p.1.reverse.map fun g => fockGen S g.dag).prod).sum :
          Module.End S (FockSpace ι S)) (ket S (conf hs k)) ⟨conf hs t, conf_phys hc hpre ht⟩
        = star (l.map fun p => p.2 * evalMon (fockGen S) p.1 (ket S (conf hs t)) ⟨conf hs k, conf_phys hc hpre hk⟩).sum := by
      intro l
      induction l with
      | nil => simp
      | cons p l ih =>
        simp only [List.map_cons, List.sum_cons, LinearMap.add_apply, Finsupp.add_apply, ih, star_add]
        congr 1
        have e1 : (p.1.reverse.map fun g => fockGen S g.dag).prod = evalMon (fockGen S) (p.1.reverse.map Gen.dag) := by
          unfold evalMon; rw [List.map_map]; rfl
        rw [e1, LinearMap.smul_apply, Finsupp.smul_apply, smul_eq_mul, star_mul']
        congr 1
        have := evalMon_dag_apply (S := S) p.1 ⟨conf hs k, conf_phys hc hpre hk⟩ ⟨conf hs t, conf_phys hc hpre ht⟩
        rw [this]
        rw [fockMon_ket _ (conf_phys hc hpre ht), ketAmp_apply]
        cases monAct (fun _ => ⊤) p.1 (conf hs t) with
        | none => simp
        | some q =>
          simp only
          split_ifs
          · rw [hreal]
          · rw [star_zero]
    exact key _
  · rw [if_neg h, if_neg (fun h' => h (hsym.2 h')), star_zero]

open scoped Classical in
theorem fock_sum [Star S] (hc : Constructed hs) (hpre : PredefinedSpaces hs) {b : Expr (Gen ι) S} (hb : NormalOn hs b)
    (hba : ActsOn hs b) {k : Nat} (hk : ValidState hs k) (hw : StaysWithin hs b k) (A : FockSpace ι S →ₗ[S] S) :
    A (evalExpr (fockGen S) b (ket S (conf hs k)))
      = ∑ s ∈ (basisStates hs).attach, (if SameForeign hs s k then
          evalExpr (fockGen S) b (ket S (conf hs k)) ⟨conf hs s, conf_phys hc hpre (mem_basisStates.1 s.2)⟩ * A (ket S (conf hs s)) else 0) := by
  simp only [evalExpr_apply]
  have step : ∀ l : List (List (Gen ι) × S), (∀ p ∈ l, p ∈ b.terms) →
      A (evalTerms (fockGen S) l (ket S (conf hs k))) = ∑ s ∈ (basisStates hs).attach, (if SameForeign hs s k then
          (l.map fun p => p.2 * evalMon (fockGen S) p.1 (ket S (conf hs k)) ⟨conf hs s, conf_phys hc hpre (mem_basisStates.1 s.2)⟩).sum
            * A (ket S (conf hs s)) else 0) := by
    intro l
    induction l with
    | nil => intro _; simp [evalTerms]
    | cons p l ih =>
      intro hl
      have hp := hl p (by simp)
      have e1 : evalTerms (fockGen S) (p :: l) = p.2 • evalMon (fockGen S) p.1 + evalTerms (fockGen S) l := by simp [evalTerms]
      rw [e1, LinearMap.add_apply, map_add, ih fun q hq => hl q (by simp [hq])]
      simp only [List.map_cons, List.sum_cons, add_mul]
      have e2 : ∀ s : {x // x ∈ basisStates hs}, (if SameForeign hs s k then
          p.2 * evalMon (fockGen S) p.1 (ket S (conf hs k)) ⟨conf hs s, conf_phys hc hpre (mem_basisStates.1 s.2)⟩ * A (ket S (conf hs s)) +
          (l.map fun p => p.2 * evalMon (fockGen S) p.1 (ket S (conf hs k)) ⟨conf hs s, conf_phys hc hpre (mem_basisStates.1 s.2)⟩).sum
            * A (ket S (conf hs s)) else 0)
          = (if SameForeign hs s k then
          p.2 * evalMon (fockGen S) p.1 (ket S (conf hs k)) ⟨conf hs s, conf_phys hc hpre (mem_basisStates.1 s.2)⟩ * A (ket S (conf hs s)) else 0) +
          (if SameForeign hs s k then (l.map fun p => p.2 * evalMon (fockGen S) p.1 (ket S (conf hs k)) ⟨conf hs s, conf_phys hc hpre (mem_basisStates.1 s.2)⟩).sum
            * A (ket S (conf hs s)) else 0) := by
        intro s; split_ifs <;> simp
      rw [Finset.sum_congr rfl fun s _ => e2 s, Finset.sum_add_distrib]
      congr 1
      rw [LinearMap.smul_apply, map_smul, fockMon_ket _ (conf_phys hc hpre hk)]
      have htr := monAct_trunc (B := HasBoson hs) (hb p hp).1 (fun d i h => (hb p hp).2 _ h) (conf_within hc hk)
      cases hm : monAct (fun _ => ⊤) p.1 (conf hs k) with
      | none => simp [ketAmp]
      | some q =>
        obtain ⟨n, x⟩ := q
        rw [hm] at htr
        simp only at htr
        rw [if_pos (hw p hp n x hm)] at htr
        obtain ⟨a, ha⟩ := monomialAction_make_ok hc hpre (hba p hp).1 (hba p hp).2
        have hact := monomial_act (S := S) hc hpre (hba p hp).1 ha hk 1
        rw [htr] at hact
        obtain ⟨s0, _, hv0, hs1, hs2⟩ := hact
        rw [Finset.sum_eq_single (⟨s0, mem_basisStates.2 hv0⟩ : {x // x ∈ basisStates hs})]
        · rw [if_pos (show SameForeign hs s0 k from hs2), ketAmp_apply]
          simp only
          rw [if_pos hs1.symm, ketAmp, map_smul, ← hs1, smul_eq_mul, smul_eq_mul, mul_assoc]
        · intro s _ hne
          split_ifs with hsf
          · rw [ketAmp_apply]
            simp only
            rw [if_neg, mul_zero, zero_mul]
            intro e
            apply hne
            exact Subtype.ext (encodes_unique hc hpre (mem_basisStates.1 s.2) hv0 ⟨e.symm, hsf⟩ ⟨hs1, hs2⟩)
          · rfl
        · intro h; exact absurd (Finset.mem_attach _ _) h
  have := step b.terms fun _ h => h
  exact this

/-- **Products.** -/
theorem opEl_mul [Star S] (hM : HalfAlone M) (hc : Constructed hs) (hpre : PredefinedSpaces hs) {a b : Expr (Gen ι) S}
    (ha : Reachable (AllowedOn M fun k => hs.has k.space = true) a)
    (hb : Reachable (AllowedOn M fun k => hs.has k.space = true) b) {t k : Nat} (ht : ValidState hs t) (hk : ValidState hs k)
    (hw : StaysWithin hs b k) : opEl hs (a * b) t k = ∑ s ∈ basisStates hs, opEl hs a t s * opEl hs b s k := by
  rw [opEl_fock hc hpre (reach_normalOn hM (ha.mul hb)) ht hk]
  have hrep := represents_of_textbook (S := S) (halfAlone_pos hM) (fock_textbook (ι := ι) (S := S) (M := fun n i => M n i ∧ 1 ≤ n)
      fun n i h => h.2)
  rw [Expr.eval_mul hrep (reach_pos hM hc hpre ha) (reach_pos hM hc hpre hb), Module.End.mul_apply]
  have h1 := fock_sum hc hpre (reach_normalOn hM hb) (reach_actsOn hM hb) hk hw
    ((Finsupp.lapply ⟨conf hs t, conf_phys hc hpre ht⟩).comp (evalExpr (fockGen S) a))
  simp only [LinearMap.comp_apply, Finsupp.lapply_apply] at h1
  rw [h1, ← Finset.sum_attach (basisStates hs)]
  by_cases hf : SameForeign hs t k
  · rw [if_pos hf]
    refine Finset.sum_congr rfl fun s _ => ?_
    have hv := mem_basisStates.1 s.2
    rw [opEl_fock hc hpre (reach_normalOn hM ha) ht hv, opEl_fock hc hpre (reach_normalOn hM hb) hv hk]
    by_cases h2 : SameForeign hs s k
    · rw [if_pos h2, if_pos h2, if_pos (show SameForeign hs t s from fun es hes => (hf es hes).trans (h2 es hes).symm), mul_comm]
    · rw [if_neg h2, if_neg h2, mul_zero]
  · rw [if_neg hf]
    symm
    refine Finset.sum_eq_zero fun s _ => ?_
    have hv := mem_basisStates.1 s.2
    rw [opEl_fock hc hpre (reach_normalOn hM ha) ht hv, opEl_fock hc hpre (reach_normalOn hM hb) hv hk]
    by_cases h2 : SameForeign hs s k
    · rw [if_neg (c := SameForeign hs t s), zero_mul]
      exact fun h3 => hf fun es hes => (h3 es hes).trans (h2 es hes)
    · rw [if_neg h2, mul_zero]

theorem staysWithin_of_count [Star S] {b : Expr (Gen ι) S} {k : Nat} (h : ∀ p ∈ b.terms, ∀ i, HasBoson hs i →
    ((conf hs k (.boson i) + p.1.count (.boson true i) : Nat) : ℕ∞) < bosonDims hs i) : StaysWithin hs b k := by
  intro p hp n x hm i hi
  exact lt_of_le_of_lt (by exact_mod_cast monAct_le hm i) (h p hp i hi)

end
end LC
