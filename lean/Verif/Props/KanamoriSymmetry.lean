import Verif.Props.Kanamori
/-
C111 (continued): the symmetries of the Kanamori Hamiltonian of examples/kanamori.cpp, as expressions: for all Coulomb integrals it commutes with
the number of particles, all components of spin and orbital momentum and their squares; the components obey the relations of angular momenta.
The expressions are those of Model/Kanamori; `pq`, `pcomm`, `pspin` and `porb` are the same code with symbolic coefficients.
-/
set_option linter.unusedSectionVars false
set_option linter.unnecessarySeqFocus false
namespace LC
open Expr
open scoped Classical
namespace Kanamori
variable {G S : Type _}

/-- The conserved quantities. -/
def pq (k : Consts S) (g : Nat → Bool → Bool → G) : Fin 9 → ScalarProg G S
  | 0 => pnum k g | 1 => psx k g | 2 => psy k g | 3 => psz k g | 4 => pl k g 0 | 5 => pl k g 1 | 6 => pl k g 2 | 7 => ps2 k g | 8 => pl2 k g

/-- `H_K Q - Q H_K`. -/
def pcomm (k : Consts S) (g : Nat → Bool → Bool → G) (i : Fin 9) : ScalarProg G S := .sub (.mul (pham k g) (pq k g i)) (.mul (pq k g i) (pham k g))

/-- The components of the spin and of the orbital momentum. -/
def pspin (k : Consts S) (g : Nat → Bool → Bool → G) : Fin 3 → ScalarProg G S
  | 0 => psx k g | 1 => psy k g | 2 => psz k g

def porb (k : Consts S) (g : Nat → Bool → Bool → G) : Fin 3 → ScalarProg G S
  | 0 => pl k g 0 | 1 => pl k g 1 | 2 => pl k g 2

/-- `A B - B A - x C`; the number `i` is `eps(0, 1, 2) i` of the program. -/
def plie (x : S) (a b c : ScalarProg G S) : ScalarProg G S := .sub (.sub (.mul a b) (.mul b a)) (.smul x c)

def prel (k : Consts S) (g : Nat → Bool → Bool → G) : Bool → Fin 3 → ScalarProg G S
  | true, i => plie (k.eps 0 1 2) (pspin k g i) (pspin k g (i + 1)) (pspin k g (i + 2))
  | false, i => plie (k.eps 0 2 1) (porb k g i) (porb k g (i + 1)) (porb k g (i + 2))

def pcross (k : Consts S) (g : Nat → Bool → Bool → G) (i j : Fin 3) : ScalarProg G S :=
  .sub (.mul (pspin k g i) (porb k g j)) (.mul (porb k g j) (pspin k g i))

set_option maxRecDepth 100000 in
theorem symbolic_conserved : ∀ i, (pcomm sconsts sgen i).run.terms.isEmpty = true := by decide +kernel

set_option maxRecDepth 100000 in
theorem symbolic_rel : ∀ t i, (prel sconsts sgen t i).run.terms.isEmpty = true := by decide +kernel

set_option maxRecDepth 100000 in
theorem symbolic_cross : ∀ i j, (pcross sconsts sgen i j).run.terms.isEmpty = true := by decide +kernel

theorem all_pq {ι : Type _} (k : Consts S) (h : Nat → Bool → ι) (i : Fin 9) : (pq k (fun m s d => Gen.fermion d (h m s)) i).All FBS := by
  fin_cases i <;> simp [pq, pnum, ps2, psx, psy, psz, pl2, pl, pn, pcd, pc, ScalarProg.All, FBS, List.range_succ]

theorem all_ham {ι : Type _} (k : Consts S) (h : Nat → Bool → ι) : (pham k (fun m s d => Gen.fermion d (h m s))).All FBS := by
  simp [pham, pn, pcd, pc, ScalarProg.All, FBS, List.range_succ]

theorem all_spin {ι : Type _} (k : Consts S) (h : Nat → Bool → ι) (i : Fin 3) : (pspin k (fun m s d => Gen.fermion d (h m s)) i).All FBS ∧
    (porb k (fun m s d => Gen.fermion d (h m s)) i).All FBS := by
  fin_cases i <;> simp [pspin, porb, psx, psy, psz, pl, pn, pcd, pc, ScalarProg.All, FBS, List.range_succ]

variable {ι : Type _} [LinearOrder ι]

/-- Code with symbolic coefficients that gives zero, run with other coefficients and names. -/
theorem run_zero (p : ScalarProg (Gen Nat) Sym) (h : p.run.terms.isEmpty = true) (hp : p.All FBS) (idx : Nat → Bool → ι)
    (hinj : ∀ m s m' s', idx m s = idx m' s' → m = m' ∧ s = s') (U J : ℂ) (q : ScalarProg (Gen ι) ℂ)
    (hq : ∀ f : Nat → ι, (∀ m s, f (2 * m + s.toNat) = idx m s) → (p.eval (Sym.value U J)).mapGen (Gen.relabel f) = q) : q.exact = 0 := by
  set f : Nat → ι := fun k => idx (k / 2) (decide (k % 2 = 1)) with hfd
  have hf : Function.Injective f := by
    intro a b hab
    obtain ⟨h1, h2⟩ := hinj _ _ _ _ hab
    have h3 : a % 2 = 1 ↔ b % 2 = 1 := by simpa using h2
    omega
  have e : ∀ m s, f (2 * m + s.toNat) = idx m s := by
    intro m s
    cases s <;> simp [hfd] <;> congr 1 <;> omega
  rw [← hq f e]
  exact symbolic_zero p h hp hf U J

/-- A difference that vanishes is a comparison that succeeds. -/
theorem eq_of_diff {a b : ScalarProg (Gen ι) ℂ} (ha : a.All FBS) (hb : b.All FBS) (h : (ScalarProg.sub a b).exact = 0) :
    a.exact.eqOp b.exact = true := by
  rw [eqOp_iff]
  refine FBS.ext (a.exact_alg FBS.rep ha).1 (b.exact_alg FBS.rep hb).1 ?_
  have e := congrArg (evalExpr (Reg.rep (S := ℂ))) h
  rw [ScalarProg.exact, eval_sub] at e
  exact sub_eq_zero.1 (e.trans rfl)

variable (idx : Nat → Bool → ι) (hinj : ∀ m s m' s', idx m s = idx m' s' → m = m' ∧ s = s')
include hinj

/-- **C111** The Kanamori Hamiltonian commutes, as an expression, with the number of particles, with every component of the spin and of the
orbital momentum, and with their squares. -/
theorem C111_symmetries (U J : ℂ) (Q : Expr (Gen ι) ℂ)
    (hQ : Q ∈ [num idx, sx idx, sy idx, sz idx, l idx 0, l idx 1, l idx 2, s2 idx, l2 idx]) : (ham idx U J * Q).eqOp (Q * ham idx U J) = true := by
  have key : ∀ i : Fin 9, (ham idx U J * (pq (consts U J) (fun m s d => Gen.fermion d (idx m s)) i).exact).eqOp
      ((pq (consts U J) (fun m s d => Gen.fermion d (idx m s)) i).exact * ham idx U J) = true := by
    intro i
    have aq := all_pq (consts U J) idx i
    have ah := all_ham (consts U J) idx
    refine eq_of_diff (a := .mul (pham (consts U J) fun m s d => Gen.fermion d (idx m s)) (pq (consts U J) (fun m s d => Gen.fermion d (idx m s)) i))
      (b := .mul (pq (consts U J) (fun m s d => Gen.fermion d (idx m s)) i) (pham (consts U J) fun m s d => Gen.fermion d (idx m s)))
      ⟨ah, aq⟩ ⟨aq, ah⟩ (run_zero (pcomm sconsts sgen i) (symbolic_conserved i) ⟨⟨all_ham _ _, all_pq _ _ i⟩, all_pq _ _ i, all_ham _ _⟩ idx hinj U J _ ?_)
    intro f hf
    have e : ((pcomm sconsts sgen i).eval (Sym.value U J)).mapGen (Gen.relabel f) =
        pcomm (sconsts.map (Sym.value U J)) (fun m s d => .fermion d (f (2 * m + s.toNat))) i := by fin_cases i <;> rfl
    rw [e, consts_value]
    simp only [hf]
    rfl
  simp only [List.mem_cons, List.not_mem_nil, or_false] at hQ
  rcases hQ with rfl | rfl | rfl | rfl | rfl | rfl | rfl | rfl | rfl
  exacts [key 0, key 1, key 2, key 3, key 4, key 5, key 6, key 7, key 8]

/-- **C111** The components of the spin satisfy `[S_a, S_b] = i S_c`; those of the orbital momentum, as the program defines them,
`[L_a, L_b] = - i L_c`. -/
theorem C111_momenta (A B C : Expr (Gen ι) ℂ) :
    ((A, B, C) ∈ [(sx idx, sy idx, sz idx), (sy idx, sz idx, sx idx), (sz idx, sx idx, sy idx)] →
      (A * B - B * A).eqOp (Complex.I • C) = true) ∧
    ((A, B, C) ∈ [(l idx 0, l idx 1, l idx 2), (l idx 1, l idx 2, l idx 0), (l idx 2, l idx 0, l idx 1)] →
      (A * B - B * A).eqOp ((-Complex.I) • C) = true) := by
  have key : ∀ (t : Bool) (i : Fin 3), (prel (consts 0 0) (fun m s d => Gen.fermion d (idx m s)) t i).exact = 0 := by
    intro t i
    refine run_zero (prel sconsts sgen t i) (symbolic_rel t i) ?_ idx hinj 0 0 _ ?_
    · cases t
      · exact ⟨⟨⟨(all_spin _ _ _).2, (all_spin _ _ _).2⟩, (all_spin _ _ _).2, (all_spin _ _ _).2⟩, (all_spin _ _ _).2⟩
      · exact ⟨⟨⟨(all_spin _ _ _).1, (all_spin _ _ _).1⟩, (all_spin _ _ _).1, (all_spin _ _ _).1⟩, (all_spin _ _ _).1⟩
    intro f hf
    have e : ((prel sconsts sgen t i).eval (Sym.value 0 0)).mapGen (Gen.relabel f) =
        prel (sconsts.map (Sym.value 0 0)) (fun m s d => .fermion d (f (2 * m + s.toNat))) t i := by
      cases t <;> fin_cases i <;> rfl
    rw [e, consts_value]
    simp only [hf]
  have lie : ∀ (x : ℂ) (a b c : ScalarProg (Gen ι) ℂ), a.All FBS → b.All FBS → c.All FBS → (plie x a b c).exact = 0 →
      (a.exact * b.exact - b.exact * a.exact).eqOp (x • c.exact) = true :=
    fun x a b c ha hb hc h => eq_of_diff (a := .sub (.mul a b) (.mul b a)) (b := .smul x c) ⟨⟨ha, hb⟩, hb, ha⟩ hc h
  have e1 : (consts 0 0).eps 0 1 2 = Complex.I := by simp [consts, eps]
  have e2 : (consts 0 0).eps 0 2 1 = -Complex.I := by simp [consts, eps]
  have s1 : ∀ i, _ := fun i => lie _ _ _ _ (all_spin (consts 0 0) idx i).1 (all_spin _ _ _).1 (all_spin _ _ _).1 (key true i)
  have s2 : ∀ i, _ := fun i => lie _ _ _ _ (all_spin (consts 0 0) idx i).2 (all_spin _ _ _).2 (all_spin _ _ _).2 (key false i)
  rw [e1] at s1
  rw [e2] at s2
  constructor
  all_goals
    intro h
    simp only [List.mem_cons, List.not_mem_nil, or_false, Prod.mk.injEq] at h
    rcases h with ⟨rfl, rfl, rfl⟩ | ⟨rfl, rfl, rfl⟩ | ⟨rfl, rfl, rfl⟩
  exacts [s1 0, s1 1, s1 2, s2 0, s2 1, s2 2]

/-- **C111** Spin and orbital momentum commute. -/
theorem C111_spin_orbit (A B : Expr (Gen ι) ℂ) (hA : A ∈ [sx idx, sy idx, sz idx]) (hB : B ∈ [l idx 0, l idx 1, l idx 2]) :
    (A * B).eqOp (B * A) = true := by
  have key : ∀ i j, ((pspin (consts 0 0) (fun m s d => Gen.fermion d (idx m s)) i).exact * (porb (consts 0 0) (fun m s d => Gen.fermion d (idx m s)) j).exact).eqOp
      ((porb (consts 0 0) (fun m s d => Gen.fermion d (idx m s)) j).exact * (pspin (consts 0 0) (fun m s d => Gen.fermion d (idx m s)) i).exact) = true := by
    intro i j
    have ai := (all_spin (consts 0 0) idx i).1
    have aj := (all_spin (consts 0 0) idx j).2
    refine eq_of_diff (a := .mul (pspin (consts 0 0) (fun m s d => Gen.fermion d (idx m s)) i) (porb (consts 0 0) (fun m s d => Gen.fermion d (idx m s)) j))
      (b := .mul (porb (consts 0 0) (fun m s d => Gen.fermion d (idx m s)) j) (pspin (consts 0 0) (fun m s d => Gen.fermion d (idx m s)) i))
      ⟨ai, aj⟩ ⟨aj, ai⟩ (run_zero (pcross sconsts sgen i j) (symbolic_cross i j)
        ⟨⟨(all_spin _ _ i).1, (all_spin _ _ j).2⟩, (all_spin _ _ j).2, (all_spin _ _ i).1⟩ idx hinj 0 0 _ ?_)
    intro f hf
    have e : ((pcross sconsts sgen i j).eval (Sym.value 0 0)).mapGen (Gen.relabel f) =
        pcross (sconsts.map (Sym.value 0 0)) (fun m s d => .fermion d (f (2 * m + s.toNat))) i j := by fin_cases i <;> fin_cases j <;> rfl
    rw [e, consts_value]
    simp only [hf]
    rfl
  simp only [List.mem_cons, List.not_mem_nil, or_false] at hA hB
  rcases hA with rfl | rfl | rfl <;> rcases hB with rfl | rfl | rfl
  exacts [key 0 0, key 0 1, key 0 2, key 1 0, key 1 1, key 1 2, key 2 0, key 2 1, key 2 2]

end Kanamori

set_option maxRecDepth 100000 in
theorem c111_symbolic_momenta :
    ((Kanamori.pq Kanamori.sconsts Kanamori.sgen 1).run.terms.find? [.fermion true 0, .fermion false 1]).map (·.terms) = some [((0, 0, false), 1 / 2)] ∧
    ((Kanamori.pq Kanamori.sconsts Kanamori.sgen 4).run.terms.find? [.fermion true 2, .fermion false 4]).map (·.terms) = some [((0, 0, true), 1)] := by
  decide +kernel

/-- Not vacuous: with the indices `2m + s`, `S_x` contains `1/2 c†(0,down) c(0,up)` and `L_x` contains `i c†(1,down) c(2,down)`. -/
theorem c111_symmetries_hypotheses : ∃ idx : Nat → Bool → Nat, (∀ m s m' s', idx m s = idx m' s' → m = m' ∧ s = s') ∧
    (Kanamori.sx idx).coeff [.fermion true 0, .fermion false 1] = 1 / 2 ∧
    (Kanamori.l idx 0).coeff [.fermion true 2, .fermion false 4] = Complex.I := by
  refine ⟨fun m s => 2 * m + s.toNat, ?_, ?_, ?_⟩
  · intro m s m' s' h
    cases s <;> cases s' <;> simp at * <;> omega
  · have e := C110_evaluate (Sym.evaluation 0 0) (Kanamori.pq Kanamori.sconsts Kanamori.sgen 1) [.fermion true 0, .fermion false 1]
    rw [show ((Kanamori.pq Kanamori.sconsts Kanamori.sgen 1).eval (Sym.value 0 0)) =
      Kanamori.pq (Kanamori.sconsts.map (Sym.value 0 0)) Kanamori.sgen 1 from rfl, Kanamori.consts_value] at e
    refine Eq.trans (b := (Kanamori.pq (Kanamori.consts 0 0) Kanamori.sgen 1).exact.coeff [.fermion true 0, .fermion false 1]) rfl (e.symm.trans ?_)
    obtain ⟨x, h1, h2⟩ := Option.map_eq_some_iff.1 c111_symbolic_momenta.1
    rw [Expr.valueAt, h1]
    show Sym.valL 0 0 x.terms = 1 / 2
    rw [h2]
    simp [Sym.valL, Sym.val1]
  · have e := C110_evaluate (Sym.evaluation 0 0) (Kanamori.pq Kanamori.sconsts Kanamori.sgen 4) [.fermion true 2, .fermion false 4]
    rw [show ((Kanamori.pq Kanamori.sconsts Kanamori.sgen 4).eval (Sym.value 0 0)) =
      Kanamori.pq (Kanamori.sconsts.map (Sym.value 0 0)) Kanamori.sgen 4 from rfl, Kanamori.consts_value] at e
    refine Eq.trans (b := (Kanamori.pq (Kanamori.consts 0 0) Kanamori.sgen 4).exact.coeff [.fermion true 2, .fermion false 4]) rfl (e.symm.trans ?_)
    obtain ⟨x, h1, h2⟩ := Option.map_eq_some_iff.1 c111_symbolic_momenta.2
    rw [Expr.valueAt, h1]
    show Sym.valL 0 0 x.terms = Complex.I
    rw [h2]
    simp [Sym.valL, Sym.val1]

end LC
