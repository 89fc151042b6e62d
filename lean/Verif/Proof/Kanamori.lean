import Verif.Model.Kanamori
import Verif.Proof.CoeffEval
import Verif.Proof.SymScalar
import Verif.Props.CoeffEval
import Verif.Spec.Relabel
/-
Lemmas for C111: programs interpreted in an algebra, and the program with symbolic parameters.
-/
set_option linter.unusedSectionVars false
namespace LC
open Expr

namespace ScalarProg
variable {G H S : Type _}

/-- The code with other generators. -/
def mapGen (f : G → H) : ScalarProg G S → ScalarProg H S
  | .zero => .zero
  | .const x => .const x
  | .monomial x m => .monomial x (m.map f)
  | .add p q => .add (p.mapGen f) (q.mapGen f)
  | .sub p q => .sub (p.mapGen f) (q.mapGen f)
  | .mul p q => .mul (p.mapGen f) (q.mapGen f)
  | .neg p => .neg (p.mapGen f)
  | .smul x p => .smul x (p.mapGen f)
  | .muls p x => .muls (p.mapGen f) x
  | .addScalar p x => .addScalar (p.mapGen f) x
  | .addAssignScalar p x => .addAssignScalar (p.mapGen f) x
  | .subScalar p x => .subScalar (p.mapGen f) x
  | .scalarSub x p => .scalarSub x (p.mapGen f)

variable {A : Type _} [CommRing S] [Ring A] [Algebra S A]

/-- The meaning of the code in an algebra. -/
def alg (ρ : G → A) : ScalarProg G S → A
  | .zero => 0
  | .const x => algebraMap S A x
  | .monomial x m => x • evalMon ρ m
  | .add p q => p.alg ρ + q.alg ρ
  | .sub p q => p.alg ρ - q.alg ρ
  | .mul p q => p.alg ρ * q.alg ρ
  | .neg p => - p.alg ρ
  | .smul x p => x • p.alg ρ
  | .muls p x => x • p.alg ρ
  | .addScalar p x => p.alg ρ + algebraMap S A x
  | .addAssignScalar p x => p.alg ρ + algebraMap S A x
  | .subScalar p x => p.alg ρ - algebraMap S A x
  | .scalarSub x p => algebraMap S A x - p.alg ρ

theorem alg_mapGen (f : G → H) (ρ : H → A) (p : ScalarProg G S) : (p.mapGen f).alg ρ = p.alg fun g => ρ (f g) := by
  induction p <;> simp_all [mapGen, alg, evalMon, List.map_map, Function.comp_def]

variable {ι : Type _} [LinearOrder ι] [DecidableEq S] [ConstScalar S] [ScalarLaws S] [IsDomain S] [CharZero S]

theorem exact_alg [Star S] {ρ : Gen ι → A} (hr : Represents S Reg.PH ρ) (p : ScalarProg (Gen ι) S) (hp : p.All FBS) :
    Reachable FBS p.exact ∧ evalExpr ρ p.exact = p.alg ρ := by
  have hm : ∀ g : Gen ι, FBS g → Reg.PH g := fun g hg => by cases g <;> simp_all [FBS, Reg.PH, Allowed, Reg.halfOnly]
  induction p with
  | zero => exact ⟨.zero, rfl⟩
  | const x => exact ⟨.const x, eval_const x⟩
  | monomial x m => exact ⟨.ofMonomial x m hp, eval_ofMonomial hr x m fun g hg => hm g (hp g hg)⟩
  | add p q ihp ihq =>
    obtain ⟨a1, a2⟩ := ihp hp.1
    obtain ⟨b1, b2⟩ := ihq hp.2
    exact ⟨a1.add b1, by rw [exact, eval_add, a2, b2, alg]⟩
  | sub p q ihp ihq =>
    obtain ⟨a1, a2⟩ := ihp hp.1
    obtain ⟨b1, b2⟩ := ihq hp.2
    exact ⟨a1.sub b1, by rw [exact, eval_sub, a2, b2, alg]⟩
  | mul p q ihp ihq =>
    obtain ⟨a1, a2⟩ := ihp hp.1
    obtain ⟨b1, b2⟩ := ihq hp.2
    exact ⟨a1.mul b1, by rw [exact, eval_mul hr (FBS.inP a1) (FBS.inP b1), a2, b2, alg]⟩
  | neg p ih =>
    obtain ⟨a1, a2⟩ := ih hp
    exact ⟨a1.neg, by rw [exact, eval_neg, a2, alg]⟩
  | smul x p ih =>
    obtain ⟨a1, a2⟩ := ih hp
    exact ⟨a1.smulPrefix x, by rw [exact, eval_smul, a2, alg]⟩
  | muls p x ih =>
    obtain ⟨a1, a2⟩ := ih hp
    exact ⟨a1.smulPostfix x, by rw [exact, smulPostfix_eq, eval_smul, a2, alg]⟩
  | addScalar p x ih =>
    obtain ⟨a1, a2⟩ := ih hp
    exact ⟨a1.addScalar x, by rw [exact, addScalar_eq, eval_add, eval_const, a2, alg]⟩
  | addAssignScalar p x ih =>
    obtain ⟨a1, a2⟩ := ih hp
    exact ⟨a1.addAssignScalar x, by rw [exact, addAssignScalar_eq, eval_add, eval_const, a2, alg]⟩
  | subScalar p x ih =>
    obtain ⟨a1, a2⟩ := ih hp
    exact ⟨a1.subScalar x, by rw [exact, subScalar_eq, eval_sub, eval_const, a2, alg]⟩
  | scalarSub x p ih =>
    obtain ⟨a1, a2⟩ := ih hp
    exact ⟨a1.scalarSub x, by rw [exact, scalarSub_eq (FBS.wf a1) x, eval_add, eval_neg, eval_const, a2, alg, neg_add_eq_sub]⟩

end ScalarProg

/-- Renaming operators by an injective map of indices preserves the relations. -/
theorem TextbookRel.relabel {ι κ S A : Type _} [CommRing S] [Ring A] [Algebra S A] [DecidableEq ι] [DecidableEq κ] {f : ι → κ}
    (hf : Function.Injective f) {ρ : Gen κ → A} (T : TextbookRel S (fun n _ => n = 2) ρ) :
    TextbookRel S (fun n _ => n = 2) (fun g : Gen ι => ρ (g.relabel f)) := by
  constructor
  · intro d i e j; exact (T.car d (f i) e (f j)).trans (by simp [hf.eq_iff])
  · intro i j; exact (T.ccr (f i) (f j)).trans (by simp [hf.eq_iff])
  · intro d i j; exact T.ccr_same d (f i) (f j)
  · intro n i hn; exact T.spin_pm n (f i) hn
  · intro n i hn; exact T.spin_zp n (f i) hn
  · intro n i hn; exact T.spin_zm n (f i) hn
  · intro n c i m e j hn hm hh; exact T.spin_comm n c (f i) m e (f j) hn hm (by simpa [hf.eq_iff] using hh)
  · intro n c i hn hc; exact T.spin_nil n c (f i) hn hc
  · intro i h; exact T.half_zz (f i) h
  · intro i h; exact T.half_pm (f i) h
  · intro i c h hc; exact T.half_z (f i) c h hc
  · intro d i e j; exact T.comm_fb d (f i) e (f j)
  · intro d i n c j hn; exact T.comm_fs d (f i) n c (f j) hn
  · intro d i n c j hn; exact T.comm_bs d (f i) n c (f j) hn

theorem all_eval {G S K : Type _} {P : G → Prop} {φ : S → K} {p : ScalarProg G S} (h : p.All P) : (p.eval φ).All P := by
  induction p with
  | zero | const | monomial => exact h
  | add p q a b | sub p q a b | mul p q a b => exact ⟨a h.1, b h.2⟩
  | neg p ih | smul x p ih | muls p x ih | addScalar p x ih | addAssignScalar p x ih | subScalar p x ih | scalarSub x p ih => exact ih h

theorem all_mapGen {G H S : Type _} {P : G → Prop} {Q : H → Prop} {f : G → H} (hf : ∀ g, P g → Q (f g)) {p : ScalarProg G S} (h : p.All P) :
    (p.mapGen f).All Q := by
  induction p with
  | zero | const => trivial
  | monomial x m => intro g hg; obtain ⟨g', hg', rfl⟩ := List.mem_map.1 hg; exact hf _ (h _ hg')
  | add p q a b | sub p q a b | mul p q a b => exact ⟨a h.1, b h.2⟩
  | neg p ih | smul x p ih | muls p x ih | addScalar p x ih | addAssignScalar p x ih | subScalar p x ih | scalarSub x p ih => exact ih h

open scoped Classical in
/-- A program that gives zero with symbolic parameters and some indices gives zero for all values of the parameters and all indices. -/
theorem symbolic_zero {ι κ : Type _} [LinearOrder ι] [LinearOrder κ] (p : ScalarProg (Gen ι) Sym) (h : p.run.terms.isEmpty = true)
    (hp : p.All FBS) {f : ι → κ} (hf : Function.Injective f) (U J : ℂ) :
    ((p.eval (Sym.value U J)).mapGen (Gen.relabel f)).exact = 0 := by
  have T := (Reg.rep_textbook (ι := κ) (S := ℂ)).relabel hf
  have hr := represents_of_textbook Reg.halfAlone T
  have e1 := C110_evaluated_operator (Sym.evaluation U J) p (evalMon fun g : Gen ι => Reg.rep (S := ℂ) (g.relabel f))
  rw [List.isEmpty_iff] at h
  rw [Expr.evaluated, h] at e1
  have e1 : 0 = evalExpr (fun g : Gen ι => Reg.rep (S := ℂ) (g.relabel f)) (p.eval (Sym.value U J)).exact := e1
  rw [((p.eval (Sym.value U J)).exact_alg hr (all_eval hp)).2, ← ScalarProg.alg_mapGen] at e1
  obtain ⟨r1, r2⟩ := ((p.eval (Sym.value U J)).mapGen (Gen.relabel f)).exact_alg FBS.rep (all_mapGen (fun g hg => by cases g <;> exact hg) (all_eval hp))
  exact FBS.ext r1 .zero (by rw [r2, ← e1]; rfl)

namespace Kanamori
variable {G S : Type _}

/-- The scalars of the program. -/
structure Consts (S : Type _) where
  (one U U2 U3 mJ J half halfI a b c d : S)
  (eps : Nat → Nat → Nat → S)

section prog
variable (k : Consts S) (g : Nat → Bool → Bool → G)

def pn (m : Nat) (s : Bool) : ScalarProg G S := .monomial k.one [g m s true, g m s false]
def pcd (m : Nat) (s : Bool) : ScalarProg G S := .monomial k.one [g m s true]
def pc (m : Nat) (s : Bool) : ScalarProg G S := .monomial k.one [g m s false]

def pham : ScalarProg G S :=
  let n := pn k g
  let cd := pcd k g
  let c := pc k g
  let H := ScalarProg.zero
  let H := (List.range 3).foldl (fun H m => .add H (.mul (.smul k.U (n m true)) (n m false))) H
  let H := (List.range 3).foldl (fun H m1 => (List.range 3).foldl (fun H m2 =>
    if m1 = m2 then H else .add H (.mul (.smul k.U2 (n m1 true)) (n m2 false))) H) H
  let H := (List.range 3).foldl (fun H m1 => (List.range 3).foldl (fun H m2 =>
    if m1 ≥ m2 then H else .add (.add H (.mul (.smul k.U3 (n m1 true)) (n m2 true))) (.mul (.smul k.U3 (n m1 false)) (n m2 false))) H) H
  let H := (List.range 3).foldl (fun H m1 => (List.range 3).foldl (fun H m2 =>
    if m1 = m2 then H else .add H (.mul (.mul (.mul (.smul k.mJ (cd m1 true)) (c m1 false)) (cd m2 false)) (c m2 true))) H) H
  (List.range 3).foldl (fun H m1 => (List.range 3).foldl (fun H m2 =>
    if m1 = m2 then H else .add H (.mul (.mul (.mul (.smul k.J (cd m1 true)) (cd m1 false)) (c m2 false)) (c m2 true))) H) H

def pnum : ScalarProg G S := (List.range 3).foldl (fun N m => .add N (.add (pn k g m true) (pn k g m false))) .zero
def psx : ScalarProg G S := (List.range 3).foldl (fun S m => .add S (.smul k.half (.add (.mul (pcd k g m true) (pc k g m false))
  (.mul (pcd k g m false) (pc k g m true))))) .zero
def psy : ScalarProg G S := (List.range 3).foldl (fun S m => .add S (.smul k.halfI (.sub (.mul (pcd k g m false) (pc k g m true))
  (.mul (pcd k g m true) (pc k g m false))))) .zero
def psz : ScalarProg G S := (List.range 3).foldl (fun S m => .add S (.smul k.half (.sub (pn k g m true) (pn k g m false)))) .zero
def ps2 : ScalarProg G S := .add (.add (.mul (psx k g) (psx k g)) (.mul (psy k g) (psy k g))) (.mul (psz k g) (psz k g))
def pl (i : Nat) : ScalarProg G S :=
  [true, false].foldl (fun L s => (List.range 3).foldl (fun L m1 => (List.range 3).foldl (fun L m2 =>
    .add L (.mul (.smul (k.eps i m1 m2) (pcd k g m1 s)) (pc k g m2 s))) L) L) .zero
def pl2 : ScalarProg G S := .add (.add (.mul (pl k g 0) (pl k g 0)) (.mul (pl k g 1) (pl k g 1))) (.mul (pl k g 2) (pl k g 2))
def pt2g : ScalarProg G S :=
  .add (.sub (.sub (.mul (.smul k.a (pnum k g)) (.subScalar (pnum k g) k.one)) (.smul k.b (ps2 k g))) (.smul k.c (pl2 k g)))
    (.smul k.d (pnum k g))
def pprinted : ScalarProg G S := .sub (pham k g) (pt2g k g)
end prog

/-- The scalars for given `U`, `J`. -/
noncomputable def consts (U J : ℂ) : Consts ℂ :=
  ⟨1, U, U - 2 * J, U - 3 * J, -J, J, 0.5, 0.5 * Complex.I, (U - 3 * J) / 2, 2 * J, J / 2, 5 / 2 * J, fun i m1 m2 => Complex.I * (eps i m1 m2 : ℂ)⟩

/-- The scalars with symbolic `U`, `J`. -/
def sconsts : Consts Sym :=
  ⟨.ofRat 1, ⟨[((1, 0, false), 1)]⟩, ⟨[((1, 0, false), 1), ((0, 1, false), -2)]⟩, ⟨[((1, 0, false), 1), ((0, 1, false), -3)]⟩,
    ⟨[((0, 1, false), -1)]⟩, ⟨[((0, 1, false), 1)]⟩, .ofRat (1 / 2), ⟨[((0, 0, true), 1 / 2)]⟩,
    ⟨[((1, 0, false), 1 / 2), ((0, 1, false), -3 / 2)]⟩, ⟨[((0, 1, false), 2)]⟩, ⟨[((0, 1, false), 1 / 2)]⟩, ⟨[((0, 1, false), 5 / 2)]⟩,
    fun i m1 m2 => ⟨[((0, 0, true), eps i m1 m2)]⟩⟩

def sgen : Nat → Bool → Bool → Gen Nat := fun m s d => .fermion d (2 * m + s.toNat)

set_option maxRecDepth 100000 in
theorem symbolic : (pprinted sconsts sgen).run.terms.isEmpty = true := by decide +kernel

theorem all_sgen : (pprinted sconsts sgen).All FBS := by
  simp [pprinted, pham, pt2g, pnum, ps2, psx, psy, psz, pl2, pl, pn, pcd, pc, sgen, ScalarProg.All, FBS, List.range_succ]

/-- The scalars under a function. -/
def Consts.map {K : Type _} (φ : S → K) (k : Consts S) : Consts K :=
  ⟨φ k.one, φ k.U, φ k.U2, φ k.U3, φ k.mJ, φ k.J, φ k.half, φ k.halfI, φ k.a, φ k.b, φ k.c, φ k.d, fun i m n => φ (k.eps i m n)⟩

theorem prog_map {H K : Type _} (φ : S → K) (h : G → H) (k : Consts S) (g : Nat → Bool → Bool → G) :
    ((pprinted k g).eval φ).mapGen h = pprinted (k.map φ) (fun m s d => h (g m s d)) := by
  rfl

theorem consts_value (U J : ℂ) : sconsts.map (Sym.value U J) = consts U J := by
  simp only [Consts.map, sconsts, consts, Consts.mk.injEq]
  simp only [Sym.value, Sym.valL, Sym.val1, Sym.ofRat, List.map_cons, List.map_nil, List.sum_cons, List.sum_nil]
  refine ⟨?_, ?_, ?_, ?_, ?_, ?_, ?_, ?_, ?_, ?_, ?_, ?_, ?_⟩ <;> (try funext i m n) <;> simp <;> ring

/-- The symbolic program with values is the program. -/
theorem prog_value {κ : Type _} (U J : ℂ) (f : Nat → κ) : ((pprinted sconsts sgen).eval (Sym.value U J)).mapGen (Gen.relabel f)
    = pprinted (consts U J) (fun m s d => .fermion d (f (2 * m + s.toNat))) := by
  rw [prog_map, consts_value]; rfl

variable {ι : Type _} [LinearOrder ι]
open scoped Classical in
theorem prog_exact (idx : Nat → Bool → ι) (U J : ℂ) :
    (pprinted (consts U J) (fun m s d => Gen.fermion d (idx m s))).exact = printed idx U J := by
  rfl
end Kanamori
end LC
