import Verif.Spec.Print
import Verif.Proof.Print
import Verif.Props.Expression
import Mathlib.Data.String.Basic
import Mathlib.Data.List.Lex
/-
C81: stream output of expressions.
-/
set_option linter.unusedSectionVars false
namespace LC
section
variable {G S : Type _} [GenOps G] [LawfulGen G] {gt : G → Text}

/-- **C81** A monomial is printed as the sequence of its generators, with every maximal run of `n > 1` equal generators `g` written `[g]^n`. -/
theorem C81_monomial_text (gt : G → Text) (m : List G) :
    ∃ rs, IsPowers m rs ∧ monText gt m = rs.flatMap (PowerText gt) := by
  refine ⟨runs m 1, ⟨runs_flat m, runs_pos m 1 le_rfl, (runs_distinct m 1).1⟩, ?_⟩
  rw [monText, monLoop_eq]
  refine List.flatMap_congr fun r hr => ?_
  have := runs_pos m 1 le_rfl r hr
  rw [runText, PowerText]
  split_ifs with h1 h2 h2
  · omega
  · rfl
  · rfl
  · omega

/-- **C81** An expression is printed as the sum of its terms in the order of iteration, joined by ` + `; the zero expression as the zero
coefficient. -/
theorem C81_expression_text [Zero S] (gt : G → Text) (cs : S → Text) (e : Expr G S) :
    e.text gt cs = if e.terms = [] then cs 0 else " + ".toList.intercalate (e.terms.map (TermText (monText gt) cs)) := by
  have key : ∀ p : List G × S, cs p.2 ++ (if p.1.isEmpty then [] else ['*']) ++ monText gt p.1 = TermText (monText gt) cs p := by
    rintro ⟨m, c⟩
    cases m with
    | nil => simp [TermText, monText, monLoop]
    | cons g m => simp [TermText]
  have many : ∀ l : List (List G × S), termsText gt cs true l = l.flatMap (fun p => " + ".toList ++ TermText (monText gt) cs p) := by
    intro l
    induction l with
    | nil => rfl
    | cons p l ih =>
      obtain ⟨m, c⟩ := p
      rw [termsText, ih, List.flatMap_cons, ← key (m, c)]
      simp
  have inter : ∀ (l : List (List G × S)) (p : List G × S), " + ".toList.intercalate ((p :: l).map (TermText (monText gt) cs)) =
      TermText (monText gt) cs p ++ l.flatMap (fun q => " + ".toList ++ TermText (monText gt) cs q) := by
    intro l
    induction l with
    | nil => intro p; simp
    | cons q l ih =>
      intro p
      have := ih q
      simp only [List.map_cons, List.flatMap_cons] at this ⊢
      rw [List.intercalate_cons_cons, this]
      simp
  rw [Expr.text]
  cases h : e.terms with
  | nil => rfl
  | cons p l =>
    obtain ⟨m, c⟩ := p
    rw [if_neg (by simp), if_neg (by simp), inter, ← key (m, c), termsText, many]
    simp

end

/-- **C81** The printed forms of generators; the spin is printed unless it is 1/2. -/
theorem C81_generator_text {ι : Type _} (ix : ι → Text) (i : ι) (k : Nat) (t : SpinComp) (x : Text)
    (hx : x = match t with | .plus => "+(".toList | .minus => "-(".toList | .z => "z(".toList) :
    Gen.text ix (.fermion true i) = "C+(".toList ++ ix i ++ ")".toList ∧ Gen.text ix (.fermion false i) = "C(".toList ++ ix i ++ ")".toList ∧
    Gen.text ix (.boson true i) = "A+(".toList ++ ix i ++ ")".toList ∧ Gen.text ix (.boson false i) = "A(".toList ++ ix i ++ ")".toList ∧
    Gen.text ix (.spin 2 t i) = "S".toList ++ x ++ ix i ++ ")".toList ∧
    Gen.text ix (.spin (2 * k + 1) t i) = "S".toList ++ natText k ++ x ++ ix i ++ ")".toList ∧
    (1 < k → Gen.text ix (.spin (2 * k) t i) = "S".toList ++ natText (2 * k - 1) ++ "/2".toList ++ x ++ ix i ++ ")".toList) := by
  subst hx
  have e1 : multText (2 * k + 1) = natText k := by
    rw [multText, if_pos (by omega), if_neg (by omega)]
    have : ((2 * k + 1 : Nat) - 1 : Int) / 2 = (k : Int) := by omega
    rw [this]; rfl
  have e2 : 1 < k → multText (2 * k) = natText (2 * k - 1) ++ "/2".toList := by
    intro h
    rw [multText, if_pos (by omega), if_pos (by omega)]
    have : ((2 * k : Nat) - 1 : Int) = ((2 * k - 1 : Nat) : Int) := by omega
    rw [this]; rfl
  refine ⟨by simp [Gen.text], by simp [Gen.text], by simp [Gen.text], by simp [Gen.text], ?_, ?_, fun h => ?_⟩
  · cases t <;> simp [Gen.text, multText, SpinComp.text]
  · rw [Gen.text, e1]; cases t <;> simp [SpinComp.text]
  · rw [Gen.text, e2 h]; cases t <;> simp [SpinComp.text]

section
variable {ι S : Type _} [LinearOrder ι] [CommRing S] [DecidableEq S] [ConstScalar S] [ScalarLaws S] [IsDomain S]
  [CharZero S] [Star S] {P Q : Gen ι → Prop} {a b : Expr (Gen ι) S} {ix : ι → Text} {cs : S → Text}

/-- **C81** Expressions printed alike are equal, if the printed form of indices determines them and has no closing parentheses, and the
printed form of coefficients determines them. -/
theorem C81_readable_partial (hix : Function.Injective ix) (hpar : ∀ i, ')' ∉ ix i) (hcs : ReadableCoeff cs) (ha : Reachable P a)
    (hb : Reachable Q b) (h : a.text (Gen.text ix) cs = b.text (Gen.text ix) cs) : a.eqOp b = true := by
  have hg := readableGen_predefined hix hpar
  rw [Expr.eqOp_iff]
  have ha := ha.wfG
  have hb := hb.wfG
  have zero : ∀ (e : Expr (Gen ι) S), e.WF → e.terms ≠ [] → cs 0 ≠ termsText (Gen.text ix) cs false e.terms := by
    intro e he hne heq
    cases ht : e.terms with
    | nil => exact hne ht
    | cons p l =>
      obtain ⟨m, c⟩ := p
      have h0 : termsText (Gen.text ix) cs false [(([] : List (Gen ι)), (0 : S))] = cs 0 := by
        simp [termsText, monText, monLoop]
      rw [ht, ← h0] at heq
      have := termsText_inj hg hcs _ _ false (.inr (by simp)) heq
      simp only [List.cons.injEq, Prod.mk.injEq] at this
      exact he.2 (m, c) (by rw [ht]; simp) this.1.2.symm
  unfold Expr.text at h
  by_cases h1 : a.terms = []
  · by_cases h2 : b.terms = []
    · exact Expr.ext (by rw [h1, h2])
    · rw [if_pos (by simp [h1]), if_neg (by simp [h2])] at h
      exact absurd h (zero b hb h2)
  · by_cases h2 : b.terms = []
    · rw [if_neg (by simp [h1]), if_pos (by simp [h2])] at h
      exact absurd h.symm (zero a ha h1)
    · rw [if_neg (by simp [h1]), if_neg (by simp [h2])] at h
      exact Expr.ext (termsText_inj hg hcs _ _ false (.inr (by simp [h1, h2])) h)

end

/-- **C81** Index sequences of integers, of any lengths, satisfy the conditions of `C81_readable_partial`. -/
theorem C81_integer_indices : Function.Injective (tupleText intText) ∧ ∀ i, ')' ∉ tupleText intText i := by
  have h : ∀ (x : Int) (c : Char), c ∈ intText x → c ≠ ',' ∧ c ≠ ')' := by
    intro x c hc
    rcases intText_chars hc with h | h
    · exact ⟨fun e => by subst e; revert h; decide, fun e => by subst e; revert h; decide⟩
    · subst h; decide
  refine ⟨tupleText_inj (fun _ _ e => intText_inj e) (fun x hx => (h x _ hx).1 rfl) intText_ne_nil, ?_⟩
  intro i
  induction i with
  | nil => simp [tupleText]
  | cons x l ih =>
    cases l with
    | nil => exact fun hx => (h x _ hx).2 rfl
    | cons y l =>
      rw [tupleText]
      simp only [List.append_assoc, List.mem_append, List.mem_singleton, not_or]
      exact ⟨fun hx => (h x _ hx).2 rfl, by decide, ih⟩

/-- **C81** So do index sequences of non-empty strings with neither commas nor closing parentheses. -/
theorem C81_string_indices : Function.Injective (tupleText (fun s : {s : String // s.toList ≠ [] ∧ ',' ∉ s.toList ∧ ')' ∉ s.toList} => s.1.toList)) ∧
    ∀ i, ')' ∉ tupleText (fun s : {s : String // s.toList ≠ [] ∧ ',' ∉ s.toList ∧ ')' ∉ s.toList} => s.1.toList) i := by
  refine ⟨tupleText_inj (fun s t e => Subtype.ext (String.toList_injective e)) (fun s => s.2.2.1) (fun s => s.2.1), ?_⟩
  intro i
  induction i with
  | nil => simp [tupleText]
  | cons x l ih =>
    cases l with
    | nil => exact x.2.2.2
    | cons y l =>
      rw [tupleText]
      simp only [List.append_assoc, List.mem_append, List.mem_singleton, not_or]
      exact ⟨x.2.2.2, by decide, ih⟩

/-- **C81** Integer, rational and complex coefficients satisfy the conditions of `C81_readable_partial`. -/
theorem C81_coefficients : ReadableCoeff intText ∧ ReadableCoeff ratText ∧ ReadableCoeff (complexText ratText) := by
  refine ⟨readableCoeff_int, readableCoeff_rat, readableCoeff_complex readableCoeff_rat fun x => ?_⟩
  unfold ratText
  simp only [List.append_assoc, List.mem_append, List.mem_singleton, not_or]
  exact ⟨fun h => by rcases intText_chars h with h | h <;> revert h <;> decide, by decide, fun h => by
    have := natText_digit h; revert this; decide⟩

open Factory in
/-- `2 c†(1,2)c(3,4) + 1/2 a(-1)²`. -/
def printSample : Expr (Gen (List Int)) ℚ :=
  (2 : ℚ) • (cDag [(1 : Int), 2] * c [(3 : Int), 4]) + (1 / 2 : ℚ) • (Factory.a [(-1 : Int)] * Factory.a [(-1 : Int)])

/-- A non-trivial case of the conditions of `C81_readable_partial`. -/
example : Reachable (fun _ => True) printSample :=
  .add (.smulPrefix _ (.mul (.ofMonomial _ _ (by simp)) (.ofMonomial _ _ (by simp))))
    (.smulPrefix _ (.mul (.ofMonomial _ _ (by simp)) (.ofMonomial _ _ (by simp))))

example : printSample.text (Gen.text (tupleText intText)) ratText = "2/1*C+(1,2)C(3,4) + 1/2*[A(-1)]^2".toList := by decide +kernel

section
open Factory

/-- **C81 (finding F31)** A closing parenthesis in a string index: the generator `c("2)C(1")` and the product `c("2")c("1")` are printed alike. -/
theorem C81_F31_parenthesis : ∃ a b : Expr (Gen (List String)) ℚ, Reachable (fun _ => True) a ∧ Reachable (fun _ => True) b ∧
    a.eqOp b = false ∧ a.text (Gen.text (tupleText String.toList)) ratText = b.text (Gen.text (tupleText String.toList)) ratText :=
  ⟨c ["2)C(1"], c ["2"] * c ["1"], .ofMonomial _ _ (by simp), .mul (.ofMonomial _ _ (by simp)) (.ofMonomial _ _ (by simp)),
    by decide +kernel, by decide +kernel⟩

/-- **C81 (finding F31)** A comma in a string index: `c("a,b","c")` and `c("a","b,c")` are printed alike. -/
theorem C81_F31_comma : ∃ a b : Expr (Gen (List String)) ℚ, Reachable (fun _ => True) a ∧ Reachable (fun _ => True) b ∧
    a.eqOp b = false ∧ a.text (Gen.text (tupleText String.toList)) ratText = b.text (Gen.text (tupleText String.toList)) ratText :=
  ⟨c ["a,b", "c"], c ["a", "b,c"], .ofMonomial _ _ (by simp), .ofMonomial _ _ (by simp), by decide +kernel, by decide +kernel⟩

/-- **C81 (finding F31)** Dynamic indices: the integer 1 and the string "1" are different indices printed alike. -/
theorem C81_F31_dynamic : ∃ i j : List (DynIndex Int String), i ≠ j ∧ DynIndices.text i = DynIndices.text j ∧
    Gen.text DynIndices.text (.fermion true i) = Gen.text DynIndices.text (.fermion true j) :=
  ⟨[.int 1], [.str "1"], by decide, by decide +kernel, by decide +kernel⟩

end
end LC
