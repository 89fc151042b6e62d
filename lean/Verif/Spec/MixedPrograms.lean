import Verif.Model.MixedScalar
/-
Programs that use several scalar types at once.
-/
namespace LC

/-- A family of scalar types `El s` with the operations the language provides between them. Nothing is assumed about the
operations: they may round, overflow, truncate, propagate NaNs, and `is_zero` may have a tolerance. -/
class ScalarFamily (U : Type _) (El : U → Type _) where
  /-- the operations within one type -/
  ops : ∀ s, ScalarOps (El s)
  /-- `+`, `-`, `*` of the types `s`, `t` when their result has the type `r` -/
  bin : ∀ s t r, BinOps (El s) (El t) (El r)
  /-- initialisation and compound assignment of the type `s` from the type `t` -/
  asg : ∀ s t, AsgOps (El s) (El t)
  /-- unary minus of the type `s` when it has the type `r` -/
  uminus : ∀ s r, El s → El r
  /-- initialisation of the type `r` by `s{0} - t` -/
  zsub : ∀ (_ : U) t r, El t → El r

instance {U : Type _} {El : U → Type _} [h : ScalarFamily U El] (s : U) : ScalarOps (El s) := h.ops s

/-- Expressions, of all scalar types of the family, that a finite program can compute from generators satisfying `P`.
(The program may use any of the overloads with any result type.) Not covered: writing through the mutable
`get_monomials()` reference. -/
inductive MixedReachable {G U : Type _} {El : U → Type _} [GenOps G] [F : ScalarFamily U El] (P : G → Prop) :
    (s : U) → Expr G (El s) → Prop
  | zero (s) : MixedReachable P s ⟨[]⟩
  | const (s) (x : El s) : MixedReachable P s (Any.const x)
  | constOf (s t) (x : El t) : MixedReachable P s (Mixed.constOf (F.asg s t).conv x)
  | ofMonomial (s) (x : El s) (m : List G) : (∀ g ∈ m, P g) → MixedReachable P s (Any.ofMonomial x m)
  | ofMonomialOf (s t) (x : El t) (m : List G) : (∀ g ∈ m, P g) →
      MixedReachable P s (Mixed.ofMonomialOf (F.asg s t).conv x m)
  | convert (s t) {a} : MixedReachable P t a → MixedReachable P s (Mixed.convert (F.asg s t).conv a)
  -- operations within one type
  | addSame (s) {a b} : MixedReachable P s a → MixedReachable P s b → MixedReachable P s (Any.addAssign a b)
  | subSame (s) {a b} : MixedReachable P s a → MixedReachable P s b → MixedReachable P s (Any.subAssign a b)
  | mulSame (s) {a b} : MixedReachable P s a → MixedReachable P s b → MixedReachable P s (Any.mulAssign a b)
  | negSame (s) {a} : MixedReachable P s a → MixedReachable P s (Any.neg a)
  | smulPrefixSame (s) (x : El s) {a} : MixedReachable P s a → MixedReachable P s (Any.smulPrefix x a)
  | smulPostfixSame (s) (x : El s) {a} : MixedReachable P s a → MixedReachable P s (Any.smulPostfix a x)
  | addScalarSame (s) (x : El s) {a} : MixedReachable P s a → MixedReachable P s (Any.addScalar a x)
  | addAssignScalarSame (s) (x : El s) {a} : MixedReachable P s a → MixedReachable P s (Any.addAssignScalar a x)
  | subScalarSame (s) (x : El s) {a} : MixedReachable P s a → MixedReachable P s (Any.subScalar a x)
  | scalarSubSame (s) (x : El s) {a} : MixedReachable P s a → MixedReachable P s (Any.scalarSub x a)
  | conj (s) {a} : MixedReachable P s a → MixedReachable P s (Any.conj a)
  | transform (s t) (f : List G → El s → El t) {a} : MixedReachable P s a → MixedReachable P t (Any.transform a f)
  -- operations between different types
  | addAssign (s t) {a b} : MixedReachable P s a → MixedReachable P t b →
      MixedReachable P s (Mixed.addAssign (F.asg s t) a b)
  | subAssign (s t) {a b} : MixedReachable P s a → MixedReachable P t b →
      MixedReachable P s (Mixed.subAssign (F.asg s t) a b)
  | mulAssign (s t) {a b} : MixedReachable P s a → MixedReachable P t b →
      MixedReachable P s (Mixed.mulAssign (F.asg s t) a b)
  | add (s t r) {a b} : MixedReachable P s a → MixedReachable P t b → MixedReachable P r (Mixed.add (F.bin s t r) a b)
  | sub (s t r) {a b} : MixedReachable P s a → MixedReachable P t b → MixedReachable P r (Mixed.sub (F.bin s t r) a b)
  | mul (s t r) {a b} : MixedReachable P s a → MixedReachable P t b →
      MixedReachable P r (Mixed.mul (F.asg r s).conv (F.asg r t) a b)
  | neg (s r) {a} : MixedReachable P s a → MixedReachable P r (Mixed.neg (F.uminus s r) a)
  | smulPostfix (s t r) (x : El t) {a} : MixedReachable P s a → MixedReachable P r (Mixed.smulPostfix (F.bin s t r) a x)
  | smulPrefix (s t r) (x : El t) {a} : MixedReachable P s a → MixedReachable P r (Mixed.smulPrefix (F.bin t s r) x a)
  | smulAssign (s t) (x : El t) {a} : MixedReachable P s a → MixedReachable P s (Mixed.smulAssign (F.asg s t).mulAsg a x)
  | addScalar (s t r) (x : El t) {a} : MixedReachable P s a →
      MixedReachable P r (Mixed.addScalar (F.asg r s).conv (F.asg r t) a x)
  | subScalar (s t r) (x : El t) {a} : MixedReachable P s a →
      MixedReachable P r (Mixed.subScalar (F.asg r s).conv (F.asg r t) (F.zsub s t r) a x)
  | scalarSub (s t r) (x : El t) {a} : MixedReachable P s a →
      MixedReachable P r (Mixed.scalarSub (F.bin t s r) (F.asg r t) x a)
  | addAssignScalar (s t) (x : El t) {a} : MixedReachable P s a →
      MixedReachable P s (Mixed.addAssignScalar (F.asg s t) a x)
  | subAssignScalar (s t) (x : El t) {a} : MixedReachable P s a →
      MixedReachable P s (Mixed.subAssignScalar (F.asg s t) a x)

end LC
