import Verif.Model.AnyScalar
/-
Model of the operations of `expression/expression.hpp` that involve two scalar types: conversion, arithmetic of
expressions with different scalar types, arithmetic of an expression and a scalar of another type.
-/
namespace LC

/-- What the language provides for an ordered pair of scalar types `S`, `S'` (types of the left and of the right operand)
with results in `R`: `s + s'`, `s - s'`, `s * s'` of the types `sum_res_t`, `diff_res_t`, `mul_res_t`
(scalar_traits.hpp:117-142). The three result types are always used separately, so one name `R` is enough. -/
structure BinOps (S S' R : Type _) where
  add : S → S' → R
  sub : S → S' → R
  mul : S → S' → R

/-- Operations that change an `S` using an `S'`, with the implicit conversion of the result to `S`: initialisation
`S(s')`, and `add_assign`, `sub_assign`, `mul_assign` (scalar_traits.hpp:162-187). `sub`, `mul` are the initialisations of
an `S` by `s - s'` and by `s * s'`. -/
structure AsgOps (S S' : Type _) where
  conv : S' → S
  addAsg : S → S' → S
  subAsg : S → S' → S
  mulAsg : S → S' → S
  sub : S → S' → S
  mul : S → S' → S

namespace Mixed
open Any
variable {G S S' R : Type _} [GenOps G]

/-- Assignment from an expression of a different scalar type (expression.hpp:123-132), and the converting constructor
(expression.hpp:79-86), which calls it. -/
def convert (cv : S' → S) (a : Expr G S') : Expr G S :=
  ⟨a.terms.foldl (fun t p => t.emplace p.1 (cv p.2)) []⟩

variable [ScalarOps S']

/-- `expression(S' const& x)` (expression.hpp:88-93); the test is the `is_zero` of the argument's type. -/
def constOf (cv : S' → S) (x : S') : Expr G S := ⟨if ScalarOps.isZero x then [] else [([], cv x)]⟩

variable [ScalarOps S]

/-- `expression(S' const& x, monomial_t const&)` (expression.hpp:96-103). -/
def ofMonomialOf (cv : S' → S) (x : S') (m : List G) : Expr G S :=
  ⟨if ScalarOps.isZero x then [] else Any.normalize Any.store m (cv x) []⟩

omit [ScalarOps S'] in
/-- `operator+=(expression_t<S'>)` (expression.hpp:248-259) and `add_impl(…, true_type)` (expression.hpp:449-464). -/
def addAssign (o : AsgOps S S') (a : Expr G S) (b : Expr G S') : Expr G S :=
  ⟨b.terms.foldl (fun t p =>
      match t.find? p.1 with
      | none => t.emplace p.1 (o.conv p.2)
      | some v => if ScalarOps.isZero (o.addAsg v p.2) then t.erase p.1 else t.assign p.1 (o.addAsg v p.2))
    a.terms⟩

omit [ScalarOps S'] in
/-- `operator-=(expression_t<S'>)` (expression.hpp:262-274) and `sub_impl(…, true_type)` (expression.hpp:516-533). -/
def subAssign (o : AsgOps S S') (a : Expr G S) (b : Expr G S') : Expr G S :=
  ⟨b.terms.foldl (fun t p =>
      match t.find? p.1 with
      | none => t.emplace p.1 (o.sub zero p.2)
      | some v => if ScalarOps.isZero (o.subAsg v p.2) then t.erase p.1 else t.assign p.1 (o.subAsg v p.2))
    a.terms⟩

omit [ScalarOps S'] in
/-- `operator*=(expression_t<S'>)` (expression.hpp:277-288). -/
def mulAssign (o : AsgOps S S') (a : Expr G S) (b : Expr G S') : Expr G S :=
  ⟨a.terms.foldl (fun t m1 =>
      b.terms.foldl (fun t m2 => Any.normalize Any.store (m1.1 ++ m2.1) (o.mul m1.2 m2.2) t) t) []⟩

variable [ScalarOps R]

/-- `operator*(expression_t<S'>)` (expression.hpp:235-241): the left operand is converted to the result type. -/
def mul (cv : S → R) (o : AsgOps R S') (a : Expr G S) (b : Expr G S') : Expr G R :=
  mulAssign o (convert cv a) b

/-- The merging loops of `add_impl(…, false_type)` and `sub_impl(…, false_type)` (expression.hpp:468-508, 537-577);
`op` is `+` or `-`; `z1`, `z2` are the zeros of the two types. -/
def merge (op : S → S' → R) (z1 : S) (z2 : S') : Terms G R → Terms G S → Terms G S' → Terms G R
  | res, [], [] => res
  | res, [], (k₂, v₂) :: t₂ => merge op z1 z2 (res.emplace k₂ (op z1 v₂)) [] t₂
  | res, (k₁, v₁) :: t₁, [] => merge op z1 z2 (res.emplace k₁ (op v₁ z2)) t₁ []
  | res, (k₁, v₁) :: t₁, (k₂, v₂) :: t₂ =>
      if monLt k₁ k₂ then merge op z1 z2 (res.emplace k₁ (op v₁ z2)) t₁ ((k₂, v₂) :: t₂)
      else if monLt k₂ k₁ then merge op z1 z2 (res.emplace k₂ (op z1 v₂)) ((k₁, v₁) :: t₁) t₂
      else if ScalarOps.isZero (op v₁ v₂) then merge op z1 z2 res t₁ t₂
      else merge op z1 z2 (res.emplace k₁ (op v₁ v₂)) t₁ t₂
  termination_by _ t₁ t₂ => t₁.length + t₂.length

/-- `operator+(expression_t<S'>)` when the result type differs from `S` (expression.hpp:468-508). -/
def add (o : BinOps S S' R) (a : Expr G S) (b : Expr G S') : Expr G R := ⟨merge o.add zero zero [] a.terms b.terms⟩

/-- `operator-(expression_t<S'>)` when the result type differs from `S` (expression.hpp:537-577). -/
def sub (o : BinOps S S' R) (a : Expr G S) (b : Expr G S') : Expr G R := ⟨merge o.sub zero zero [] a.terms b.terms⟩

omit [ScalarOps S] [ScalarOps S'] [ScalarOps R] in
/-- Unary minus when its type differs from `S` (expression.hpp:593-600). -/
def neg (ng : S → R) (a : Expr G S) : Expr G R := ⟨a.terms.foldl (fun t p => t.emplace p.1 (ng p.2)) []⟩

omit [ScalarOps S] [ScalarOps R] in
/-- `expr * alpha` when the result type differs from `S` (expression.hpp:301-310, 766-775). -/
def smulPostfix (o : BinOps S S' R) (a : Expr G S) (x : S') : Expr G R :=
  if ScalarOps.isZero x then ⟨[]⟩ else ⟨a.terms.foldl (fun t p => t.emplace p.1 (o.mul p.2 x)) []⟩

omit [ScalarOps S] [ScalarOps R] in
/-- `alpha * expr` when the result type differs from `S` (expression.hpp:313-322, 790-799). -/
def smulPrefix (o : BinOps S' S R) (x : S') (a : Expr G S) : Expr G R :=
  if ScalarOps.isZero x then ⟨[]⟩ else ⟨a.terms.foldl (fun t p => t.emplace p.1 (o.mul x p.2)) []⟩

omit [ScalarOps S] in
/-- `expr *= alpha` (expression.hpp:378-386) and `expr * alpha` when the result type is `S` (expression.hpp:755-762);
`alpha * expr` with result type `S` (expression.hpp:779-786) is the same with the assignment `s = alpha * s` in place of
`mul_assign`. -/
def smulAssign (mulAsg : S → S' → S) (a : Expr G S) (x : S') : Expr G S :=
  if ScalarOps.isZero x then ⟨[]⟩ else ⟨a.terms.map fun p => (p.1, mulAsg p.2 x)⟩

/-- `expr + alpha`, `alpha + expr` (expression.hpp:325-340): with `S = R`, `cv` the identity when the result type is `S`
(expression.hpp:807-822, 848-863), otherwise `cv` is the conversion to the result type (expression.hpp:826-844,
867-885). -/
def addScalar (cv : S → R) (o : AsgOps R S') (a : Expr G S) (x : S') : Expr G R :=
  let t : Terms G R := a.terms.foldl (fun t p => t.emplace p.1 (cv p.2)) []
  if ScalarOps.isZero x then ⟨t⟩ else
    ⟨match t.find? [] with
     | none => t.emplace [] (o.conv x)
     | some v => if ScalarOps.isZero (o.addAsg v x) then t.erase [] else t.assign [] (o.addAsg v x)⟩

/-- `expr - alpha` (expression.hpp:343-349, 893-932); `zsub` is the initialisation of an `R` by `z - alpha`, where `z` is
a zero of the type `S`. -/
def subScalar (cv : S → R) (o : AsgOps R S') (zsub : S' → R) (a : Expr G S) (x : S') : Expr G R :=
  let t : Terms G R := a.terms.foldl (fun t p => t.emplace p.1 (cv p.2)) []
  if ScalarOps.isZero x then ⟨t⟩ else
    ⟨match t.find? [] with
     | none => t.emplace [] (zsub x)
     | some v => if ScalarOps.isZero (o.subAsg v x) then t.erase [] else t.assign [] (o.subAsg v x)⟩

/-- `alpha - expr` (expression.hpp:352-371). -/
def scalarSub (o : BinOps S' S R) (oa : AsgOps R S') (x : S') (a : Expr G S) : Expr G R :=
  let t : Terms G R := a.terms.foldl (fun t p => t.emplace p.1 (o.sub zero p.2)) []
  if ScalarOps.isZero x then ⟨t⟩ else
    ⟨match t.find? [] with
     | none => t.emplace [] (oa.conv x)
     | some v => if ScalarOps.isZero (oa.addAsg v x) then t.erase [] else t.assign [] (oa.addAsg v x)⟩

/-- `expr += alpha` (expression.hpp:389-404). -/
def addAssignScalar (o : AsgOps S S') (a : Expr G S) (x : S') : Expr G S :=
  if ScalarOps.isZero x then a else
    ⟨match a.terms.find? [] with
     | none => a.terms.emplace [] (o.addAsg zero x)
     | some v => if ScalarOps.isZero (o.addAsg v x) then a.terms.erase [] else a.terms.assign [] (o.addAsg v x)⟩

/-- `expr -= alpha` (expression.hpp:407-421). -/
def subAssignScalar (o : AsgOps S S') (a : Expr G S) (x : S') : Expr G S :=
  if ScalarOps.isZero x then a else
    ⟨match a.terms.find? [] with
     | none => a.terms.emplace [] (o.sub zero x)
     | some v => if ScalarOps.isZero (o.subAsg v x) then a.terms.erase [] else a.terms.assign [] (o.subAsg v x)⟩

end Mixed
end LC
