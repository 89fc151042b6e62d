import Verif.Proof.MixedLemmas
/-
Coefficients of sums, differences and scalar multiples, for any scalar type.
-/
set_option linter.unusedSectionVars false
set_option linter.unusedSimpArgs false
namespace LC
universe u
open Terms
namespace Any
variable {G : Type _} {S : Type u} [GenOps G] [LawfulGen G] [ScalarOps S] {a b : Expr G S}

theorem find?_addAssign (ha : a.terms.Sorted) (hb : b.terms.Sorted) (k : List G) :
    (addAssign a b).terms.find? k = match b.terms.find? k with
      | none => a.terms.find? k
      | some y => updOpt y (fun v => plus v y) (a.terms.find? k) := by
  rw [addAssign_eq]; exact find?_updAll _ _ hb ha k

theorem find?_subAssign (ha : a.terms.Sorted) (hb : b.terms.Sorted) (k : List G) :
    (subAssign a b).terms.find? k = match b.terms.find? k with
      | none => a.terms.find? k
      | some y => updOpt (ScalarOps.sub zero y) (fun v => minus v y) (a.terms.find? k) := by
  rw [subAssign_eq]; exact find?_updAll _ _ hb ha k

theorem sorted_addAssign (ha : a.terms.Sorted) : (addAssign a b).terms.Sorted := by
  rw [addAssign_eq]; exact sorted_updAll _ _ _ ha

theorem sorted_subAssign (ha : a.terms.Sorted) : (subAssign a b).terms.Sorted := by
  rw [subAssign_eq]; exact sorted_updAll _ _ _ ha

end Any

namespace Mixed
variable {G : Type _} {S S' R : Type u} [GenOps G] [LawfulGen G] [ScalarOps S] [ScalarOps S'] [ScalarOps R]
  {a : Expr G S} {b : Expr G S'}

theorem find?_add (o : BinOps S S' R) (ha : a.terms.Sorted) (hb : b.terms.Sorted) (k : List G) :
    (add o a b).terms.find? k = comb o.add Any.zero Any.zero (a.terms.find? k) (b.terms.find? k) := by
  simp only [add]; rw [merge_nil _ _ _ ha hb]; exact find?_mergeL _ _ _ _ _ ha hb k

theorem find?_sub (o : BinOps S S' R) (ha : a.terms.Sorted) (hb : b.terms.Sorted) (k : List G) :
    (sub o a b).terms.find? k = comb o.sub Any.zero Any.zero (a.terms.find? k) (b.terms.find? k) := by
  simp only [sub]; rw [merge_nil _ _ _ ha hb]; exact find?_mergeL _ _ _ _ _ ha hb k

theorem sorted_add (o : BinOps S S' R) (ha : a.terms.Sorted) (hb : b.terms.Sorted) : (add o a b).terms.Sorted := by
  simp only [add]; rw [merge_nil _ _ _ ha hb]; exact sorted_mergeL ha hb
theorem sorted_sub (o : BinOps S S' R) (ha : a.terms.Sorted) (hb : b.terms.Sorted) : (sub o a b).terms.Sorted := by
  simp only [sub]; rw [merge_nil _ _ _ ha hb]; exact sorted_mergeL ha hb

theorem sorted_convert (cv : S → R) (ha : a.terms.Sorted) : (convert cv a).terms.Sorted := by
  rw [convert_terms cv ha]; exact sorted_mapV cv ha
theorem find?_convert (cv : S → R) (ha : a.terms.Sorted) (k : List G) :
    (convert cv a).terms.find? k = (a.terms.find? k).map cv := by
  rw [convert_terms cv ha]; exact find?_mapV cv _ k

/-- Mixed addition is addition after conversion. -/
theorem add_eq_convert (o : BinOps S S' R) (c1 : S → R) (c2 : S' → R)
    (h : ∀ x y, o.add x y = ScalarOps.add (c1 x) (c2 y))
    (h2 : ∀ x, ScalarOps.add (c1 x) (c2 Any.zero) = c1 x) (h1 : ∀ y, ScalarOps.add (c1 Any.zero) (c2 y) = c2 y)
    (ha : a.terms.Sorted) (hb : b.terms.Sorted) :
    add o a b = Any.addAssign (convert c1 a) (convert c2 b) := by
  refine Expr.ext (ext_find? (sorted_add o ha hb) (Any.sorted_addAssign (sorted_convert c1 ha)) ?_)
  intro k
  rw [find?_add o ha hb, Any.find?_addAssign (sorted_convert c1 ha) (sorted_convert c2 hb), find?_convert c1 ha,
    find?_convert c2 hb]
  cases a.terms.find? k <;> cases b.terms.find? k <;> simp [comb, updOpt, Any.plus, h, h1, h2]

/-- Mixed subtraction is subtraction after conversion. -/
theorem sub_eq_convert (o : BinOps S S' R) (c1 : S → R) (c2 : S' → R)
    (h : ∀ x y, o.sub x y = ScalarOps.sub (c1 x) (c2 y))
    (h2 : ∀ x, ScalarOps.sub (c1 x) (c2 Any.zero) = c1 x) (h1 : c1 Any.zero = Any.zero)
    (ha : a.terms.Sorted) (hb : b.terms.Sorted) :
    sub o a b = Any.subAssign (convert c1 a) (convert c2 b) := by
  refine Expr.ext (ext_find? (sorted_sub o ha hb) (Any.sorted_subAssign (sorted_convert c1 ha)) ?_)
  intro k
  rw [find?_sub o ha hb, Any.find?_subAssign (sorted_convert c1 ha) (sorted_convert c2 hb), find?_convert c1 ha,
    find?_convert c2 hb]
  cases a.terms.find? k <;> cases b.terms.find? k <;> simp [comb, updOpt, Any.minus, h, h1, h2]

theorem addAssign_eq_convert (o : AsgOps S S') (h : ∀ x y, o.addAsg x y = ScalarOps.add x (o.conv y))
    (hb : b.terms.Sorted) (a : Expr G S) : addAssign o a b = Any.addAssign a (convert o.conv b) := by
  rw [convert_terms _ hb, addAssign_eq, Any.addAssign_eq]
  simp only [updAll, List.foldl_map, h, keep, Any.plus, id]

theorem subAssign_eq_convert (o : AsgOps S S') (h : ∀ x y, o.subAsg x y = ScalarOps.sub x (o.conv y))
    (h' : ∀ x y, o.sub x y = ScalarOps.sub x (o.conv y))
    (hb : b.terms.Sorted) (a : Expr G S) : subAssign o a b = Any.subAssign a (convert o.conv b) := by
  rw [convert_terms _ hb, subAssign_eq, Any.subAssign_eq]
  simp only [updAll, List.foldl_map, h, h', keep, Any.minus]

theorem mulAssign_eq_convert (o : AsgOps S S') (h : ∀ x y, o.mul x y = ScalarOps.mul x (o.conv y))
    (hb : b.terms.Sorted) (a : Expr G S) : mulAssign o a b = Any.mulAssign a (convert o.conv b) := by
  rw [convert_terms _ hb]
  simp only [mulAssign, Any.mulAssign, List.foldl_map, h]

theorem smulPostfix_eq_convert (o : BinOps S S' R) (c1 : S → R) (c2 : S' → R)
    (h : ∀ x y, o.mul x y = ScalarOps.mul (c1 x) (c2 y)) (x : S') (hz : ScalarOps.isZero (c2 x) = ScalarOps.isZero x)
    (ha : a.terms.Sorted) : smulPostfix o a x = Any.smulPostfix (convert c1 a) (c2 x) := by
  simp only [smulPostfix, Any.smulPostfix, hz]
  split
  · rfl
  · rw [convert_terms c1 ha]
    show convert (fun v => o.mul v x) a = _
    rw [convert_terms _ ha]
    simp [h, Function.comp_def]

theorem smulPrefix_eq_convert (o : BinOps S' S R) (c1 : S → R) (c2 : S' → R)
    (h : ∀ x y, o.mul x y = ScalarOps.mul (c2 x) (c1 y)) (x : S') (hz : ScalarOps.isZero (c2 x) = ScalarOps.isZero x)
    (ha : a.terms.Sorted) : smulPrefix o x a = Any.smulPrefix (c2 x) (convert c1 a) := by
  simp only [smulPrefix, Any.smulPrefix, hz]
  split
  · rfl
  · rw [convert_terms c1 ha]
    show convert (fun v => o.mul x v) a = _
    rw [convert_terms _ ha]
    simp [h, Function.comp_def]

theorem addScalar_eq_convert (c1 : S → R) (o : AsgOps R S') (h : ∀ x y, o.addAsg x y = ScalarOps.add x (o.conv y))
    (x : S') (hz : ScalarOps.isZero (o.conv x) = ScalarOps.isZero x) (a : Expr G S) :
    addScalar c1 o a x = Any.addScalar (convert c1 a) (o.conv x) := by
  rw [addScalar_eq, Any.addScalar_upd, hz]
  simp only [h, keep, Any.plus]

theorem subScalar_eq_convert (c1 : S → R) (o : AsgOps R S') (zs : S' → R)
    (h : ∀ x y, o.subAsg x y = ScalarOps.sub x (o.conv y)) (h' : ∀ y, zs y = ScalarOps.sub Any.zero (o.conv y))
    (x : S') (hz : ScalarOps.isZero (o.conv x) = ScalarOps.isZero x) (a : Expr G S) :
    subScalar c1 o zs a x = Any.subScalar (convert c1 a) (o.conv x) := by
  rw [subScalar_eq, Any.subScalar_upd, hz]
  simp only [h, h', keep, Any.minus]

theorem scalarSub_eq_convert (o : BinOps S' S R) (c1 : S → R) (oa : AsgOps R S')
    (h : ∀ x, o.sub Any.zero x = ScalarOps.sub Any.zero (c1 x)) (h' : ∀ x y, oa.addAsg x y = ScalarOps.add x (oa.conv y))
    (x : S') (hz : ScalarOps.isZero (oa.conv x) = ScalarOps.isZero x) (ha : a.terms.Sorted) :
    scalarSub o oa x a = Any.scalarSub (oa.conv x) (convert c1 a) := by
  have e : convert (o.sub Any.zero) a
      = ⟨(convert c1 a).terms.foldl (fun t p => t.emplace p.1 (ScalarOps.sub Any.zero p.2)) []⟩ := by
    rw [foldl_emplace_all (fun p => ScalarOps.sub Any.zero p.2) (sorted_convert c1 ha), convert_terms _ ha,
      convert_terms _ ha]
    simp [h, Function.comp_def]
  rw [scalarSub_eq, Any.scalarSub_upd, hz, e]
  simp only [h', keep, Any.plus]

end Mixed
end LC
