import Verif.Proof.AnyCanonical
/-
Maps and expressions over an arbitrary scalar type: order of the keys, lookup in the results of the operations.
-/
set_option linter.unusedSectionVars false
set_option linter.unusedSimpArgs false
namespace LC
namespace Terms
variable {G S S' : Type _} [GenOps G] [LawfulGen G]

/-- `find`, then `emplace` on absence, or replace/erase on presence. -/
def upd (k : List G) (n : S) (u : S → Option S) (t : Terms G S) : Terms G S :=
  match t.find? k with
  | none => t.emplace k n
  | some v => match u v with
    | none => t.erase k
    | some w => t.assign k w

theorem sorted_upd {t : Terms G S} (hs : t.Sorted) (k : List G) (n : S) (u : S → Option S) : (t.upd k n u).Sorted := by
  simp only [upd]
  split
  · exact sorted_emplace hs
  · split
    · exact sorted_erase hs
    · exact sorted_assign hs

theorem mem_upd {t : Terms G S} {k : List G} {n : S} {u : S → Option S} {p} (h : p ∈ t.upd k n u) : p.1 = k ∨ p ∈ t := by
  simp only [upd] at h
  split at h
  · rcases mem_emplace h with h | h
    · left; rw [h]
    · exact Or.inr h
  · split at h
    · exact Or.inr (mem_erase h)
    · rcases mem_assign h with h | h
      · left; rw [h]
      · exact Or.inr h

/-- Effect of `upd` on a lookup result. -/
def updOpt (n : S) (u : S → Option S) : Option S → Option S
  | none => some n
  | some v => u v

open Classical in
theorem find?_upd {t : Terms G S} (hs : t.Sorted) (k l : List G) (n : S) (u : S → Option S) :
    (t.upd k n u).find? l = if l = k then updOpt n u (t.find? k) else t.find? l := by
  simp only [upd]
  by_cases e : l = k
  · subst e
    rw [if_pos rfl]
    cases h : t.find? l with
    | none => simp [find?_emplace_self h, updOpt]
    | some v =>
      simp only [updOpt]
      cases hu : u v with
      | none => simp [find?_erase_self hs]
      | some w => simp [find?_assign_self h]
  · rw [if_neg e]
    cases h : t.find? k with
    | none => simp [find?_emplace_ne hs e]
    | some v =>
      simp only
      cases hu : u v with
      | none => simp [find?_erase_ne hs e]
      | some w => simp [find?_assign_ne e]

/-- A run of updates, one for each entry of `b`. -/
def updAll (n : S' → S) (u : S → S' → Option S) (b : Terms G S') (t : Terms G S) : Terms G S :=
  b.foldl (fun t p => t.upd p.1 (n p.2) (fun v => u v p.2)) t

theorem sorted_updAll (n : S' → S) (u : S → S' → Option S) (b : Terms G S') {t : Terms G S} (hs : t.Sorted) :
    (updAll n u b t).Sorted := by
  induction b generalizing t with
  | nil => exact hs
  | cons p b ih => exact ih (sorted_upd hs _ _ _)

theorem mem_updAll {n : S' → S} {u : S → S' → Option S} {b : Terms G S'} {t : Terms G S} {p}
    (h : p ∈ updAll n u b t) : p ∈ t ∨ ∃ q ∈ b, q.1 = p.1 := by
  induction b generalizing t with
  | nil => exact Or.inl h
  | cons q b ih =>
    rcases ih h with h | ⟨r, hr, e⟩
    · rcases mem_upd h with h | h
      · exact Or.inr ⟨q, by simp, h.symm⟩
      · exact Or.inl h
    · exact Or.inr ⟨r, by simp [hr], e⟩

theorem find?_none_of_not_mem {t : Terms G S} {k : List G} (h : ∀ p ∈ t, p.1 ≠ k) : t.find? k = none := by
  cases hf : t.find? k with
  | none => rfl
  | some v => exact absurd rfl (h _ (find?_mem hf))

open Classical in
theorem find?_cons {p : List G × S} {t : Terms G S} (hs : Sorted (p :: t)) (k : List G) :
    find? k (p :: t) = if k = p.1 then some p.2 else t.find? k := by
  split
  · rename_i h; subst h
    exact find?_of_mem hs (by simp)
  · rename_i h
    cases hf : t.find? k with
    | some v => exact find?_of_mem hs (by simp [find?_mem hf])
    | none =>
      refine find?_none_of_not_mem ?_
      intro q hq e
      rcases List.mem_cons.1 hq with h' | h'
      · subst h'; exact h e.symm
      · subst e
        have := find?_of_mem (List.Pairwise.of_cons hs) (k := q.1) (v := q.2) h'
        rw [hf] at this; cases this

theorem find?_updAll (n : S' → S) (u : S → S' → Option S) {b : Terms G S'} (hb : b.Sorted) {t : Terms G S}
    (ht : t.Sorted) (k : List G) :
    (updAll n u b t).find? k = match b.find? k with
      | none => t.find? k
      | some y => updOpt (n y) (fun v => u v y) (t.find? k) := by
  classical
  induction b generalizing t with
  | nil => rfl
  | cons p b ih =>
    have hb' : Terms.Sorted b := List.Pairwise.of_cons hb
    show (updAll n u b (t.upd p.1 (n p.2) (fun v => u v p.2))).find? k = _
    rw [ih hb' (sorted_upd ht _ _ _), find?_cons hb, find?_upd ht]
    by_cases e : k = p.1
    · subst e
      have hn : Terms.find? p.1 b = none := by
        refine find?_none_of_not_mem ?_
        intro q hq e
        have h1 := (List.pairwise_cons.1 hb).1 q hq
        rw [e] at h1
        exact absurd h1 (by rw [monLt_irrefl]; decide)
      rw [hn]; simp
    · simp only [if_neg e]

/-- Sorted maps are determined by their lookup function. -/
theorem ext_find? {t u : Terms G S} (ht : t.Sorted) (hu : u.Sorted) (h : ∀ k, t.find? k = u.find? k) : t = u := by
  refine eq_of_mem_iff ht hu ?_
  intro p
  rw [show p = (p.1, p.2) from rfl, ← find?_iff ht, ← find?_iff hu, h]

theorem find?_mapV (f : S → S') (t : Terms G S) (k : List G) :
    find? k (t.map fun p => (p.1, f p.2)) = (t.find? k).map f := by
  induction t with
  | nil => rfl
  | cons p t ih =>
    simp only [List.map_cons, find?]
    split
    · exact ih
    · split <;> rfl

theorem sorted_mapV (f : S → S') {t : Terms G S} (h : t.Sorted) : Sorted (t.map fun p => (p.1, f p.2)) := by
  simp only [Terms.Sorted, List.pairwise_map]; exact h

/-- Emplacing an increasing sequence (with some elements skipped) into an empty map. -/
theorem foldl_emplace_filter (f : List G × S → S') (P : List G × S → Bool)
    (t : Terms G S) (ht : t.Sorted) (res : Terms G S') (hr : ∀ p ∈ res, ∀ q ∈ t, monLt p.1 q.1 = true) :
    t.foldl (fun (r : Terms G S') p => if P p then r else r.emplace p.1 (f p)) res
      = res ++ t.filterMap fun p => if P p then none else some (p.1, f p) := by
  induction t generalizing res with
  | nil => simp
  | cons p t ih =>
    simp only [Terms.Sorted, List.pairwise_cons] at ht
    rw [List.foldl_cons, List.filterMap_cons]
    by_cases h : P p = true
    · simp only [h, if_true]
      exact ih ht.2 res fun q hq r hr' => hr q hq r (by simp [hr'])
    · simp only [h]
      have : ∀ (t : Terms G S') (k : List G) (v : S'), (∀ p ∈ t, monLt p.1 k = true) →
          t.emplace k v = t ++ [(k, v)] := by
        intro t k v h
        induction t with
        | nil => rfl
        | cons p t ih =>
          have h1 := h p (by simp)
          simp only [emplace, h1, if_true, List.cons_append]
          rw [ih fun q hq => h q (by simp [hq])]
      simp only [Bool.false_eq_true, if_false]
      rw [this res p.1 (f p) fun q hq => hr q hq p (by simp), ih ht.2]
      · simp
      · intro q hq r hr'
        rcases List.mem_append.1 hq with h | h
        · exact hr q h r (by simp [hr'])
        · simp at h; subst h; exact ht.1 r hr'

theorem foldl_emplace_all (f : List G × S → S') {t : Terms G S} (ht : t.Sorted) :
    t.foldl (fun (r : Terms G S') p => r.emplace p.1 (f p)) [] = t.map fun p => (p.1, f p) := by
  have := foldl_emplace_filter f (fun _ => false) t ht [] (by simp)
  simpa using this

theorem sorted_emplaceFold (f : List G × S → S') (P : List G × S → Bool) (t : List (List G × S)) {res : Terms G S'}
    (hr : res.Sorted) : Sorted (t.foldl (fun (r : Terms G S') p => if P p then r else r.emplace p.1 (f p)) res) := by
  induction t generalizing res with
  | nil => exact hr
  | cons p t ih =>
    rw [List.foldl_cons]
    refine ih ?_
    split
    · exact hr
    · exact sorted_emplace hr

theorem mem_emplaceFold {f : List G × S → S'} {P : List G × S → Bool} {t : List (List G × S)} {res : Terms G S'} {q}
    (h : q ∈ t.foldl (fun (r : Terms G S') p => if P p then r else r.emplace p.1 (f p)) res) :
    q ∈ res ∨ ∃ p ∈ t, p.1 = q.1 := by
  induction t generalizing res with
  | nil => exact Or.inl h
  | cons p t ih =>
    rw [List.foldl_cons] at h
    rcases ih h with h | ⟨r, hr, e⟩
    · split at h
      · exact Or.inl h
      · rcases mem_emplace h with h | h
        · exact Or.inr ⟨p, by simp, by rw [h]⟩
        · exact Or.inl h
    · exact Or.inr ⟨r, by simp [hr], e⟩

end Terms

namespace Any
open Terms
universe u
variable {G : Type _} {S : Type u} [GenOps G] [LawfulGen G] [ScalarOps S]

/-- The value kept after adding (none: erased). -/
def plus (v c : S) : Option S := if ScalarOps.isZero (ScalarOps.add v c) then none else some (ScalarOps.add v c)
/-- The value kept after subtracting (none: erased). -/
def minus (v c : S) : Option S := if ScalarOps.isZero (ScalarOps.sub v c) then none else some (ScalarOps.sub v c)

theorem upd_plus (t : Terms G S) (k : List G) (n c : S) :
    (match t.find? k with
      | none => t.emplace k n
      | some v => if ScalarOps.isZero (ScalarOps.add v c) then t.erase k else t.assign k (ScalarOps.add v c))
      = t.upd k n (fun v => plus v c) := by
  simp only [upd, plus]
  cases t.find? k with
  | none => rfl
  | some v =>
    simp only
    by_cases h : ScalarOps.isZero (ScalarOps.add v c) = true
    · rw [if_pos h, if_pos h]
    · rw [if_neg h, if_neg h]

theorem upd_minus (t : Terms G S) (k : List G) (n c : S) :
    (match t.find? k with
      | none => t.emplace k n
      | some v => if ScalarOps.isZero (ScalarOps.sub v c) then t.erase k else t.assign k (ScalarOps.sub v c))
      = t.upd k n (fun v => minus v c) := by
  simp only [upd, minus]
  cases t.find? k with
  | none => rfl
  | some v =>
    simp only
    by_cases h : ScalarOps.isZero (ScalarOps.sub v c) = true
    · rw [if_pos h, if_pos h]
    · rw [if_neg h, if_neg h]

theorem store_upd (k : List G) (c : S) (t : Terms G S) : store k c t = t.upd k c (fun v => plus v c) := upd_plus t k c c

theorem storeAll_updAll (l : List (List G × S)) (t : Terms G S) : storeAll l t = updAll id plus l t := by
  simp only [storeAll, updAll, store_upd]; rfl

theorem addAssign_eq (a b : Expr G S) : addAssign a b = ⟨updAll id plus b.terms a.terms⟩ := by
  simp only [addAssign, updAll]; congr 2; funext t p; exact upd_plus t p.1 p.2 p.2

theorem subAssign_eq (a b : Expr G S) : subAssign a b = ⟨updAll (fun c => ScalarOps.sub zero c) minus b.terms a.terms⟩ := by
  simp only [subAssign, updAll]; congr 2; funext t p; exact upd_minus t p.1 _ p.2

/-- All pairs stored while multiplying. -/
def mulLog (a b : Terms G S) : List (List G × S) :=
  a.flatMap fun p => b.flatMap fun q => emits (p.1 ++ q.1) (ScalarOps.mul p.2 q.2)

theorem mulAssign_eq (a b : Expr G S) : mulAssign a b = ⟨storeAll (mulLog a.terms b.terms) []⟩ := by
  simp only [mulAssign, mulLog, storeAll, List.foldl_flatMap, normalize_store]

theorem addScalar_upd (a : Expr G S) (x : S) :
    addScalar a x = if ScalarOps.isZero x then a else ⟨a.terms.upd [] x (fun v => plus v x)⟩ := by
  simp only [addScalar]; split
  · rfl
  · exact congrArg Expr.mk (upd_plus ..)
theorem addAssignScalar_upd (a : Expr G S) (x : S) : addAssignScalar a x =
    if ScalarOps.isZero x then a else ⟨a.terms.upd [] (ScalarOps.add zero x) (fun v => plus v x)⟩ := by
  simp only [addAssignScalar]; split
  · rfl
  · exact congrArg Expr.mk (upd_plus ..)
theorem subScalar_upd (a : Expr G S) (x : S) : subScalar a x =
    if ScalarOps.isZero x then a else ⟨a.terms.upd [] (ScalarOps.sub zero x) (fun v => minus v x)⟩ := by
  simp only [subScalar]; split
  · rfl
  · exact congrArg Expr.mk (upd_minus ..)
theorem scalarSub_upd (x : S) {a : Expr G S} : scalarSub x a =
    if ScalarOps.isZero x then ⟨a.terms.foldl (fun t p => t.emplace p.1 (ScalarOps.sub zero p.2)) []⟩
      else ⟨Terms.upd [] x (fun v => plus v x) (a.terms.foldl (fun t p => t.emplace p.1 (ScalarOps.sub zero p.2)) [])⟩ := by
  simp only [scalarSub]; split
  · rfl
  · exact congrArg Expr.mk (upd_plus ..)

/-- Keys strictly increasing and all monomials satisfy `Q`. -/
structure Good (Q : List G → Prop) (e : Expr G S) : Prop where
  sorted : e.terms.Sorted
  canon : ∀ p ∈ e.terms, Q p.1

/-- A predicate on monomials that normalisation of products of generators satisfying `P` establishes. -/
structure MonInv (P : G → Prop) (Q : List G → Prop) : Prop where
  nil : Q []
  mem : ∀ m, Q m → ∀ g ∈ m, P g
  emits : ∀ {S : Type u} [ScalarOps S] (m : List G), (∀ g ∈ m, P g) → ∀ c : S, ∀ p ∈ emits m c, Q p.1

theorem monInv_canon {P : G → Prop} (hN : NFGen P) : MonInv.{u} P (CanonMon P) :=
  ⟨⟨by simp, by simp, by simp⟩, fun _ h => h.mem, fun m hm c => emits_canon hN m hm c⟩

theorem monInv_true : MonInv.{u} (fun _ : G => True) (fun _ => True) :=
  ⟨trivial, fun _ _ _ _ => trivial, fun _ _ _ _ _ => trivial⟩

variable {P : G → Prop} {Q : List G → Prop}

theorem good_upd {e : Expr G S} (h : Good Q e) {k : List G} (hk : Q k) (n : S) (u : S → Option S) :
    Good Q (⟨e.terms.upd k n u⟩ : Expr G S) :=
  ⟨sorted_upd h.sorted _ _ _, fun p hp => by
    rcases mem_upd hp with h' | h'
    · rw [h']; exact hk
    · exact h.canon p h'⟩

theorem good_updAll {S' : Type _} {e : Expr G S} (h : Good Q e) (n : S' → S) (u : S → S' → Option S) {b : Terms G S'}
    (hb : ∀ p ∈ b, Q p.1) : Good Q (⟨updAll n u b e.terms⟩ : Expr G S) :=
  ⟨sorted_updAll _ _ _ h.sorted, fun p hp => by
    rcases mem_updAll hp with h' | ⟨q, hq, e⟩
    · exact h.canon p h'
    · rw [← e]; exact hb q hq⟩

theorem good_zero : Good Q (⟨[]⟩ : Expr G S) := ⟨List.Pairwise.nil, by simp⟩

theorem good_const (h0 : Q []) (x : S) : Good Q (const x : Expr G S) := by
  simp only [const]
  split
  · exact good_zero
  · exact ⟨by simp [Terms.Sorted], by intro p hp; simp at hp; subst hp; exact h0⟩

theorem good_storeAll {e : Expr G S} (h : Good Q e) {l : List (List G × S)} (hl : ∀ p ∈ l, Q p.1) :
    Good Q (⟨storeAll l e.terms⟩ : Expr G S) := by
  rw [storeAll_updAll]; exact good_updAll h _ _ hl

theorem good_ofMonomial (hN : MonInv.{u} P Q) (x : S) (m : List G) (hm : ∀ g ∈ m, P g) : Good Q (ofMonomial x m) := by
  simp only [ofMonomial]
  split
  · exact good_zero
  · rw [normalize_store]
    exact good_storeAll good_zero (hN.emits m hm x)

theorem good_add {a b : Expr G S} (ha : Good Q a) (hb : Good Q b) : Good Q (addAssign a b) := by
  rw [addAssign_eq]; exact good_updAll ha _ _ hb.canon

theorem good_sub {a b : Expr G S} (ha : Good Q a) (hb : Good Q b) : Good Q (subAssign a b) := by
  rw [subAssign_eq]; exact good_updAll ha _ _ hb.canon

theorem good_mul (hN : MonInv.{u} P Q) {a b : Expr G S} (ha : Good Q a) (hb : Good Q b) : Good Q (mulAssign a b) := by
  rw [mulAssign_eq]
  refine good_storeAll good_zero ?_
  intro p hp
  simp only [mulLog, List.mem_flatMap] at hp
  obtain ⟨q, hq, r, hr, hp⟩ := hp
  refine hN.emits _ ?_ _ p hp
  intro g hg
  rcases List.mem_append.1 hg with h | h
  · exact hN.mem _ (ha.canon q hq) g h
  · exact hN.mem _ (hb.canon r hr) g h

theorem good_map {a : Expr G S} {S' : Type _} (ha : Good Q a) (f : S → S') :
    Terms.Sorted (a.terms.map fun p => (p.1, f p.2)) ∧ ∀ p ∈ a.terms.map fun p => (p.1, f p.2), Q p.1 :=
  ⟨sorted_mapV f ha.sorted, by
    intro p hp
    simp only [List.mem_map] at hp
    obtain ⟨q, hq, rfl⟩ := hp
    exact ha.canon q hq⟩

theorem good_emplaceFold {S' : Type _} [ScalarOps S'] (f : List G × S → S') (K : List G × S → Bool) {a : Expr G S}
    (ha : Good Q a) :
    Good Q (⟨a.terms.foldl (fun (r : Terms G S') p => if K p then r else r.emplace p.1 (f p)) []⟩ : Expr G S') :=
  ⟨sorted_emplaceFold f K _ List.Pairwise.nil, by
    intro p hp
    rcases mem_emplaceFold hp with h | ⟨q, hq, e⟩
    · simp at h
    · rw [← e]; exact ha.canon q hq⟩

theorem good_ofLinFun (hN : MonInv.{u} P Q) {f : LinFun G} (hf : ∀ p ∈ f.terms, P p.1) : Good Q (ofLinFun f : Expr G S) := by
  refine foldl_inv (I := fun e : Expr G S => Good Q e) _ _ ?_ _ ?_
  · intro p hp e he
    simp only
    split
    · exact he
    · refine good_add he (good_ofMonomial hN _ _ ?_)
      intro g hg
      simp at hg; subst hg; exact hf p hp
  · split
    · exact good_zero
    · exact ⟨by simp [Terms.Sorted], by intro p hp; simp at hp; subst hp; exact hN.nil⟩

theorem good_conj (hN : MonInv.{u} P Q) (hC : ∀ g : G, P g → ∀ p ∈ (GenOps.conj g).terms, P p.1) {a : Expr G S}
    (ha : Good Q a) : Good Q (conj a) := by
  have : ∀ (l : List (List G × S)) (s : Expr G S × Expr G S), (∀ p ∈ l, ∀ g ∈ p.1, P g) → Good Q s.1 → Good Q s.2 →
      Good Q (l.foldl (fun (s : Expr G S × Expr G S) m =>
      let co := ScalarOps.conj m.2
      let contrib :=
        if ScalarOps.isZero co then s.2
        else m.1.reverse.foldl (fun e g => mulAssign e (ofLinFun (GenOps.conj g))) (const co)
      (addAssign s.1 contrib, contrib)) s).1 := by
    intro l
    induction l with
    | nil => intro s _ h _; exact h
    | cons p l ih =>
      intro s hl h1 h2
      rw [List.foldl_cons]
      have hc : Good Q (if ScalarOps.isZero (ScalarOps.conj p.2) then s.2
        else p.1.reverse.foldl (fun e g => mulAssign e (ofLinFun (GenOps.conj g))) (const (ScalarOps.conj p.2))) := by
        split
        · exact h2
        · refine foldl_inv (I := fun e : Expr G S => Good Q e) _ _ ?_ _ (good_const hN.nil _)
          intro g hg e he
          exact good_mul hN he (good_ofLinFun hN (hC g (hl p (by simp) g (by simpa using hg))))
      exact ih _ (fun q hq => hl q (by simp [hq])) (good_add h1 hc) hc
  exact this _ _ (fun p hp => hN.mem _ (ha.canon p hp)) good_zero good_zero

theorem good_reachable (hN : MonInv.{u} P Q) (hC : ∀ g : G, P g → ∀ p ∈ (GenOps.conj g).terms, P p.1) {e : Expr G S}
    (h : Reachable P e) : Good Q e := by
  induction h with
  | zero => exact good_zero
  | const x => exact good_const hN.nil x
  | ofMonomial x m hm => exact good_ofMonomial hN x m hm
  | add _ _ ha hb => exact good_add ha hb
  | sub _ _ ha hb => exact good_sub ha hb
  | mul _ _ ha hb => exact good_mul hN ha hb
  | neg _ ha => exact ⟨(good_map ha _).1, (good_map ha _).2⟩
  | smulPrefix x _ ha =>
    simp only [smulPrefix]; split
    · exact good_zero
    · exact ⟨(good_map ha _).1, (good_map ha _).2⟩
  | smulPostfix x _ ha =>
    simp only [smulPostfix]; split
    · exact good_zero
    · exact ⟨(good_map ha (fun v => ScalarOps.mul v x)).1, (good_map ha (fun v => ScalarOps.mul v x)).2⟩
  | addScalar x _ ha =>
    rw [addScalar_upd]; split
    · exact ha
    · exact good_upd ha hN.nil _ _
  | addAssignScalar x _ ha =>
    rw [addAssignScalar_upd]; split
    · exact ha
    · exact good_upd ha hN.nil _ _
  | subScalar x _ ha =>
    rw [subScalar_upd]; split
    · exact ha
    · exact good_upd ha hN.nil _ _
  | scalarSub x _ ha =>
    have h0 := good_emplaceFold (S' := S) (fun p => ScalarOps.sub zero p.2) (fun _ => false) ha
    simp only [Bool.false_eq_true, if_false] at h0
    rw [scalarSub_upd]; split
    · exact h0
    · exact good_upd h0 hN.nil _ _
  | transform f _ ha =>
    exact good_emplaceFold (fun p => f p.1 p.2) (fun p => ScalarOps.isZero (f p.1 p.2)) ha
  | conj _ ha => exact good_conj hN hC ha

end Any
end LC
