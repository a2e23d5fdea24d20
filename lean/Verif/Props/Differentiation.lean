import Verif.Lemmas.Unique
import Verif.Props.JacMap
import Verif.Props.Evaluation

/-!
# C17-C22, C27, C35, C42: automatic differentiation computes the sum over occurrences
-/

namespace WG
open Matrix Spec

variable {L : Lib}

/-- A leaf object of the library's signature. -/
abbrev gleaf (ε : ℝ) (a c : ℕ) (τ : Ty) : Expr (geoLib ε) τ := Expr.leaf (L := geoLib ε) a c τ

/-! ## C42 -/

/-- **C42.** The unique-leaf-types trait of a tree without dynamic nodes is true exactly when no leaf
type occurs twice, and the list it carries is then the leaf types in reading order. -/
theorem c42_unique {τ : L.Ty} (e : Expr L τ) (hp : e.noProxy) :
    (e.uniqueLeaves = true ↔ (types e).Nodup) ∧
      ((types e).Nodup → e.uniqueList = some (types e)) := by
  refine ⟨by simp [uniqueLeaves_iff, hp], fun h => ?_⟩
  rw [uniqueList_eq, if_pos ⟨hp, h⟩]

/-- **C42.** A tree with a dynamic node anywhere is never treated as having unique leaf types. -/
theorem c42_dynamic {τ : L.Ty} (e : Expr L τ) (hp : ¬ e.noProxy) : e.uniqueLeaves = false := by
  by_contra h
  exact hp ((uniqueLeaves_iff e).1 (by simpa using h)).1

theorem concatMany_some {T : Type} [DecidableEq T] : ∀ (us : List (List T)) (a : List T), a.Nodup →
    (∀ u ∈ us, u.Nodup) → concatMany (some a) (us.map some) =
      some (if (a ++ us.flatten).Nodup then some (a ++ us.flatten) else none)
  | [], a, ha, _ => by simp [concatMany, ha]
  | [u], a, ha, _ => by
    simp only [List.map_cons, List.map_nil, concatMany, List.flatten_cons, List.flatten_nil,
      List.append_nil]
    rw [concatIfUnique_eq u a ha]
  | u :: v :: us, a, ha, h => by
    simp only [List.map_cons, concatMany]
    rw [concatIfUnique_eq u a ha]
    by_cases hu : (a ++ u).Nodup
    · have := concatMany_some (v :: us) (a ++ u) hu (fun w hw => h w (by simp [List.mem_cons.1 hw]))
      simp only [List.map_cons] at this
      rw [if_pos hu]
      simp only [this, List.flatten_cons, List.append_assoc]
    · rw [if_neg hu, if_neg]
      intro h'
      apply hu
      rw [List.flatten_cons, ← List.append_assoc] at h'
      exact (List.nodup_append.1 h').1

/-- **C42 (n-ary expressions).** For a compound of any number of elements each with unique leaf
types, the trait is decided exactly and lists the leaf types in reading order. -/
theorem c42_nary {T : Type} [DecidableEq T] (u : List T) (us : List (List T)) (hu : u.Nodup)
    (h : ∀ v ∈ us, v.Nodup) :
    concatMany (some u) (us.map some) =
      some (if (u :: us).flatten.Nodup then some (u :: us).flatten else none) := by
  rw [concatMany_some us u hu h]; rfl

/-- **C42 (n-ary expressions), limit.** A compound of three or more elements one of whose first two
elements has repeated leaf types is rejected by the compiler instead of having a false trait. -/
theorem c42_nary_rejected {T : Type} [DecidableEq T] (u v w : Option (List T))
    (us : List (Option (List T))) (h : u = none ∨ v = none) :
    concatMany u (v :: w :: us) = none := by
  rcases h with rfl | rfl
  · rcases v with _ | v <;> rfl
  · rcases u with _ | u <;> rfl

/-! ## C20 -/

/-- **C20.** The Jacobian of any tree without dynamic nodes with respect to any object is the sum,
over all occurrences of that object, of the product of local derivatives along the path. -/
theorem c20_sum_over_occurrences (s : Store L) (t : Target L) {τ : L.Ty} (e : Expr L τ)
    (hp : e.noProxy) : e.jacobian s t = total (occurrences s t e) := by
  show orZero ((ETree.mk s e).fwd t) = _
  rw [fwd_eq s t e hp, orZero_blockOf]

/-- **C20.** The same with dynamic nodes in the tree, when the evaluator accepts the tree and the
object's address identifies it. -/
theorem c20_sum_with_dynamic_nodes (s : Store L) (t : Target L) {τ : L.Ty} (e : Expr L τ)
    (hc : e.fwdCompiles t) (hd : Distinguished t e) :
    e.jacobian s t = total (occurrences s t e) := by
  show orZero ((ETree.mk s e).fwd t) = _
  rw [fwd_eq_compiles s t e hc hd, orZero_blockOf]

/-- **C20.** What `jacobian(x)` returns (whichever evaluator is chosen) for an object that occurs. -/
theorem c20_auto (s : Store L) (t : Target L) {τ : L.Ty} (e : Expr L τ) (ht : t ∈ objects e)
    (hc : e.noProxy ∨ e.fwdCompiles t ∧ Distinguished t e) :
    e.jacobianAuto s t = total (occurrences s t e) := by
  unfold Expr.jacobianAuto
  split_ifs with hu
  · obtain ⟨h1, h2⟩ := (uniqueLeaves_iff e).1 hu
    unfold Expr.typedJacobian
    rw [if_pos ((hasType_iff t e h1).2 (mem_types ht)), typed_eq s t e h1 h2 ht]
  · rcases hc with hp | ⟨hc, hd⟩
    · exact c20_sum_over_occurrences s t e hp
    · exact c20_sum_with_dynamic_nodes s t e hc hd

/-! ## C18 -/

/-- **C18.** For a tree with unique leaf types and a target in it, the type-based shortcut, the
address-based evaluator and the automatic choice all agree. -/
theorem c18_typed_eq_address (s : Store L) (t : Target L) {τ : L.Ty} (e : Expr L τ)
    (hu : e.uniqueLeaves) (ht : t ∈ objects e) :
    e.typedJacobian s t = e.jacobian s t ∧ e.jacobianAuto s t = e.jacobian s t := by
  have hp := ((uniqueLeaves_iff e).1 hu).1
  have h1 := c20_auto s t e ht (.inl hp)
  have h2 := c20_sum_over_occurrences s t e hp
  refine ⟨?_, h1.trans h2.symm⟩
  rw [Expr.jacobianAuto, if_pos hu] at h1
  exact h1.trans h2.symm

/-! ## C17 -/

/-- **C17.** `evalWithJacobians()` on a tree with pairwise distinct leaf types returns the value,
then exactly one Jacobian per leaf in reading order, each equal to the forward Jacobian (and to what
`jacobian(leaf)` returns) with respect to that leaf. -/
theorem c17_reverse_eq_forward (s : Store L) {τ : L.Ty} (e : Expr L τ) (hu : e.uniqueLeaves) :
    e.reverse s = (e.eval s, (objects e).map fun t => ⟨t.ty, e.jacobian s t⟩) ∧
      (e.reverse s).2 = (objects e).map fun t => ⟨t.ty, e.jacobianAuto s t⟩ := by
  obtain ⟨hp, hn⟩ := (uniqueLeaves_iff e).1 hu
  have ho : (objects e).Nodup := List.Nodup.of_map _ hn
  have key : e.reverse s = (e.eval s, (objects e).map fun t => ⟨t.ty, e.jacobian s t⟩) := by
    refine Prod.ext rfl ?_
    show (ETree.mk s e).rev (idBlock rfl) = _
    rw [rev_eq s e ho]
    refine List.map_congr_left fun t _ => ?_
    rw [c20_sum_over_occurrences s t e hp]
    congr 1
    rcases total (occurrences s t e) with _ | A
    · rfl
    · exact congrArg some (Matrix.one_mul A)
  refine ⟨key, ?_⟩
  rw [key]
  exact List.map_congr_left fun t ht => by rw [(c18_typed_eq_address s t e hu ht).2]

/-! ## C19 -/

/-- **C19 (address-based evaluation).** The forward Jacobian with respect to an object that does not
occur is zero, even when another object of the same type occurs. -/
theorem c19_absent_forward (s : Store L) (t : Target L) {τ : L.Ty} (e : Expr L τ)
    (ht : t ∉ objects e) (hc : e.noProxy ∨ e.fwdCompiles t ∧ Distinguished t e) :
    e.jacobian s t = 0 := by
  have : e.jacobian s t = total (occurrences s t e) := by
    rcases hc with hp | ⟨hc, hd⟩
    · exact c20_sum_over_occurrences s t e hp
    · exact c20_sum_with_dynamic_nodes s t e hc hd
  rw [this, occ_nil ht]; rfl

/-- **C19 (partial).** `jacobian(x)` is zero when the object does not occur, *provided* the tree does
not have unique leaf types including that of `x`.  Missing: the excluded case, in which a release
build returns the derivative with respect to the other object (`c19_release_wrong_object`). -/
theorem c19_absent_partial (s : Store L) (t : Target L) {τ : L.Ty} (e : Expr L τ)
    (ht : t ∉ objects e) (hc : e.noProxy ∨ e.fwdCompiles t ∧ Distinguished t e)
    (hx : ¬ (e.uniqueLeaves ∧ (t.ty, t.cls) ∈ types e)) : e.jacobianAuto s t = 0 := by
  unfold Expr.jacobianAuto
  split_ifs with hu
  · have hp := ((uniqueLeaves_iff e).1 hu).1
    unfold Expr.typedJacobian
    rw [if_neg]
    rw [hasType_iff t e hp]
    exact fun h => hx ⟨hu, h⟩
  · exact c19_absent_forward s t e ht hc

/-- **C19 (debug builds).** In a debug build `jacobian(x)` never returns anything but zero for an
object that does not occur: the one case in which it would fails an assertion. -/
theorem c19_debug (s : Store L) (t : Target L) {τ : L.Ty} (e : Expr L τ)
    (ht : t ∉ objects e) (hc : e.noProxy ∨ e.fwdCompiles t ∧ Distinguished t e) :
    (e.uniqueLeaves ∧ (t.ty, t.cls) ∈ types e → e.jacobianDebug s t = none) ∧
    ∀ J, e.jacobianDebug s t = some J → J = 0 := by
  have key : e.uniqueLeaves ∧ (t.ty, t.cls) ∈ types e → e.jacobianDebug s t = none := by
    rintro ⟨hu, hty⟩
    have hp := ((uniqueLeaves_iff e).1 hu).1
    unfold Expr.jacobianDebug
    rw [if_pos]
    have h1 : e.containsSame t = false := by
      by_contra h
      exact ht ((containsSame_iff t e hp).1 (by simpa using h))
    simp [hu, (hasType_iff t e hp).2 hty, h1]
  refine ⟨key, fun J hJ => ?_⟩
  by_cases hx : e.uniqueLeaves ∧ (t.ty, t.cls) ∈ types e
  · rw [key hx] at hJ; cases hJ
  · unfold Expr.jacobianDebug at hJ
    split_ifs at hJ
    rw [← Option.some.inj hJ]
    exact c19_absent_partial s t e ht hc hx

/-- **C19 is violated in release builds.** For two different objects `x`, `y` of one leaf class,
`x.jacobian(y)` is the identity, not zero. -/
theorem c19_release_wrong_object {ε : ℝ} (s : Memory) (τ : Ty) :
    let e : Expr (geoLib ε) τ := Expr.leaf (L := geoLib ε) 0 0 τ
    let y : Target (geoLib ε) := ⟨1, 0, τ⟩
    y ∉ objects e ∧ e.jacobianAuto (L := geoLib ε) s y = some 1 ∧
      e.jacobian (L := geoLib ε) s y = 0 := by
  refine ⟨by simp [objects], ?_, ?_⟩
  · simp only [Expr.jacobianAuto, Expr.uniqueLeaves, Expr.uniqueList, Option.isSome_some, if_true,
      Expr.typedJacobian, Expr.hasType, decide_true, Bool.and_self, ETree.mk]
    simp only [ETree.typed, idBlock]
    exact dif_pos ⟨rfl, rfl⟩
  · exact c19_absent_forward (L := geoLib ε) s _ _ (by simp [objects]) (.inl rfl)

/-! ## C21 -/

/-- **C21.** Differentiation through dynamic dispatch gives, for every object, the sum over
occurrences, hence what static differentiation gives where that is accepted. -/
theorem c21_dynamic_forward (s : Store L) (t : Target L) {τ : L.Ty} (e : Expr L τ)
    (hd : Distinguished t e) :
    e.dynJacobian s t.addr t.ty = total (occurrences s t e) ∧
      (e.noProxy ∨ e.fwdCompiles t → e.dynJacobian s t.addr t.ty = e.jacobian s t) := by
  have h : e.dynJacobian s t.addr t.ty = total (occurrences s t e) := by
    show orZero ((ETree.mk s e).dyn t.addr t.ty) = _
    rw [dyn_eq s t e hd, orZero_blockOf]
  refine ⟨h, fun hc => ?_⟩
  rw [h]
  rcases hc with hp | hc
  · exact (c20_sum_over_occurrences s t e hp).symm
  · exact (c20_sum_with_dynamic_nodes s t e hc hd).symm

theorem additions_append {K ρ : Type} [DecidableEq K] (k : K) (r : ρ) (j : ℕ)
    (xs ys : List (K × (w : ℕ) × (ρ → Fin w → Num?))) :
    additions k r j (xs ++ ys) = additions k r j xs ++ additions k r j ys := by
  induction xs with
  | nil => rfl
  | cons x xs ih =>
    obtain ⟨k', w, b⟩ := x
    simp only [List.cons_append, additions, ih]
    split_ifs <;> simp

/-- An update of the reverse sweep as an operation on the Jacobian map. -/
def updateOf {ρ : L.Ty} (u : ℕ × Block L ρ) : ℕ × (w : ℕ) × (L.Idx ρ → Fin w → Num?) :=
  ⟨u.1, L.dim u.2.1, dense u.2.2⟩

theorem additions_dynRev (s : Store L) {ρ : L.Ty} (t : Target L) (r : L.Idx ρ)
    (j : Fin (L.dim t.ty)) : {τ : L.Ty} → (e : Expr L τ) →
    (∀ o ∈ objects e, o.addr = t.addr → o = t) → (adj : OMat (L.Idx ρ) (L.Idx τ)) →
    additions t.addr r j (((ETree.mk s e).dynRev adj).map updateOf) =
      (occurrences s t e).map fun A => dense (adj.mul A) r j
  | τ, .leaf a c _, h, adj => by
    show additions t.addr r j [updateOf (a, ⟨τ, adj⟩)] = _
    unfold occurrences
    by_cases ha : a = t.addr
    · have := h ⟨a, c, τ⟩ (by simp [objects]) ha
      subst this
      rw [dif_pos rfl]
      have hj : (j : ℕ) < L.dim τ := j.2
      show (if a = a then (if h : (j : ℕ) < L.dim τ then dense adj r ⟨j, h⟩ else some 0) :: []
        else []) = [dense (adj.mul (some 1)) r j]
      rw [if_pos rfl, dif_pos hj]
      rcases adj with _ | A
      · rfl
      · show _ = [dense (L := L) (some (A * (1 : Matrix (L.Idx τ) (L.Idx τ) ℝ))) r j]
        rw [Matrix.mul_one]
    · rw [dif_neg]
      · simp [updateOf, additions, ha]
      · rintro rfl; exact ha rfl
  | β, .un a op e, h, adj => by
    show additions t.addr r j (((ETree.mk s e).dynRev
      (adj.mul (nodeJac op (ETree.mk s (.un a op e)).val _))).map updateOf) =
        ((occurrences s t e).map (slopeU s op e).mul).map _
    rw [nodeJac_eq, additions_dynRev s t r j e h, List.map_map]
    refine List.map_congr_left fun A _ => ?_
    rw [Function.comp, OMat.mul_assoc]
  | γ, .bin a op l rr, h, adj => by
    show additions t.addr r j (((ETree.mk s l).dynRev
        (adj.mul (nodeJacL op (ETree.mk s (.bin a op l rr)).val _ _)) ++
      (ETree.mk s rr).dynRev
        (adj.mul (nodeJacR op (ETree.mk s (.bin a op l rr)).val _ _))).map updateOf) =
        ((occurrences s t l).map (slopeL s op l rr).mul ++
          (occurrences s t rr).map (slopeR s op l rr).mul).map _
    rw [nodeJacL_eq, nodeJacR_eq, List.map_append, additions_append, List.map_append,
      additions_dynRev s t r j l (fun o ho => h o (by simp [objects, ho])),
      additions_dynRev s t r j rr (fun o ho => h o (by simp [objects, ho])), List.map_map,
      List.map_map]
    congr 1
    · refine List.map_congr_left fun A _ => ?_
      rw [Function.comp, OMat.mul_assoc]
    · refine List.map_congr_left fun A _ => ?_
      rw [Function.comp, OMat.mul_assoc]
  | _, .proxy _ e, h, adj => additions_dynRev s t r j e h adj

theorem dense_add {ρ σ : L.Ty} (A B : OMat (L.Idx ρ) (L.Idx σ)) (r : L.Idx ρ) (j : Fin (L.dim σ)) :
    dense (A + B) r j = Num?.add (dense A r j) (dense B r j) := by
  rcases A with _ | A <;> rcases B with _ | B <;> rfl

theorem dense_total {ρ σ : L.Ty} (r : L.Idx ρ) (j : Fin (L.dim σ)) :
    ∀ (l : List (OMat (L.Idx ρ) (L.Idx σ))) (A : OMat (L.Idx ρ) (L.Idx σ)),
      (l.map fun B => dense B r j).foldl Num?.add (dense A r j) = dense (A + total l) r j
  | [], A => by
    show dense A r j = dense (A + 0) r j
    rw [add_zero]
  | B :: l, A => by
    rw [List.map_cons, List.foldl_cons, ← dense_add, dense_total r j l (A + B), add_assoc]
    rfl

theorem updates_keys (s : Store L) {ρ : L.Ty} : {τ : L.Ty} → (e : Expr L τ) →
    (adj : OMat (L.Idx ρ) (L.Idx τ)) → ((ETree.mk s e).dynRev adj).map (fun u => (u.1, u.2.1)) =
      (objects e).map fun t => (t.addr, t.ty)
  | _, .leaf _ _ _, _ => rfl
  | _, .un a op e, adj => updates_keys s e _
  | _, .bin a op l r, adj => by
    show (_ ++ _ : List _).map _ = (_ ++ _ : List _).map _
    rw [List.map_append, List.map_append, updates_keys s l, updates_keys s r]
  | _, .proxy _ e, adj => updates_keys s e adj

/-- **C21.** The dynamic reverse sweep (over the leaves registered in any order, as sorting them by
address yields) never fails, and its map holds for every leaf object exactly the derivative (the
total over its occurrences), and no entry for any other address.  Objects of the expression must
have different addresses. -/
theorem c21_dynamic_reverse (s : Store L) (garbage : ∀ τ : L.Ty, ℕ → L.Idx τ → Num?) {τ : L.Ty}
    (e : Expr L τ) (order : List (Target L)) (horder : order.Perm e.leaves)
    (hd : ∀ o ∈ objects e, ∀ o' ∈ objects e, o.addr = o'.addr → o = o') :
    ∃ m, e.dynReverse s garbage order = some m ∧
      (∀ t ∈ objects e, m.count t.addr = 1 ∧
        m.at' t.addr = some ⟨L.dim t.ty, dense (total (occurrences s t e))⟩) ∧
      ∀ a, (∀ t ∈ objects e, t.addr ≠ a) → m.count a = 0 ∧ m.at' a = none := by
  rw [objects_eq_leaves] at horder
  have hmem : ∀ o, o ∈ order ↔ o ∈ objects e := fun o => horder.mem_iff
  have hfind : ∀ t ∈ objects e, ((order.map fun t => (t.addr, L.dim t.ty)).find?
      fun kw => kw.1 = t.addr) = some (t.addr, L.dim t.ty) := by
    intro t ht
    rw [List.find?_map]
    have : (order.find? ((fun kw : ℕ × ℕ => decide (kw.1 = t.addr)) ∘
        fun t => (t.addr, L.dim t.ty))) = some t := by
      rcases h : order.find? ((fun kw : ℕ × ℕ => decide (kw.1 = t.addr)) ∘
          fun t => (t.addr, L.dim t.ty)) with _ | o
      · have := List.find?_eq_none.1 h t ((hmem t).2 ht)
        simp at this
      · have h1 := List.find?_some h
        have h2 := List.mem_of_find?_eq_some h
        have : o = t := hd o ((hmem o).1 h2) t ht (by simpa using h1)
        rw [h, this]
    rw [this]; rfl
  have hupd : ∀ op ∈ ((ETree.mk s e).dynRev (idBlock rfl : OMat (L.Idx τ) (L.Idx τ))).map updateOf,
      ∃ t ∈ objects e, op.1 = t.addr ∧ op.2.1 = L.dim t.ty := by
    intro op hop
    obtain ⟨u, hu, rfl⟩ := List.mem_map.1 hop
    have : (u.1, u.2.1) ∈ (objects e).map fun t => (t.addr, t.ty) := by
      rw [← updates_keys s e (idBlock rfl : OMat (L.Idx τ) (L.Idx τ))]
      exact List.mem_map_of_mem hu
    obtain ⟨t, ht, h⟩ := List.mem_map.1 this
    simp only [Prod.mk.injEq] at h
    exact ⟨t, ht, h.1.symm, congrArg L.dim h.2.symm⟩
  obtain ⟨m, h1, h2⟩ := c26_accumulate (garbage τ) (order.map fun t => (t.addr, L.dim t.ty))
    (((ETree.mk s e).dynRev (idBlock rfl)).map updateOf) (by
      intro op hop
      obtain ⟨t, ht, ha, hw⟩ := hupd op hop
      rw [ha, hw]
      exact hfind t ht)
  have h3 := c26_missing (garbage τ) (order.map fun t => (t.addr, L.dim t.ty))
    (((ETree.mk s e).dynRev (idBlock rfl)).map updateOf) (by
      intro op hop
      obtain ⟨t, ht, ha, -⟩ := hupd op hop
      rw [ha, List.map_map]
      exact List.mem_map.2 ⟨t, (hmem t).2 ht, rfl⟩) m h1
  refine ⟨m, h1, fun t ht => ⟨?_, ?_⟩, fun a ha => ?_⟩
  · refine ((h3 t.addr).2 ?_).1
    rw [List.map_map]
    exact List.mem_map.2 ⟨t, (hmem t).2 ht, rfl⟩
  · rw [h2 t.addr _ (hfind t ht)]
    refine congrArg some ?_
    congr 1
    funext r j
    rw [additions_dynRev s t r j e (fun o ho => hd o ho t ht) (idBlock rfl)]
    have hid : (fun A => dense ((idBlock rfl : OMat (L.Idx τ) (L.Idx τ)).mul A) r j) =
        fun A : OMat (L.Idx τ) (L.Idx t.ty) => dense A r j := by
      funext A
      rcases A with _ | A
      · rfl
      · show dense (some (1 * A)) r j = _
        rw [Matrix.one_mul]
    rw [hid]
    show ((occurrences s t e).map fun A => dense A r j).foldl Num?.add
      (dense (0 : OMat (L.Idx τ) (L.Idx t.ty)) r j) = _
    rw [dense_total, zero_add]
  · refine (h3 a).1 ?_
    rw [List.map_map]
    intro h
    obtain ⟨t, ht, hta⟩ := List.mem_map.1 h
    exact ha t ((hmem t).1 ht) hta

/-- **C21.** Reverse and forward dynamic differentiation agree on every leaf object. -/
theorem c21_reverse_eq_forward (s : Store L) (garbage : ∀ τ : L.Ty, ℕ → L.Idx τ → Num?) {τ : L.Ty}
    (e : Expr L τ) (order : List (Target L)) (horder : order.Perm e.leaves)
    (hd : ∀ t ∈ objects e, Distinguished t e) :
    ∃ m, e.dynReverse s garbage order = some m ∧ ∀ t ∈ objects e,
      m.at' t.addr = some ⟨L.dim t.ty, dense (e.dynJacobian s t.addr t.ty)⟩ := by
  obtain ⟨m, h1, h2, -⟩ := c21_dynamic_reverse s garbage e order horder
    (fun o ho o' ho' h => (hd o' ho').1 o ho h)
  exact ⟨m, h1, fun t ht => by
    rw [(h2 t ht).2, (c21_dynamic_forward s t e (hd t ht)).1]⟩

/-- **C21, limit.** The hypothesis that no operation node shares its address with the target is
needed: an expression object whose first stored member is the target (an owned temporary) is taken
for the target itself.  For `-x` the dynamic Jacobian is then `1`, the derivative is `-1`. -/
theorem c21_shared_address {ε : ℝ} (s : Memory) :
    let e : Expr (geoLib ε) (.vec .scalar) := .un 0 (.minus .scalar) (gleaf ε 0 0 (.vec .scalar))
    let x : Target (geoLib ε) := ⟨0, 0, .vec .scalar⟩
    e.dynJacobian (L := geoLib ε) s 0 (.vec .scalar) = some 1 ∧
      e.jacobian (L := geoLib ε) s x = some (-1) := by
  refine ⟨rfl, ?_⟩
  show some ((-1 : Matrix _ _ ℝ) * 1) = _
  rw [Matrix.mul_one]

/-! ## C22 -/

/-- **C22.** `evalWithJacobians(x1, ..., xn)`, whenever it is accepted, returns the value and, in the
order of the arguments, what `jacobian(xi)` returns; every operation of the tree is evaluated exactly
once, whatever the number of targets. -/
theorem c22_eval_with_jacobians (s : Store L) {τ : L.Ty} (e : Expr L τ) (ts : List (Target L))
    (v : Option (L.Val τ)) (Js : List (Block L τ)) (log : List ℕ)
    (h : e.evalWithJacobiansLog s ts = some ((v, Js), log)) :
    v = e.eval s ∧ Js = (ts.map fun t => ⟨t.ty, e.jacobianAuto s t⟩) ∧ log = operations e := by
  unfold Expr.evalWithJacobiansLog at h
  rw [mkLog_eq] at h
  simp only at h
  split_ifs at h with hu ht ht
  · cases h
    refine ⟨rfl, List.map_congr_left fun t h => ?_, rfl⟩
    rw [Expr.jacobianAuto, if_pos hu, Expr.typedJacobian, if_pos (List.all_eq_true.1 ht t h)]
  · cases h
    refine ⟨rfl, List.map_congr_left fun t h => ?_, rfl⟩
    rw [Expr.jacobianAuto, if_neg hu]; rfl

/-- **C22.** It is accepted whenever the targets occur and the tree has no dynamic node. -/
theorem c22_accepted (s : Store L) {τ : L.Ty} (e : Expr L τ) (ts : List (Target L))
    (hp : e.noProxy) (ht : ∀ t ∈ ts, t ∈ objects e) :
    e.evalWithJacobiansLog s ts =
      some ((value s e, ts.map fun t => ⟨t.ty, total (occurrences s t e)⟩), operations e) := by
  have hty : ∀ t ∈ ts, e.hasType t = true := fun t h =>
    (hasType_iff t e hp).2 (mem_types (ht t h))
  obtain ⟨r, hr⟩ : ∃ r, e.evalWithJacobiansLog s ts = some r := by
    unfold Expr.evalWithJacobiansLog
    rw [mkLog_eq]
    simp only
    split_ifs with hu h1 h1
    · exact ⟨_, rfl⟩
    · exact absurd (List.all_eq_true.2 hty) h1
    · exact ⟨_, rfl⟩
    · refine absurd (List.all_eq_true.2 fun t h => ?_) h1
      have : ∀ {σ : L.Ty} (f : Expr L σ), f.noProxy → f.hasType t → f.fwdCompiles t := by
        intro σ f
        induction f with
        | leaf => intros; rfl
        | un a op e ih => exact ih
        | bin a op l r _ _ =>
          intro h1 h2
          simp only [Expr.noProxy, Bool.and_eq_true] at h1
          simp only [Expr.hasType] at h2
          simp only [Expr.fwdCompiles, h1.1, h1.2, h2, Bool.and_self]
        | proxy => intros; rfl
      exact this e hp (hty t h)
  obtain ⟨⟨v, Js⟩, log⟩ := r
  obtain ⟨h1, h2, h3⟩ := c22_eval_with_jacobians s e ts v Js log hr
  rw [hr, h1, h2, h3]
  have : (ts.map fun t => (⟨t.ty, e.jacobianAuto s t⟩ : Block L τ)) =
      ts.map fun t => ⟨t.ty, total (occurrences s t e)⟩ :=
    List.map_congr_left fun t h => by rw [c20_auto s t e (ht t h) (.inl hp)]
  rw [this, ← mk_val s e]; rfl

/-! ## C27 -/

/-- **C27.** `containsSame(e, x)` holds exactly when the object `x` occurs in `e` (trees without
dynamic nodes: it is not defined for others). -/
theorem c27_containsSame (t : Target L) {τ : L.Ty} (e : Expr L τ) (hp : e.noProxy) :
    e.containsSame t = true ↔ t ∈ objects e := containsSame_iff t e hp

/-! ## C35 -/

/-- **C35.** Two expressions that differ only by dynamic nodes wrapped around any subexpressions have
the same value and the same Jacobian with respect to every object: through dynamic dispatch always,
through the static evaluator whenever it accepts the wrapped expression. -/
theorem c35_transparent (s : Store L) {τ : L.Ty} (e e' : Expr L τ) (h : strip e = strip e') :
    e.eval s = e'.eval s ∧
      ∀ t : Target L, Distinguished t e → Distinguished t e' →
        e.dynJacobian s t.addr t.ty = e'.dynJacobian s t.addr t.ty ∧
        (e.noProxy → e'.fwdCompiles t → e.jacobian s t = e'.jacobian s t) := by
  have hv : value s e = value s e' := by rw [← value_strip s e, h, value_strip]
  have ho : ∀ t, occurrences s t e = occurrences s t e' := fun t => by
    rw [← occurrences_strip s t e, h, occurrences_strip]
  refine ⟨?_, fun t hd hd' => ⟨?_, fun hp hc => ?_⟩⟩
  · show (ETree.mk s e).val = (ETree.mk s e').val
    rw [mk_val, mk_val, hv]
  · rw [(c21_dynamic_forward s t e hd).1, (c21_dynamic_forward s t e' hd').1, ho]
  · rw [c20_sum_over_occurrences s t e hp, c20_sum_with_dynamic_nodes s t e' hc hd', ho]

/-- **C35, limit.** The static evaluator rejects every binary operation with a proxy operand, so
`jacobian(x)` of such an expression does not compile although the unwrapped one may. -/
theorem c35_static_rejected (t : Target L) {α β γ : L.Ty} (a b : ℕ) (op : L.Bin α β γ)
    (l : Expr L α) (r : Expr L β) :
    (Expr.bin a op (.proxy b l) r).fwdCompiles t = false ∧
      (Expr.bin a op l (.proxy b r)).fwdCompiles t = false := by
  constructor
  · simp [Expr.fwdCompiles, Expr.noProxy]
  · simp [Expr.fwdCompiles, Expr.noProxy]

/-! ## Concrete cases -/

section Examples
open Ty

/-- `(R1 * R2) * v` with two differently framed quaternions and a translation. -/
def exUnique (ε : ℝ) : Expr (geoLib ε) (.vec .trans) :=
  .bin 100 (Bin.rotateQ) (.bin 101 (Bin.composeQ) (gleaf ε 1 0 (.rot .quat)) (gleaf ε 2 1 (.rot .quat)))
    (gleaf ε 3 0 (.vec .trans))

/-- `R * (R * v)`: one object twice. -/
def exTwice (ε : ℝ) : Expr (geoLib ε) (.vec .trans) :=
  .bin 100 (Bin.rotateQ) (gleaf ε 1 0 (.rot .quat))
    (.bin 101 (Bin.rotateQ) (gleaf ε 1 0 (.rot .quat)) (gleaf ε 3 0 (.vec .trans)))

/-- `R * (dynamic node holding R * v)`. -/
def exDyn (ε : ℝ) : Expr (geoLib ε) (.vec .trans) :=
  .bin 100 (Bin.rotateQ) (gleaf ε 1 0 (.rot .quat))
    (.proxy 50 (.bin 101 (Bin.rotateQ) (gleaf ε 1 0 (.rot .quat)) (gleaf ε 3 0 (.vec .trans))))

example (ε : ℝ) : (exUnique ε).uniqueLeaves = true ∧ (exTwice ε).uniqueLeaves = false ∧
    (exTwice ε).noProxy = true ∧ (exDyn ε).noProxy = false ∧
    strip (exDyn ε) = strip (exTwice ε) := by
  refine ⟨?_, ?_, rfl, rfl, rfl⟩
  · rw [uniqueLeaves_iff]
    exact ⟨rfl, by simp [exUnique, types, objects]⟩
  · rw [← Bool.not_eq_true, uniqueLeaves_iff]
    simp [exTwice, types, objects]

example (ε : ℝ) : (objects (exUnique ε)).length = 3 ∧
    (occurrences (L := geoLib ε) demo ⟨1, 0, .rot .quat⟩ (exTwice ε)).length = 2 ∧
    (∀ t ∈ objects (exDyn ε), Distinguished t (exDyn ε)) ∧
    Distinguished (⟨1, 0, .rot .quat⟩ : Target (geoLib ε)) (exDyn ε) := by
  have h : ∀ t ∈ objects (exDyn ε), Distinguished t (exDyn ε) := by
    intro t ht
    simp only [exDyn, objects, List.cons_append, List.nil_append, List.mem_cons,
      List.not_mem_nil, or_false] at ht
    rcases ht with rfl | rfl | rfl <;>
      simp [Distinguished, exDyn, objects, nodeAddrs]
  refine ⟨by simp [exUnique, objects], by simp [exTwice, occurrences]; rfl, h, h _ ?_⟩
  simp [exDyn, objects]

/-- The hypotheses of `c19_debug` and `c19_absent_partial` are met by trees with the target's type. -/
example (ε : ℝ) : (⟨9, 0, .rot .quat⟩ : Target (geoLib ε)) ∉ objects (exTwice ε) ∧
    ¬ ((exTwice ε).uniqueLeaves ∧
      ((.rot .quat, 0) : Ty × ℕ) ∈ types (exTwice ε)) ∧
    ((.rot .quat, 0) : Ty × ℕ) ∈ types (exTwice ε) := by
  refine ⟨by simp [exTwice, objects], ?_, by simp [exTwice, types, objects]⟩
  rintro ⟨h, -⟩
  rw [uniqueLeaves_iff] at h
  simp [exTwice, types, objects] at h

/-- A proxy at the root is accepted by the static evaluator. -/
example (ε : ℝ) (t : Target (geoLib ε)) :
    (Expr.un (L := geoLib ε) 7 (.minus .trans) (.proxy 50 (exTwice ε))).fwdCompiles t = true := rfl

theorem exUnique_unique (ε : ℝ) : (exUnique ε).uniqueLeaves = true := by
  rw [uniqueLeaves_iff]
  exact ⟨rfl, by simp [exUnique, types, objects]⟩

theorem exDyn_distinguished (ε : ℝ) : ∀ t ∈ objects (exDyn ε), Distinguished t (exDyn ε) := by
  intro t ht
  simp only [exDyn, objects, List.cons_append, List.nil_append, List.mem_cons,
    List.not_mem_nil, or_false] at ht
  rcases ht with rfl | rfl | rfl <;> simp [Distinguished, exDyn, objects, nodeAddrs]

theorem exTwice_mem (ε : ℝ) : (⟨1, 0, .rot .quat⟩ : Target (geoLib ε)) ∈ objects (exTwice ε) := by
  simp [exTwice, objects]

/-- Each theorem of this file at these trees, in any memory. -/
example (ε : ℝ) (s : Store (geoLib ε)) := c17_reverse_eq_forward s (exUnique ε) (exUnique_unique ε)

example (ε : ℝ) (s : Store (geoLib ε)) := c18_typed_eq_address s ⟨2, 1, .rot .quat⟩ (exUnique ε)
  (exUnique_unique ε) (by simp [exUnique, objects])

example (ε : ℝ) (s : Store (geoLib ε)) : (exTwice ε).jacobian s ⟨9, 0, .rot .quat⟩ = 0 :=
  c19_absent_forward s _ _ (by simp [exTwice, objects]) (.inl rfl)

example (ε : ℝ) (s : Store (geoLib ε)) := c20_sum_over_occurrences s ⟨1, 0, .rot .quat⟩ (exTwice ε) rfl

example (ε : ℝ) (s : Store (geoLib ε)) := c20_sum_with_dynamic_nodes s ⟨1, 0, .rot .quat⟩
  (Expr.un (L := geoLib ε) 7 (.minus .trans) (.proxy 50 (exTwice ε))) rfl
  (by simp [Distinguished, exTwice, objects, nodeAddrs])

example (ε : ℝ) (s : Store (geoLib ε)) := c21_dynamic_forward s ⟨1, 0, .rot .quat⟩ (exDyn ε)
  (exDyn_distinguished ε _ (by simp [exDyn, objects]))

example (ε : ℝ) (s : Store (geoLib ε)) := c21_dynamic_reverse s (fun _ _ _ => none) (exDyn ε)
  (exDyn ε).leaves.reverse (List.reverse_perm _) (by
    intro o h o' h' ha
    exact ((exDyn_distinguished ε o' h').1 o h ha))

example (ε : ℝ) (s : Store (geoLib ε)) := c21_reverse_eq_forward s (fun _ _ _ => none) (exDyn ε)
  (exDyn ε).leaves (.refl _) (exDyn_distinguished ε)

example (ε : ℝ) (s : Store (geoLib ε)) := c22_accepted s (exTwice ε) [⟨1, 0, .rot .quat⟩] rfl
  (by simp [exTwice_mem])

example (ε : ℝ) (s : Store (geoLib ε)) := c22_eval_with_jacobians s (exTwice ε) [⟨1, 0, .rot .quat⟩]
  _ _ _ (c22_accepted s (exTwice ε) [⟨1, 0, .rot .quat⟩] rfl (by simp [exTwice_mem]))

example (ε : ℝ) : (exTwice ε).containsSame (⟨1, 0, .rot .quat⟩ : Target (geoLib ε)) = true :=
  (c27_containsSame _ _ rfl).mpr (exTwice_mem ε)

example (ε : ℝ) (s : Store (geoLib ε)) := c35_transparent s (exTwice ε) (exDyn ε) rfl

example (ε : ℝ) : (exDyn ε).uniqueLeaves = false := c42_dynamic _ (by simp [exDyn, Expr.noProxy])

example (ε : ℝ) := c42_unique (exTwice ε) rfl

example := c42_nary [1, 2] [[3], [2, 4]] (by simp) (by simp)

end Examples

end WG
