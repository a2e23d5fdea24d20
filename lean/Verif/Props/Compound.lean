import Verif.Lemmas.Compound
import Verif.Props.Differentiation

/-!
# C43, C47: compounds; stacking for C24
-/

namespace WG
open Matrix Spec

variable {L : Lib}

/-! ## C43 -/

/-- **C43.** For every list of element dimensions the row blocks of a `BlockMatrix` follow each other
without gap or overlap from row 0 to its number of rows. -/
theorem c43_consecutive (sizes : List ℕ) :
    Consecutive sizes (blockRange sizes) (compoundSize sizes) where
  defined i := by rw [blockRange_eq]; simp
  size i off n h := by
    rw [blockRange_eq, Option.map_eq_some_iff] at h
    obtain ⟨k, h1, h2⟩ := h
    cases h2
    exact h1
  first off n h := by
    rw [blockRange_eq, Option.map_eq_some_iff] at h
    obtain ⟨k, h1, h2⟩ := h
    cases h2
    simp
  next i off n off' n' h h' := by
    rw [blockRange_eq, Option.map_eq_some_iff] at h h'
    obtain ⟨k, h1, h2⟩ := h
    obtain ⟨k', h1', h2'⟩ := h'
    cases h2; cases h2'
    rw [List.take_add_one, h1]
    simp
  last i off n hi h := by
    rw [blockRange_eq, Option.map_eq_some_iff] at h
    obtain ⟨k, h1, h2⟩ := h
    cases h2
    have : sizes.take (i + 1) = sizes := by rw [hi]; exact List.take_length
    rw [compoundSize, sumSequence_eq]
    conv_rhs => rw [← this, List.take_add_one, h1]
    simp
  empty h := by subst h; rw [compoundSize, sumSequence_eq]; rfl

example : blockRange [3, 1, 6] 2 = some (4, 6) ∧ compoundSize [3, 1, 6] = 10 := by
  constructor
  · rw [blockRange_eq]; rfl
  · rw [compoundSize, sumSequence_eq]; rfl

theorem exactly_one : ∀ (sizes : List ℕ) (r : ℕ), r < sizes.sum →
    ∃ i, (∃ off n, blockRange sizes i = some (off, n) ∧ off ≤ r ∧ r < off + n) ∧
      ∀ i', (∃ off n, blockRange sizes i' = some (off, n) ∧ off ≤ r ∧ r < off + n) → i' = i
  | [], r, h => by simp at h
  | s :: ss, r, h => by
    simp only [blockRange_eq, Option.map_eq_some_iff]
    by_cases hr : r < s
    · refine ⟨0, ⟨0, s, ⟨s, by simp⟩, by omega, by omega⟩, ?_⟩
      rintro i' ⟨off, n, ⟨k, h1, h2⟩, h3, h4⟩
      cases h2
      rcases i' with _ | i'
      · rfl
      · rw [List.take_succ_cons, List.sum_cons] at h3
        omega
    · obtain ⟨i, ⟨off, n, h1, h2, h3⟩, h4⟩ := exactly_one ss (r - s) (by
        rw [List.sum_cons] at h; omega)
      simp only [blockRange_eq, Option.map_eq_some_iff] at h1 h4
      obtain ⟨k, hk1, hk2⟩ := h1
      cases hk2
      refine ⟨i + 1, ⟨s + (ss.take i).sum, n, ⟨n, by simpa using hk1, by simp⟩, by omega, by omega⟩, ?_⟩
      rintro i' ⟨off, n, ⟨k', h1', h2'⟩, h3', h4'⟩
      cases h2'
      rcases i' with _ | i'
      · simp at h1' h4' h3'
        omega
      · rw [List.take_succ_cons, List.sum_cons] at h3' h4'
        rw [h4 i' ⟨_, _, ⟨n, by simpa using h1', rfl⟩, by omega, by omega⟩]

/-- **C43.** Every row belongs to exactly one element. -/
theorem c43_every_row_once (sizes : List ℕ) (r : ℕ) (h : r < compoundSize sizes) :
    ∃! i, ∃ off n, blockRange sizes i = some (off, n) ∧ off ≤ r ∧ r < off + n := by
  rw [compoundSize, sumSequence_eq] at h
  obtain ⟨i, h1, h2⟩ := exactly_one sizes r h
  exact ⟨i, h1, h2⟩

/-- **C43.** No element reaches past the last row. -/
theorem c43_inside (sizes : List ℕ) (i off n : ℕ) (h : blockRange sizes i = some (off, n)) :
    off + n ≤ compoundSize sizes := by
  rw [blockRange_eq, Option.map_eq_some_iff] at h
  obtain ⟨k, h1, h2⟩ := h
  cases h2
  rw [compoundSize, sumSequence_eq]
  conv_rhs => rw [← List.take_append_drop (i + 1) sizes, List.sum_append, List.take_add_one, h1]
  simp

example : ∃! i, ∃ off n, blockRange [3, 1, 6] i = some (off, n) ∧ off ≤ 3 ∧ 3 < off + n :=
  c43_every_row_once _ 3 (by rw [compoundSize, sumSequence_eq]; decide)

/-! ## Stacking (used for C24)

The statements of this section ignore where the results of the elements' evaluators are stored;
`Props/Lazy.lean` adds that and states C24. -/

/-- The value of a compound is the compound of the element values. -/
theorem compound_value (s : Store L) (c : Compound L) :
    c.eval s = c.map fun e => ⟨e.1, value s e.2⟩ := by
  simp only [Compound.eval, Compound.evaluators, List.map_map]
  exact List.map_congr_left fun e _ => by simp [mk_val]

/-- A stacked matrix is determined on all its rows (so the statements below leave nothing open). -/
theorem c24_stacked_unique (s : Store L) (t : Target L) :
    ∀ (c : Compound L) (m m' : Rows L t.ty), IsStacked s t c m → IsStacked s t c m' →
      ∀ r, r < height c → m r = m' r := by
  intro c m m' h h'
  suffices H : ∀ (below above : Compound L), c = above ++ below → ∀ r, height above ≤ r →
      r < height above + height below → m r = m' r by
    intro r hr
    exact H c [] rfl r (Nat.zero_le _) (by simpa [height_nil] using hr)
  intro below
  induction below with
  | nil => intro above _ r h1 h2; rw [height_nil] at h2; omega
  | cons e below ih =>
    intro above hc r h1 h2
    rw [height_cons] at h2
    by_cases hr : r < height above + L.dim e.1
    · have e1 := h above e below hc ((L.enum e.1).symm ⟨r - height above, by omega⟩)
      have e2 := h' above e below hc ((L.enum e.1).symm ⟨r - height above, by omega⟩)
      rw [Equiv.apply_symm_apply] at e1 e2
      have : height above + (r - height above) = r := by omega
      simp only [this] at e1 e2
      rw [e1, e2]
    · have hh : height (above ++ [e]) = height above + L.dim e.1 := by
        rw [height_append, height_cons, height_nil, add_zero]
      exact ih (above ++ [e]) (by simpa using hc) r (by omega) (by omega)

/-- **Stacking, dynamic evaluator.** For every compound and every target told apart by its address, the
matrix returned has in the rows of each element exactly that element's Jacobian (zero rows where the
target does not occur), and no row is left unwritten. -/
theorem compound_dynamic (s : Store L) (t : Target L) (c : Compound L)
    (hd : ∀ e ∈ c, Distinguished t e.2) :
    ∃ m, c.dynJacobian s t.addr t.ty = some m ∧ IsStacked s t c m := by
  obtain ⟨st, h0, h1, h2, h3⟩ := dyn_loop s t (compoundSize c.sizes) c [] ⟨none, 0⟩ hd
    (by rw [compoundSize_eq, height_nil, zero_add]) rfl (by simp) (by simp)
  obtain ⟨jac, row⟩ := st
  unfold Compound.dynJacobian
  simp only [h0]
  rcases jac with _ | m
  · refine ⟨_, rfl, isStacked_of s t _ c (stackFrom_zero s t _ c 0 (fun r g1 g2 => ?_) ?_)⟩
    · exact setZero_in _ _ _ r ⟨g1, by rw [compoundSize_eq]; exact g2⟩
    · simpa using h3 rfl
  · exact ⟨m, rfl, isStacked_of s t m c (by simpa using h2 m rfl)⟩

theorem jacobianAuto_static {s : Store L} {t : Target L} {c : Compound L} {m : Rows L t.ty}
    (h : c.jacobianAuto s t = some m) : c.jacobianStatic s t = some m := by
  unfold Compound.jacobianAuto at h
  cases hu : c.uniqueList with
  | none => rw [hu] at h; simp at h
  | some u =>
    rw [hu] at h
    cases u with
    | none => exact h
    | some l => simp at h

theorem jacobianStatic_noProxy {s : Store L} {t : Target L} {c : Compound L} {m : Rows L t.ty}
    (h : c.jacobianStatic s t = some m) : ∀ e ∈ c, e.2.noProxy := by
  unfold Compound.jacobianStatic at h
  by_cases hp : (c.all fun e => e.2.noProxy) = true
  · simpa using hp
  · rw [if_neg hp] at h; simp at h

/-- `filter_index_sequence` (index_sequence.hpp:105-128) and `tmp::filter` (type_list.hpp:352-368) agree:
the indices for which an n-ary Jacobian evaluator constructs children (JacobianEvaluator.hpp:267-273,
282-289) are increasing, and are exactly those of the elements left by the type filter (260), in order;
hence every child is constructed from the evaluator of its own element. -/
theorem c24_child_indices {T : Type} (p : T → Bool) (ts : List T) :
    (filterSeq (fun i => (ts[i]?).any p) (List.range ts.length)).Pairwise (· < ·) ∧
    (filterSeq (fun i => (ts[i]?).any p) (List.range ts.length)).map (fun i => ts[i]?) =
      (filterTypes p ts).map some := by
  have hf : ∀ (q : ℕ → Bool) (l : List ℕ), filterSeq q l = l.filter q := fun q l => filterTypes_eq q l
  rw [hf, filterTypes_eq]
  refine ⟨List.Pairwise.filter _ List.pairwise_lt_range, ?_⟩
  induction ts using List.reverseRecOn with
  | nil => rfl
  | append_singleton ts t ih =>
    rw [List.length_append, List.length_singleton, List.range_succ, List.filter_append, List.map_append,
      List.filter_append, List.map_append]
    congr 1
    · rw [← ih]
      have h1 : (List.range ts.length).filter (fun i => ((ts ++ [t])[i]?).any p) =
          (List.range ts.length).filter (fun i => (ts[i]?).any p) := by
        apply List.filter_congr
        intro i hi
        rw [List.getElem?_append_left (List.mem_range.1 hi)]
      rw [h1]
      apply List.map_congr_left
      intro i hi
      rw [List.getElem?_append_left (List.mem_range.1 (List.mem_of_mem_filter hi))]
    · by_cases h : p t <;> simp [h]

example : filterSeq (fun i => ([3, 8, 5, 6][i]?).any fun n : ℕ => n % 2 == 0) (List.range 4) = [1, 3] := by
  decide

/-- The elements that contain the target's type. -/
theorem kids_typeFirst {t : Target L} {c : Compound L} (hp : ∀ e ∈ c, e.2.noProxy)
    {c₁ c₂ : Compound L} (hc : c = c₁ ++ c₂) (h1 : ∀ e ∈ c₁, (t.ty, t.cls) ∈ types e.2)
    (h2 : ∀ e ∈ c₂, (t.ty, t.cls) ∉ types e.2) :
    filterTypes (fun e : Elem L => e.2.hasType t) c = c₁ := by
  subst hc
  rw [filterTypes_eq, List.filter_append, List.filter_eq_self.2, List.filter_eq_nil_iff.2]
  · simp
  · intro e he
    rw [hasType_iff t e.2 (hp e (by simp [he]))]
    exact h2 e he
  · intro e he
    rw [hasType_iff t e.2 (hp e (by simp [he]))]
    exact h1 e he

theorem occurrences_nil_of_type {s : Store L} {t : Target L} {τ : L.Ty} {e : Expr L τ}
    (h : (t.ty, t.cls) ∉ types e) : occurrences s t e = [] :=
  occ_nil fun ht => h (mem_types ht)

theorem jacobianStatic_typeFirst (s : Store L) (t : Target L) (c : Compound L)
    (hp : ∀ e ∈ c, e.2.noProxy) (hf : TypeFirst t c) :
    ∃ m, c.jacobianStatic s t = some m ∧ IsStacked s t c m := by
  obtain ⟨c₁, c₂, hc, h1, h2⟩ := hf
  unfold Compound.jacobianStatic
  rw [if_pos (List.all_eq_true.2 hp)]
  simp only
  rw [kids_typeFirst hp hc h1 h2, if_pos]
  swap
  · rw [List.all_eq_true]
    intro e he
    have hpe := hp e (by simp [hc, he])
    exact fwdCompiles_of_hasType t e.2 hpe ((hasType_iff t e.2 hpe).2 (h1 e he))
  subst hc
  split_ifs with hk
  · obtain rfl : c₁ = [] := by simpa using hk
    refine ⟨_, rfl, isStacked_of s t _ _ (stackFrom_zero s t _ _ 0 (fun r g1 g2 => ?_) fun e he =>
      occurrences_nil_of_type (h2 e (by simpa using he)))⟩
    exact setZero_in _ _ _ r ⟨g1, by rw [compoundSize_eq]; exact g2⟩
  · obtain ⟨m', g1, g2, g3⟩ := combineStatic_spec s t c₂ c₁ []
      (Rows.fresh.setZero 0 (compoundSize (Compound.sizes (c₁ ++ c₂))))
      (fun e he => hp e (by simp [he])) (fun r r1 r2 => setZero_in _ _ _ r ⟨r1, by
        rw [compoundSize_eq, height_append]; rw [height_nil] at r2; omega⟩)
    refine ⟨m', g1, isStacked_of s t _ _ (stackFrom_append s t _ c₁ c₂ 0 g2
      (stackFrom_zero s t _ c₂ _ (fun r r1 r2 => ?_) fun e he => occurrences_nil_of_type (h2 e he)))⟩
    rw [g3 r (.inr (by rw [height_nil]; omega))]
    exact setZero_in _ _ _ r ⟨Nat.zero_le _, by rw [compoundSize_eq, height_append]; omega⟩

/-- **Stacking, `jacobian(x)`.** Whenever `compound.jacobian(x)` is accepted by the compiler and
the elements containing the type of `x` come before all others, the matrix returned has in the rows
of each element exactly that element's Jacobian.  Missing for the full claim: compounds in which an
element without the type of `x` precedes one with it; there the claim is false
(`compound_wrong_rows`) or the compiler rejects the call (`compound_rejected`,
`compound_unique_rejected`). -/
theorem compound_static (s : Store L) (t : Target L) (c : Compound L) (m : Rows L t.ty)
    (h : c.jacobianAuto s t = some m) (hf : TypeFirst t c) : IsStacked s t c m := by
  have h := jacobianAuto_static h
  obtain ⟨m', h1, h2⟩ := jacobianStatic_typeFirst s t c (jacobianStatic_noProxy h) hf
  rw [h1] at h
  exact Option.some.inj h ▸ h2

/-- **Stacking, acceptance.** A compound some leaf type of which is repeated (as decided by the library's
trait) and whose elements containing the type of `x` come first is accepted. -/
theorem compound_static_accepted (s : Store L) (t : Target L) (c : Compound L)
    (hu : c.uniqueList = some none) (hp : ∀ e ∈ c, e.2.noProxy) (hf : TypeFirst t c) :
    c.jacobianAuto s t ≠ none := by
  obtain ⟨m, h1, _⟩ := jacobianStatic_typeFirst s t c hp hf
  unfold Compound.jacobianAuto
  rw [hu]
  simp [h1]

/-- **Stacking, `evalWithJacobians(x...)`.** The value returned is the compound of the element
values and, for every target whose type occurs in a first part of the elements and not later, the
Jacobian returned for it is stacked. -/
theorem compound_evalWithJacobians (s : Store L) (c : Compound L) (ts : List (Target L))
    (v : CVal L) (Js : List ((σ : L.Ty) × Rows L σ)) (h : c.evalWithJacobians s ts = some (v, Js)) :
    v = (c.map fun e => ⟨e.1, value s e.2⟩) ∧
      List.Forall₂ (fun (t : Target L) J => ∃ m : Rows L t.ty, J = ⟨t.ty, m⟩ ∧
        (TypeFirst t c → IsStacked s t c m)) ts Js := by
  unfold Compound.evalWithJacobians at h
  cases hu : c.uniqueList with
  | none => rw [hu] at h; simp at h
  | some u =>
    rw [hu] at h
    cases u with
    | some l => simp at h
    | none =>
      simp only at h
      have hauto : ∀ t m, c.jacobianStatic s t = some m → c.jacobianAuto s t = some m := by
        intro t m hm
        unfold Compound.jacobianAuto
        rw [hu]
        exact hm
      generalize hj : (ts.mapM fun t => (c.jacobianStatic s t).map fun J =>
        (⟨t.ty, J⟩ : (σ : L.Ty) × Rows L σ)) = r at h
      rcases r with _ | Js'
      · simp at h
      · simp only [Option.some.injEq, Prod.mk.injEq] at h
        obtain ⟨rfl, rfl⟩ := h
        refine ⟨compound_value s c, ?_⟩
        clear hu
        induction ts generalizing Js' with
        | nil => simp at hj; subst hj; exact .nil
        | cons t ts ih =>
          rw [List.mapM_cons] at hj
          cases h1 : c.jacobianStatic s t with
          | none => rw [h1] at hj; simp at hj
          | some m =>
            rw [h1] at hj
            simp only [Option.map_some, Option.bind_eq_bind, Option.bind_some,
              Option.pure_def, Option.bind_eq_some_iff, Option.some.injEq] at hj
            obtain ⟨Js'', h2, rfl⟩ := hj
            exact .cons ⟨m, rfl, fun hf => compound_static s t c m (hauto t m h1) hf⟩ (ih Js'' h2)

/-- **Wrong rows in `jacobian(x)`.** For every compound starting with an element that does not
contain the type of `x`, followed by one of the same dimension that does, all other elements being
without that type: the Jacobian of the second element is put in the rows of the first, and the rows
of the second are zero. -/
theorem compound_wrong_rows (s : Store L) (t : Target L) (e₁ e₂ : Elem L) (rest : Compound L)
    (m : Rows L t.ty) (h : Compound.jacobianAuto s t (e₁ :: e₂ :: rest) = some m)
    (h1 : (t.ty, t.cls) ∉ types e₁.2) (h2 : (t.ty, t.cls) ∈ types e₂.2)
    (h3 : ∀ e ∈ rest, (t.ty, t.cls) ∉ types e.2) (hdim : L.dim e₁.1 = L.dim e₂.1) :
    (∀ j : L.Idx e₂.1, m (L.enum e₂.1 j) = some (Option.map
        (fun A : Matrix (L.Idx e₂.1) (L.Idx t.ty) ℝ => A j) (total (occurrences s t e₂.2)))) ∧
      ∀ j : L.Idx e₂.1, m (L.dim e₁.1 + L.enum e₂.1 j) = some (some 0) := by
  have h := jacobianAuto_static h
  have hp := jacobianStatic_noProxy h
  have hk : filterTypes (fun e : Elem L => e.2.hasType t) (e₁ :: e₂ :: rest) = [e₂] := by
    rw [filterTypes_eq, List.filter_cons, if_neg, List.filter_cons, if_pos, List.filter_eq_nil_iff.2]
    · intro e he
      rw [hasType_iff t e.2 (hp e (by simp [he]))]
      exact h3 e he
    · rw [hasType_iff t e₂.2 (hp e₂ (by simp))]; exact h2
    · rw [hasType_iff t e₁.2 (hp e₁ (by simp))]; exact h1
  unfold Compound.jacobianStatic at h
  simp only [hk, List.isEmpty_cons, Bool.false_eq_true, if_false] at h
  have hr : blockRange (Compound.sizes (e₁ :: e₂ :: rest)) 0 = some (0, L.dim e₁.1) := by
    rw [blockRange_eq]; rfl
  split_ifs at h with ha hb
  · have h' : combineStatic (Compound.sizes (e₁ :: e₂ :: rest)) t 0 [⟨e₂.1, ETree.mk s e₂.2⟩]
        (Rows.fresh.setZero 0 (compoundSize (Compound.sizes (e₁ :: e₂ :: rest)))) = some m := h
    rw [combineStatic] at h'
    simp only [hr, hdim, if_true, combineStatic, Option.some.injEq, fwd_eq s t e₂.2 (hp e₂ (by simp))]
      at h'
    subst h'
    have hz : ∀ r, r < height (e₁ :: e₂ :: rest) → (Rows.fresh (L := L) (σ := t.ty)).setZero 0
        (compoundSize (Compound.sizes (e₁ :: e₂ :: rest))) r = some (some 0) := fun r hr =>
      setZero_in _ _ _ r ⟨Nat.zero_le _, by rw [compoundSize_eq]; omega⟩
    constructor
    · intro j
      cases hb' : blockOf (occurrences s t e₂.2) with
      | none =>
        have := (blockOf_none_iff _).1 hb'
        show Rows.setZero _ _ _ _ = _
        rw [hz _ (by have := (L.enum e₂.1 j).2; rw [height_cons, height_cons]; omega), this]
        rfl
      | some J =>
        show Rows.write _ 0 J _ = _
        have := write_in (Rows.setZero (σ := t.ty) Rows.fresh 0
          (compoundSize (Compound.sizes (e₁ :: e₂ :: rest)))) 0 J j
        rw [zero_add] at this
        rw [this, blockOf_some hb']
    · intro j
      have hj := (L.enum e₂.1 j).2
      have hlt : L.dim e₁.1 + (L.enum e₂.1 j : ℕ) < height (e₁ :: e₂ :: rest) := by
        rw [height_cons, height_cons]; omega
      cases hb' : blockOf (occurrences s t e₂.2) with
      | none => exact hz _ hlt
      | some J => exact (write_out _ _ _ _ (.inr (by omega))).trans (hz _ hlt)

/-- **Stacking, limit.** The same with elements of different dimensions is rejected by the compiler. -/
theorem compound_rejected (s : Store L) (t : Target L) (e₁ e₂ : Elem L) (rest : Compound L)
    (hp : ∀ e ∈ e₁ :: e₂ :: rest, e.2.noProxy)
    (h1 : (t.ty, t.cls) ∉ types e₁.2) (h2 : (t.ty, t.cls) ∈ types e₂.2)
    (hdim : L.dim e₁.1 ≠ L.dim e₂.1) :
    Compound.jacobianAuto s t (e₁ :: e₂ :: rest) = none := by
  cases h : Compound.jacobianAuto s t (e₁ :: e₂ :: rest) with
  | none => rfl
  | some m =>
    exfalso
    have h := jacobianAuto_static h
    obtain ⟨ks, hk⟩ : ∃ ks, filterTypes (fun e : Elem L => e.2.hasType t) (e₁ :: e₂ :: rest) =
        e₂ :: ks := by
      rw [filterTypes_eq, List.filter_cons, if_neg, List.filter_cons, if_pos]
      · exact ⟨_, rfl⟩
      · rw [hasType_iff t e₂.2 (hp e₂ (by simp))]; exact h2
      · rw [hasType_iff t e₁.2 (hp e₁ (by simp))]; exact h1
    unfold Compound.jacobianStatic at h
    simp only [hk, List.isEmpty_cons, Bool.false_eq_true, if_false] at h
    have hr : blockRange (Compound.sizes (e₁ :: e₂ :: rest)) 0 = some (0, L.dim e₁.1) := by
      rw [blockRange_eq]; rfl
    split_ifs at h with ha hb
    · have h' : combineStatic (Compound.sizes (e₁ :: e₂ :: rest)) t 0
          (⟨e₂.1, ETree.mk s e₂.2⟩ :: Compound.evaluators s ks)
          (Rows.fresh.setZero 0 (compoundSize (Compound.sizes (e₁ :: e₂ :: rest)))) = some m := h
      rw [combineStatic] at h'
      simp [hr, hdim] at h'

/-- **Stacking, limit.** `jacobian(x)` of a compound all of whose leaf types are distinct is rejected by
the compiler, whatever `x`. -/
theorem compound_unique_rejected (s : Store L) (t : Target L) (e : Elem L) (es : Compound L)
    (hp : ∀ e' ∈ e :: es, e'.2.noProxy)
    (hn : ((e :: es).map fun e' => types e'.2).flatten.Nodup) :
    Compound.jacobianAuto s t (e :: es) = none := by
  have hn1 : ∀ e' ∈ e :: es, (types e'.2).Nodup := by
    intro e' he'
    exact (List.nodup_flatten.1 hn).1 _ (List.mem_map_of_mem he')
  have hu : ∀ e' ∈ e :: es, e'.2.uniqueList = some (types e'.2) := fun e' he' =>
    (c42_unique e'.2 (hp e' he')).2 (hn1 e' he')
  have := c42_nary (types e.2) (es.map fun e' => types e'.2) (hn1 e (by simp)) (by
    intro v hv
    obtain ⟨e', he', rfl⟩ := List.mem_map.1 hv
    exact hn1 e' (by simp [he']))
  rw [List.map_cons] at hn
  rw [if_pos hn] at this
  unfold Compound.jacobianAuto
  have hmap : (es.map fun e => e.2.uniqueList) = (es.map fun e' => types e'.2).map some := by
    rw [List.map_map]
    exact List.map_congr_left fun e' he' => hu e' (by simp [he'])
  have hl : Compound.uniqueList (e :: es) =
      some (some (types e.2 :: es.map fun e' => types e'.2).flatten) := by
    rw [Compound.uniqueList, hu e (by simp), hmap, this]
  rw [hl]

/-- A compound in the layout the code handles correctly: `(a, a - b)` seen from `a`. -/
noncomputable def exStack (ε : ℝ) : Compound (geoLib ε) :=
  [⟨.vec .trans, gleaf ε 1 0 (.vec .trans)⟩,
   ⟨.vec .trans, .bin 9 (.sub .trans) (gleaf ε 1 0 (.vec .trans)) (gleaf ε 2 0 (.vec .trans))⟩]

/-- A compound in the other order: `(b - b, a)` with `b` a translation and `a` a rotation vector. -/
noncomputable def exSwap (ε : ℝ) : Compound (geoLib ε) :=
  [⟨.vec .trans, .bin 9 (.sub .trans) (gleaf ε 1 0 (.vec .trans)) (gleaf ε 1 0 (.vec .trans))⟩,
   ⟨.vec .relrot, gleaf ε 2 0 (.vec .relrot)⟩]

theorem exStack_typeFirst (ε : ℝ) : TypeFirst (L := geoLib ε) ⟨1, 0, .vec .trans⟩ (exStack ε) :=
  ⟨exStack ε, [], by simp, by simp [exStack, types, objects], by simp⟩

theorem exStack_accepted (ε : ℝ) (s : Store (geoLib ε)) :
    (exStack ε).jacobianAuto s ⟨1, 0, .vec .trans⟩ ≠ none :=
  compound_static_accepted s _ _ (by simp [exStack, Compound.uniqueList, concatMany, Expr.uniqueList,
    concatIfUnique, tfind]) (by simp [exStack, Expr.noProxy]) (exStack_typeFirst ε)

theorem exSwap_accepted (ε : ℝ) (s : Store (geoLib ε)) :
    ∃ m, (exSwap ε).jacobianAuto s ⟨2, 0, .vec .relrot⟩ = some m := by
  have hr0 : blockRange [3, 3] 0 = some (0, 3) := by rw [blockRange_eq]; rfl
  have hu : (exSwap ε).uniqueList = some none := by
    simp [exSwap, Compound.uniqueList, concatMany, Expr.uniqueList, concatIfUnique, tfind]
  have hs : (exSwap ε).sizes = [3, 3] := rfl
  rw [← Option.ne_none_iff_exists']
  unfold Compound.jacobianAuto
  rw [hu]
  unfold Compound.jacobianStatic
  rw [hs]
  simp [exSwap, Expr.noProxy, filterTypes, Expr.hasType, Expr.fwdCompiles, Compound.evaluators,
    combineStatic, hr0, Ty.dim]

theorem total_self (s : Store L) (a c : ℕ) (τ : L.Ty) :
    total (occurrences s ⟨a, c, τ⟩ (.leaf a c τ)) = some 1 := by
  have : occurrences s ⟨a, c, τ⟩ (.leaf a c τ) = [some 1] := dif_pos rfl
  rw [this]
  exact @add_zero (OMat (L.Idx τ) (L.Idx τ)) _ (some 1)

/-- **Wrong rows in `jacobian(x)`, witness.** In the library's signature there is an accepted
compound, and a target in it, for which the matrix returned is not the stack of the element
Jacobians. -/
theorem compound_wrong_stack (ε : ℝ) (s : Store (geoLib ε)) :
    ∃ m, (exSwap ε).jacobianAuto s ⟨2, 0, .vec .relrot⟩ = some m ∧
      ¬ IsStacked s ⟨2, 0, .vec .relrot⟩ (exSwap ε) m := by
  obtain ⟨m, hm⟩ := exSwap_accepted ε s
  refine ⟨m, hm, fun h => ?_⟩
  have h1 := (compound_wrong_rows s _ _ _ _ m hm (by simp [types, objects])
    (by simp [types, objects]) (by simp) rfl).2 (0 : Fin 3)
  have h2 := h [⟨.vec .trans, .bin 9 (.sub .trans) (gleaf ε 1 0 (.vec .trans))
    (gleaf ε 1 0 (.vec .trans))⟩] ⟨.vec .relrot, gleaf ε 2 0 (.vec .relrot)⟩ [] rfl (0 : Fin 3)
  have h3 : (some (some 0) : Option (Option (Fin 3 → ℝ))) = some (some ((1 : M3) 0)) := by
    rw [← h1]
    refine Eq.trans h2 ?_
    exact congrArg (fun o : OMat (Fin 3) (Fin 3) => some (Option.map (fun A : M3 => A 0) o))
      (total_self (L := geoLib ε) s 2 0 (.vec .relrot))
  have := congrFun (Option.some.inj (Option.some.inj h3)) 0
  simp at this

example (ε : ℝ) (s : Store (geoLib ε)) :
    ∃ m, (exSwap ε).dynJacobian s 2 (.vec .relrot) = some m ∧
      IsStacked s ⟨2, 0, .vec .relrot⟩ (exSwap ε) m :=
  compound_dynamic s ⟨2, 0, .vec .relrot⟩ (exSwap ε) (by
    intro e he
    simp only [exSwap, List.mem_cons, List.not_mem_nil, or_false] at he
    rcases he with rfl | rfl <;> simp [Distinguished, objects, nodeAddrs])

/-! ## C47 -/

theorem expandBin_forall {α β γ : Type} (f : α → β → Option γ) (g : γ → α → Option β) :
    ∀ (xs : List α) (ys : List β), List.Forall₂ (fun x y => ∃ z, f x y = some z ∧ g z x = some y) xs ys →
      ∃ zs, expandBin f xs ys = some zs ∧ expandBin g zs xs = some ys
  | _, _, .nil => ⟨[], rfl, rfl⟩
  | _, _, .cons (a := x) (b := y) (l₁ := xs) (l₂ := ys) ⟨z, h1, h2⟩ h => by
    obtain ⟨zs, g1, g2⟩ := expandBin_forall f g xs ys h
    exact ⟨z :: zs, by simp [expandBin, h1, g1], by simp [expandBin, h2, g2]⟩

theorem expandBin_forall' {α β γ : Type} (f : α → α → Option β) (g : α → β → Option α) :
    ∀ (xs ys : List α), List.Forall₂ (fun x y => ∃ z, f y x = some z ∧ g x z = some y) xs ys →
      ∃ zs, expandBin f ys xs = some zs ∧ expandBin g xs zs = some ys
  | _, _, .nil => ⟨[], rfl, rfl⟩
  | _, _, .cons (a := x) (b := y) (l₁ := xs) (l₂ := ys) ⟨z, h1, h2⟩ h => by
    obtain ⟨zs, g1, g2⟩ := expandBin_forall' (γ := γ) f g xs ys h
    exact ⟨z :: zs, by simp [expandBin, h1, g1], by simp [expandBin, h2, g2]⟩

/-- A compound of finite values. -/
abbrev finiteVals (c : List ((τ : L.Ty) × L.Val τ)) : CVal L := c.map fun x => ⟨x.1, some x.2⟩

/-- A compound of finite tangent vectors, one for each element of `c`. -/
abbrev finiteTans (d : List ((τ : L.Ty) × (L.Idx τ → ℝ))) : TVal L := d.map fun x => ⟨x.1, some x.2⟩

/-- **C47.** `(c + d) - c = d` for compounds of any number of elements, whenever it holds for each
element. -/
theorem c47_plus_minus (p : List ((τ : L.Ty) × L.Val τ × (L.Idx τ → ℝ)))
    (h : ∀ x ∈ p, ((L.boxPlus x.1 x.2.1 x.2.2).bind fun y => L.boxMinus x.1 y x.2.1) = some x.2.2) :
    ∃ z, compoundPlus (finiteVals (p.map fun x => ⟨x.1, x.2.1⟩))
        (finiteTans (p.map fun x => ⟨x.1, x.2.2⟩)) = some z ∧
      compoundMinus z (finiteVals (p.map fun x => ⟨x.1, x.2.1⟩)) =
        some (finiteTans (p.map fun x => ⟨x.1, x.2.2⟩)) := by
  refine expandBin_forall elemPlus elemMinus _ _ ?_
  induction p with
  | nil => exact .nil
  | cons x p ih =>
    refine .cons ?_ (ih fun y hy => h y (List.mem_cons_of_mem _ hy))
    refine ⟨⟨x.1, L.boxPlus x.1 x.2.1 x.2.2⟩, by simp [elemPlus], ?_⟩
    have := h x List.mem_cons_self
    simp only [elemMinus, dif_pos, Option.bind_some, this]

/-- **C47.** `a + (b - a) = b` for compounds of any number of elements, whenever it holds for each
element. -/
theorem c47_minus_plus (p : List ((τ : L.Ty) × L.Val τ × L.Val τ))
    (h : ∀ x ∈ p, ((L.boxMinus x.1 x.2.2 x.2.1).bind fun d => L.boxPlus x.1 x.2.1 d) = some x.2.2) :
    ∃ d, compoundMinus (finiteVals (p.map fun x => ⟨x.1, x.2.2⟩))
        (finiteVals (p.map fun x => ⟨x.1, x.2.1⟩)) = some d ∧
      compoundPlus (finiteVals (p.map fun x => ⟨x.1, x.2.1⟩)) d =
        some (finiteVals (p.map fun x => ⟨x.1, x.2.2⟩)) := by
  refine expandBin_forall' (γ := Unit) elemMinus elemPlus _ _ ?_
  induction p with
  | nil => exact .nil
  | cons x p ih =>
    refine .cons ?_ (ih fun y hy => h y (List.mem_cons_of_mem _ hy))
    refine ⟨⟨x.1, L.boxMinus x.1 x.2.2 x.2.1⟩, by simp [elemMinus], ?_⟩
    have := h x List.mem_cons_self
    simp only [elemPlus, dif_pos, Option.bind_some, this]

/-- **C47.** The value of a compound of tangent vectors as one vector: the concatenation always
succeeds, fills every row, and the rows of each element, in order, hold exactly the coefficients of
that element. -/
theorem c47_rows (d : TVal L) : ∃ v, valueAsVector d = some v ∧
    ∀ above x below, d = above ++ x :: below → ∀ j : L.Idx x.1,
      v ((above.map fun y => L.dim y.1).sum + L.enum x.1 j) = some (x.2.map fun f => f j) := by
  obtain ⟨v, h1, h2⟩ := valueAsVector_eq d
  refine ⟨v, h1, ?_⟩
  rintro above x below rfl j
  rw [h2 _ (by have := (L.enum x.1 j).2; simp; omega), concatAt_append]

/-- **C47 (element by element).** An accepted difference has one element per element of the left
operand, each the difference of the elements at the same position. -/
theorem c47_minus_elementwise (a b : List ((τ : L.Ty) × L.Val τ)) (d : TVal L)
    (h : compoundMinus (finiteVals a) (finiteVals b) = some d) :
    d.length = a.length ∧ ∀ (i : ℕ) (τ : L.Ty) (x y : L.Val τ), a[i]? = some ⟨τ, x⟩ → b[i]? = some ⟨τ, y⟩ →
      d[i]? = some ⟨τ, L.boxMinus τ x y⟩ := by
  induction a generalizing b d with
  | nil =>
    have : d = [] := by simpa [compoundMinus, expandBin, eq_comm] using h
    subst this
    exact ⟨rfl, by simp⟩
  | cons x a ih =>
    rcases b with _ | ⟨y, b⟩
    · simp [compoundMinus, expandBin] at h
    · cases h1 : elemMinus (L := L) ⟨x.1, some x.2⟩ ⟨y.1, some y.2⟩ with
      | none => simp [compoundMinus, expandBin, h1] at h
      | some z =>
        cases h2 : compoundMinus (finiteVals a) (finiteVals b) with
        | none =>
          simp only [compoundMinus] at h2
          simp [compoundMinus, expandBin, h1, h2] at h
        | some zs =>
          have hd : d = z :: zs := by
            simp only [compoundMinus] at h2
            simpa [compoundMinus, expandBin, h1, h2, eq_comm] using h
          subst hd
          obtain ⟨g1, g2⟩ := ih b zs h2
          refine ⟨by simp [g1], ?_⟩
          rintro (_ | i) τ u w hu hw
          · simp only [List.getElem?_cons_zero, Option.some.injEq] at hu hw ⊢
            subst hu; subst hw
            simpa [elemMinus, eq_comm] using h1
          · simp only [List.getElem?_cons_succ] at hu hw ⊢
            exact g2 i τ u w hu hw

/-- **C47, limit.** The number of elements of the operands is not compared: surplus elements of the
right operand are silently ignored. -/
theorem c47_surplus_ignored (a b extra : CVal L) (h : a.length = b.length) :
    compoundMinus a (b ++ extra) = compoundMinus a b := by
  induction a generalizing b with
  | nil => rfl
  | cons x a ih =>
    rcases b with _ | ⟨y, b⟩
    · simp at h
    · simp only [List.length_cons, Nat.add_right_cancel_iff] at h
      simp only [compoundMinus, List.cons_append, expandBin] at ih ⊢
      rw [ih b h]

/-- **C47 (the library's vectors and points).** Unconditional for compounds of vectors and points. -/
theorem c47_vectors (ε : ℝ) (p : List ((τ : Ty) × (τ.Val × (τ.Idx → ℝ))))
    (hv : ∀ x ∈ p, (∃ k, x.1 = .vec k) ∨ x.1 = .point) :
    ∃ z, compoundPlus (L := geoLib ε) (finiteVals (p.map fun x => ⟨x.1, x.2.1⟩))
        (finiteTans (p.map fun x => ⟨x.1, x.2.2⟩)) = some z ∧
      compoundMinus z (finiteVals (p.map fun x => ⟨x.1, x.2.1⟩)) =
        some (finiteTans (p.map fun x => ⟨x.1, x.2.2⟩)) := by
  refine c47_plus_minus (L := geoLib ε) p ?_
  rintro ⟨τ, x, d⟩ hx
  rcases hv _ hx with ⟨k, hk⟩ | hk
  · simp only at hk
    subst hk
    exact congrArg some (add_sub_cancel_left x d)
  · simp only at hk
    subst hk
    exact congrArg some (add_sub_cancel_left x d)

example : ∃ z, compoundPlus (L := geoLib dblEps)
    [⟨.vec .scalar, some fun _ => 2⟩, ⟨.point, some ![1, 2, 3]⟩]
    [⟨.vec .scalar, some fun _ => 5⟩, ⟨.point, some ![7, 8, 9]⟩] = some z ∧
    compoundMinus z [⟨.vec .scalar, some fun _ => 2⟩, ⟨.point, some ![1, 2, 3]⟩] =
      some [⟨.vec .scalar, some fun _ => 5⟩, ⟨.point, some ![7, 8, 9]⟩] :=
  c47_vectors dblEps [⟨.vec .scalar, fun _ => 2, fun _ => 5⟩, ⟨.point, ![1, 2, 3], ![7, 8, 9]⟩]
    (by simp)

/-- Each theorem at concrete compounds. -/
example := c43_inside [3, 1, 6] 2 4 6 rfl

example := c43_consecutive [3, 1, 6]

end WG
