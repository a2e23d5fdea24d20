import Verif.Spec.Occurrence

/-!
# Lemmas about the Jacobian evaluators
-/

namespace WG
open Matrix Spec

section OMat
variable {m n p q : Type}

theorem OMat.mul_assoc [Fintype n] [Fintype p] (A : OMat m n) (B : OMat n p) (C : OMat p q) :
    (A.mul B).mul C = A.mul (B.mul C) := by
  rcases A with _ | A <;> rcases B with _ | B <;> rcases C with _ | C <;> first | rfl | skip
  exact congrArg some (Matrix.mul_assoc A B C)

theorem OMat.mul_add [Fintype n] (A : OMat m n) (B C : OMat n p) :
    A.mul (B + C) = A.mul B + A.mul C := by
  rcases A with _ | A <;> rcases B with _ | B <;> rcases C with _ | C <;> first | rfl | skip
  exact congrArg some (Matrix.mul_add A B C)

theorem total_append (As Bs : List (OMat m n)) : total (As ++ Bs) = total As + total Bs :=
  List.sum_append

theorem total_map_mul [Fintype n] (A : OMat m n) :
    ∀ (Bs : List (OMat n p)), Bs ≠ [] → total (Bs.map (OMat.mul A)) = A.mul (total Bs)
  | [], h => absurd rfl h
  | [B], _ => by simp [total]
  | B :: C :: Bs, _ => by
    have := total_map_mul A (C :: Bs) (List.cons_ne_nil _ _)
    unfold total at this ⊢
    rw [List.map_cons, List.sum_cons, List.sum_cons, OMat.mul_add, this]

end OMat

variable {L : Lib}

theorem mk_val (s : Store L) : {τ : L.Ty} → (e : Expr L τ) → (ETree.mk s e).val = value s e
  | _, .leaf _ _ _ => rfl
  | _, .un a op e => by
    show (ETree.mk s e).val.bind _ = _
    rw [mk_val s e]; rfl
  | _, .bin a op l r => by
    show ((ETree.mk s l).val.bind fun x => (ETree.mk s r).val.bind fun y => _) = _
    rw [mk_val s l, mk_val s r]; rfl
  | _, .proxy a e => mk_val s e

theorem nodeJac_eq (s : Store L) {α β : L.Ty} (op : L.Un α β) (e : Expr L α) (a : ℕ) :
    nodeJac op (ETree.mk s (.un a op e)).val (ETree.mk s e).val = slopeU s op e := by
  rw [mk_val, mk_val]
  unfold nodeJac slopeU
  rcases h : value s e with _ | x
  · simp [value, h]
    rfl
  · simp [value, h]
    rfl

theorem nodeJacL_eq (s : Store L) {α β γ : L.Ty} (op : L.Bin α β γ) (l : Expr L α) (r : Expr L β)
    (a : ℕ) : nodeJacL op (ETree.mk s (.bin a op l r)).val (ETree.mk s l).val (ETree.mk s r).val =
      slopeL s op l r := by
  rw [mk_val, mk_val, mk_val]
  unfold nodeJacL slopeL
  rcases h : value s l with _ | x
  · simp [value, h]
    rfl
  · rcases h' : value s r with _ | y
    · simp [value, h, h']
      rfl
    · simp [value, h, h']
      rfl

theorem nodeJacR_eq (s : Store L) {α β γ : L.Ty} (op : L.Bin α β γ) (l : Expr L α) (r : Expr L β)
    (a : ℕ) : nodeJacR op (ETree.mk s (.bin a op l r)).val (ETree.mk s l).val (ETree.mk s r).val =
      slopeR s op l r := by
  rw [mk_val, mk_val, mk_val]
  unfold nodeJacR slopeR
  rcases h : value s l with _ | x
  · simp [value, h]
    rfl
  · rcases h' : value s r with _ | y
    · simp [value, h, h']
      rfl
    · simp [value, h, h']
      rfl

/-- The optional block an evaluator should return: nothing for no occurrence, else the total. -/
def blockOf {m n : Type} : List (OMat m n) → Option (OMat m n)
  | [] => none
  | l => some (total l)

theorem blockOf_of_ne {m n : Type} {l : List (OMat m n)} (h : l ≠ []) :
    blockOf l = some (total l) := by
  cases l with
  | nil => exact absurd rfl h
  | cons a l => rfl

theorem orZero_blockOf {m n : Type} (l : List (OMat m n)) : orZero (blockOf l) = total l := by
  cases l <;> rfl

/-- Combination of the two sides of a binary node. -/
def addBlocks {m n p q : Type} [Fintype n] [Fintype p] (A : OMat m n) (B : OMat m p) :
    Option (OMat n q) → Option (OMat p q) → Option (OMat m q)
  | some J, some K => some (A.mul J + B.mul K)
  | some J, none => some (A.mul J)
  | none, some K => some (B.mul K)
  | none, none => none

theorem blockOf_map {m n p : Type} [Fintype n] (A : OMat m n) (l : List (OMat n p)) :
    (blockOf l).map A.mul = blockOf (l.map A.mul) := by
  cases l with
  | nil => rfl
  | cons B l =>
    rw [blockOf_of_ne (List.cons_ne_nil _ _), blockOf_of_ne (by simp)]
    exact congrArg some (total_map_mul A _ (List.cons_ne_nil _ _)).symm

theorem blockOf_bin {m n p q : Type} [Fintype n] [Fintype p] (A : OMat m n) (B : OMat m p)
    (l : List (OMat n q)) (r : List (OMat p q)) :
    addBlocks A B (blockOf l) (blockOf r) = blockOf (l.map A.mul ++ r.map B.mul) := by
  cases l with
  | nil =>
    rw [List.map_nil, List.nil_append, ← blockOf_map]
    cases r <;> rfl
  | cons C l =>
    cases r with
    | nil =>
      rw [List.map_nil, List.append_nil, ← blockOf_map]
      rfl
    | cons D r =>
      rw [blockOf_of_ne (List.cons_ne_nil _ _), blockOf_of_ne (List.cons_ne_nil _ _),
        blockOf_of_ne (by simp), total_append, total_map_mul A _ (List.cons_ne_nil _ _),
        total_map_mul B _ (List.cons_ne_nil _ _)]
      rfl

theorem blockOf_singleton {m n : Type} (A : OMat m n) : blockOf [A] = some A := by
  simp [blockOf, total]

theorem distinguished_un {t : Target L} {α β : L.Ty} {a : ℕ} {op : L.Un α β} {e : Expr L α}
    (h : Distinguished t (.un a op e)) : a ≠ t.addr ∧ Distinguished t e := by
  obtain ⟨h1, h2⟩ := h
  simp only [nodeAddrs, List.mem_cons, not_or] at h2
  exact ⟨fun h => h2.1 h.symm, h1, h2.2⟩

theorem distinguished_proxy {t : Target L} {α : L.Ty} {a : ℕ} {e : Expr L α}
    (h : Distinguished t (.proxy a e)) : a ≠ t.addr ∧ Distinguished t e := by
  obtain ⟨h1, h2⟩ := h
  simp only [nodeAddrs, List.mem_cons, not_or] at h2
  exact ⟨fun h => h2.1 h.symm, h1, h2.2⟩

theorem distinguished_bin {t : Target L} {α β γ : L.Ty} {a : ℕ} {op : L.Bin α β γ} {l : Expr L α}
    {r : Expr L β} (h : Distinguished t (.bin a op l r)) :
    a ≠ t.addr ∧ Distinguished t l ∧ Distinguished t r := by
  obtain ⟨h1, h2⟩ := h
  simp only [nodeAddrs, List.mem_cons, List.mem_append, not_or] at h2
  simp only [objects, List.mem_append] at h1
  exact ⟨fun h => h2.1 h.symm, ⟨fun o h => h1 o (.inl h), h2.2.1⟩,
    ⟨fun o h => h1 o (.inr h), h2.2.2⟩⟩

/-- The dynamic forward evaluator returns the total over occurrences. -/
theorem dyn_eq (s : Store L) (t : Target L) : {τ : L.Ty} → (e : Expr L τ) → Distinguished t e →
    (ETree.mk s e).dyn t.addr t.ty = blockOf (occurrences s t e)
  | _, .leaf a c τ, h => by
    show (if a = t.addr then _ else _) = _
    unfold occurrences
    by_cases ha : a = t.addr
    · have := h.1 ⟨a, c, τ⟩ (by simp [objects]) ha
      rw [if_pos ha, dif_pos this]
      subst this
      rw [dif_pos rfl]
      exact (blockOf_singleton (idBlock rfl)).symm
    · rw [if_neg ha, dif_neg]
      · rfl
      · rintro rfl; exact ha rfl
  | β, .un a op e, h => by
    obtain ⟨ha, he⟩ := distinguished_un h
    show (if a = t.addr then _ else _) = blockOf ((occurrences s t e).map (slopeU s op e).mul)
    rw [if_neg ha, ← blockOf_map, ← dyn_eq s t e he, ← nodeJac_eq s op e a]
    cases (ETree.mk s e).dyn t.addr t.ty <;> rfl
  | γ, .bin a op l r, h => by
    obtain ⟨ha, hl, hr⟩ := distinguished_bin h
    show (if a = t.addr then _ else _) = blockOf ((occurrences s t l).map (slopeL s op l r).mul ++
      (occurrences s t r).map (slopeR s op l r).mul)
    rw [if_neg ha, ← blockOf_bin, ← dyn_eq s t l hl, ← dyn_eq s t r hr, ← nodeJacL_eq s op l r a,
      ← nodeJacR_eq s op l r a]
    cases (ETree.mk s l).dyn t.addr t.ty <;> cases (ETree.mk s r).dyn t.addr t.ty <;> rfl
  | τ, .proxy a e, h => by
    obtain ⟨ha, he⟩ := distinguished_proxy h
    show (if a = t.addr then _ else _) = _
    rw [if_neg ha, dyn_eq s t e he]
    rfl

theorem mk_hasType (s : Store L) (t : Target L) : {τ : L.Ty} → (e : Expr L τ) →
    (ETree.mk s e).hasType t = e.hasType t
  | _, .leaf _ _ _ => rfl
  | _, .un _ _ e => mk_hasType s t e
  | _, .bin _ _ l r => by
    show (_ || _) = (_ || _)
    rw [mk_hasType s t l, mk_hasType s t r]
  | _, .proxy _ _ => rfl

/-- A tree without the target's type has no occurrence of it. -/
theorem occ_of_not_hasType (s : Store L) (t : Target L) : {τ : L.Ty} → (e : Expr L τ) →
    e.noProxy → e.hasType t = false → occurrences s t e = []
  | _, .leaf a c τ, _, h => by
    unfold occurrences
    rw [dif_neg]
    rintro rfl
    simp [Expr.hasType] at h
  | _, .un _ _ e, hp, h => by
    unfold occurrences
    rw [occ_of_not_hasType s t e hp h]; rfl
  | _, .bin _ _ l r, hp, h => by
    unfold occurrences
    simp only [Expr.noProxy, Bool.and_eq_true] at hp
    simp only [Expr.hasType, Bool.or_eq_false_iff] at h
    rw [occ_of_not_hasType s t l hp.1 h.1, occ_of_not_hasType s t r hp.2 h.2]; rfl
  | _, .proxy _ _, hp, _ => by simp [Expr.noProxy] at hp

/-- The static forward evaluator returns the total over occurrences (no proxies). -/
theorem fwd_eq (s : Store L) (t : Target L) : {τ : L.Ty} → (e : Expr L τ) → e.noProxy →
    (ETree.mk s e).fwd t = blockOf (occurrences s t e)
  | _, .leaf a c τ, _ => by
    show (if h : τ = t.ty ∧ c = t.cls then _ else _) = _
    unfold occurrences
    by_cases h : (⟨a, c, τ⟩ : Target L) = t
    · subst h
      rw [dif_pos ⟨rfl, rfl⟩, if_pos rfl, dif_pos rfl]
      exact (blockOf_singleton (idBlock rfl)).symm
    · rw [dif_neg h]
      split_ifs with h1 h2
      · exact absurd (by cases t; simp_all) h
      · rfl
      · rfl
  | β, .un a op e, h => by
    show _ = blockOf ((occurrences s t e).map (slopeU s op e).mul)
    rw [← blockOf_map, ← fwd_eq s t e h, ← nodeJac_eq s op e a]
    show (match (ETree.mk s e).fwd t with
      | some J => _
      | none => none) = _
    cases (ETree.mk s e).fwd t <;> rfl
  | γ, .bin a op l r, h => by
    simp only [Expr.noProxy, Bool.and_eq_true] at h
    show (if (ETree.mk s l).hasType t && (ETree.mk s r).hasType t then _
      else if (ETree.mk s l).hasType t then _ else if (ETree.mk s r).hasType t then _ else none) =
        blockOf ((occurrences s t l).map (slopeL s op l r).mul ++
      (occurrences s t r).map (slopeR s op l r).mul)
    rw [← blockOf_bin, ← nodeJacL_eq s op l r a, ← nodeJacR_eq s op l r a, mk_hasType, mk_hasType]
    by_cases tl : l.hasType t <;> by_cases tr : r.hasType t
    · simp only [tl, tr, Bool.and_self, if_true]
      rw [← fwd_eq s t l h.1, ← fwd_eq s t r h.2]
      cases (ETree.mk s l).fwd t <;> cases (ETree.mk s r).fwd t <;> rfl
    · simp only [Bool.not_eq_true] at tr
      simp only [tl, tr, Bool.and_false, if_true, Bool.false_eq_true, if_false]
      rw [← fwd_eq s t l h.1, occ_of_not_hasType s t r h.2 tr]
      cases (ETree.mk s l).fwd t <;> rfl
    · simp only [Bool.not_eq_true] at tl
      simp only [tl, tr, Bool.false_and, if_true, Bool.false_eq_true, if_false]
      rw [← fwd_eq s t r h.2, occ_of_not_hasType s t l h.1 tl]
      cases (ETree.mk s r).fwd t <;> rfl
    · simp only [Bool.not_eq_true] at tl tr
      simp only [tl, tr, Bool.false_and, Bool.false_eq_true, if_false]
      rw [occ_of_not_hasType s t l h.1 tl, occ_of_not_hasType s t r h.2 tr]
      rfl
  | _, .proxy _ _, h => by simp [Expr.noProxy] at h

/-- The static forward evaluator on any tree it accepts, proxies included. -/
theorem fwd_eq_compiles (s : Store L) (t : Target L) : {τ : L.Ty} → (e : Expr L τ) →
    e.fwdCompiles t → Distinguished t e → (ETree.mk s e).fwd t = blockOf (occurrences s t e)
  | _, .leaf a c τ, _, _ => fwd_eq s t _ rfl
  | β, .un a op e, h, hd => by
    show _ = blockOf ((occurrences s t e).map (slopeU s op e).mul)
    rw [← blockOf_map, ← fwd_eq_compiles s t e h (distinguished_un hd).2, ← nodeJac_eq s op e a]
    show (match (ETree.mk s e).fwd t with
      | some J => _
      | none => none) = _
    cases (ETree.mk s e).fwd t <;> rfl
  | γ, .bin a op l r, h, _ => by
    simp only [Expr.fwdCompiles, Bool.and_eq_true] at h
    exact fwd_eq s t _ (by simp [Expr.noProxy, h.1.1, h.1.2])
  | τ, .proxy a e, _, hd => by
    obtain ⟨ha, he⟩ := distinguished_proxy hd
    show (if a = t.addr then _ else _) = _
    rw [if_neg ha, dyn_eq s t e he]
    rfl

theorem objects_eq_leaves : {τ : L.Ty} → (e : Expr L τ) → e.leaves = objects e
  | _, .leaf _ _ _ => rfl
  | _, .un _ _ e => objects_eq_leaves e
  | _, .bin _ _ l r => by
    show _ ++ _ = _ ++ _
    rw [objects_eq_leaves l, objects_eq_leaves r]
  | _, .proxy _ e => objects_eq_leaves e

theorem occ_nil_iff (s : Store L) (t : Target L) : {τ : L.Ty} → (e : Expr L τ) →
    (occurrences s t e = [] ↔ t ∉ objects e)
  | _, .leaf a c τ => by
    unfold occurrences objects
    split_ifs with h
    · simp [h]
    · simp only [List.mem_cons, List.not_mem_nil, or_false, true_iff]
      exact fun h' => h h'.symm
  | _, .un _ _ e => by
    unfold occurrences objects
    rw [List.map_eq_nil_iff]; exact occ_nil_iff s t e
  | _, .bin _ _ l r => by
    unfold occurrences objects
    rw [List.append_eq_nil_iff, List.map_eq_nil_iff, List.map_eq_nil_iff, occ_nil_iff s t l,
      occ_nil_iff s t r, List.mem_append, not_or]
  | _, .proxy _ e => by
    unfold occurrences objects
    exact occ_nil_iff s t e

end WG
