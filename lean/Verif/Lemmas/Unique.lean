import Verif.Lemmas.Jac

/-!
# Lemmas about unique leaf types, the typed evaluator and the reverse sweep
-/

namespace WG
open Matrix Spec

theorem tfind_nonneg_iff {T : Type} [DecidableEq T] (y : T) :
    ∀ (xs : List T) (i : ℤ), 0 ≤ i → (tfind xs y i ≥ 0 ↔ y ∈ xs)
  | [], i, _ => by simp [tfind]
  | x :: xs, i, hi => by
    unfold tfind
    split_ifs with h
    · simp [h, hi]
    · rw [tfind_nonneg_iff y xs (i + 1) (by omega)]
      simp [Ne.symm h]

theorem concatIfUnique_eq {T : Type} [DecidableEq T] :
    ∀ (bs as : List T), as.Nodup →
      concatIfUnique as bs = if (as ++ bs).Nodup then some (as ++ bs) else none
  | [], as, h => by simp [concatIfUnique, h]
  | b :: bs, as, h => by
    unfold concatIfUnique
    by_cases hb : b ∈ as
    · rw [if_pos ((tfind_nonneg_iff b as 0 le_rfl).2 hb), if_neg]
      intro hn
      exact (List.nodup_append.1 hn).2.2 b hb b (by simp) rfl
    · rw [if_neg (fun h' => hb ((tfind_nonneg_iff b as 0 le_rfl).1 h')), concatIfUnique_eq bs (as ++ [b])]
      · simp
      · rw [List.nodup_append]
        refine ⟨h, by simp, ?_⟩
        rintro a ha _ hb' rfl
        simp at hb'
        exact hb (hb' ▸ ha)

variable {L : Lib}

theorem uniqueList_eq : {τ : L.Ty} → (e : Expr L τ) →
    e.uniqueList = if e.noProxy ∧ (types e).Nodup then some (types e) else none
  | _, .leaf _ _ _ => by simp [Expr.uniqueList, Expr.noProxy, types, objects]
  | _, .un _ _ e => uniqueList_eq e
  | _, .bin a op l r => by
    have ht : types (.bin a op l r) = types l ++ types r := by simp [types, objects]
    rw [ht]
    unfold Expr.uniqueList
    rw [uniqueList_eq l, uniqueList_eq r]
    by_cases hl : l.noProxy ∧ (types l).Nodup
    · by_cases hr : r.noProxy ∧ (types r).Nodup
      · simp only [hl, hr, and_self, if_true]
        rw [concatIfUnique_eq _ _ hl.2]
        simp [Expr.noProxy, hl.1, hr.1]
      · have hb : ¬ ((Expr.bin a op l r).noProxy = true ∧ (types l ++ types r).Nodup) := by
          rintro ⟨h1, h2⟩
          simp only [Expr.noProxy, Bool.and_eq_true] at h1
          exact hr ⟨h1.2, (List.nodup_append.1 h2).2.1⟩
        rw [if_pos hl, if_neg hr, if_neg hb]
    · have hb : ¬ ((Expr.bin a op l r).noProxy = true ∧ (types l ++ types r).Nodup) := by
        rintro ⟨h1, h2⟩
        simp only [Expr.noProxy, Bool.and_eq_true] at h1
        exact hl ⟨h1.1, (List.nodup_append.1 h2).1⟩
      rw [if_neg hl, if_neg hb]
  | _, .proxy _ _ => by simp [Expr.uniqueList, Expr.noProxy]

theorem uniqueLeaves_iff {τ : L.Ty} (e : Expr L τ) :
    e.uniqueLeaves = true ↔ e.noProxy = true ∧ (types e).Nodup := by
  unfold Expr.uniqueLeaves
  rw [uniqueList_eq]
  split_ifs with h <;> simp [h]

theorem hasType_iff (t : Target L) : {τ : L.Ty} → (e : Expr L τ) → e.noProxy →
    (e.hasType t = true ↔ (t.ty, t.cls) ∈ types e)
  | _, .leaf a c τ, _ => by
    simp only [Expr.hasType, types, objects, List.map_cons, List.map_nil, List.mem_singleton,
      Prod.mk.injEq, Bool.and_eq_true, decide_eq_true_eq]
    exact ⟨fun h => ⟨h.1.symm, h.2.symm⟩, fun h => ⟨h.1.symm, h.2.symm⟩⟩
  | _, .un _ _ e, h => hasType_iff t e h
  | _, .bin a op l r, h => by
    simp only [Expr.noProxy, Bool.and_eq_true] at h
    have ht : types (.bin a op l r) = types l ++ types r := by simp [types, objects]
    rw [ht, List.mem_append, ← hasType_iff t l h.1, ← hasType_iff t r h.2]
    simp [Expr.hasType]
  | _, .proxy _ _, h => by simp [Expr.noProxy] at h

theorem mem_types {t : Target L} {τ : L.Ty} {e : Expr L τ} (h : t ∈ objects e) :
    (t.ty, t.cls) ∈ types e := List.mem_map.2 ⟨t, h, rfl⟩

/-- The type-based evaluator finds the derivative with respect to the object of that type. -/
theorem typed_eq (s : Store L) (t : Target L) : {τ : L.Ty} → (e : Expr L τ) → e.noProxy →
    (types e).Nodup → t ∈ objects e → (ETree.mk s e).typed t = total (occurrences s t e)
  | _, .leaf a c τ, _, _, h => by
    obtain rfl : t = ⟨a, c, τ⟩ := by simpa [objects] using h
    show (if h : _ then _ else _) = _
    unfold occurrences
    rw [dif_pos ⟨rfl, rfl⟩, dif_pos rfl]
    exact (add_zero (idBlock rfl : OMat (L.Idx τ) (L.Idx τ))).symm
  | β, .un a op e, hp, hn, h => by
    show OMat.mul (nodeJac op (ETree.mk s (.un a op e)).val (ETree.mk s e).val) _ = total ((occurrences s t e).map (slopeU s op e).mul)
    rw [nodeJac_eq s op e a, typed_eq s t e hp hn h, total_map_mul]
    exact fun h' => (occ_nil_iff s t e).1 h' h
  | γ, .bin a op l r, hp, hn, h => by
    simp only [Expr.noProxy, Bool.and_eq_true] at hp
    have ht : types (.bin a op l r) = types l ++ types r := by simp [types, objects]
    rw [ht] at hn
    obtain ⟨nl, nr, nd⟩ := List.nodup_append.1 hn
    show (if (ETree.mk s l).hasType t && (ETree.mk s r).hasType t then _
      else if (ETree.mk s l).hasType t then OMat.mul (nodeJacL op (ETree.mk s (.bin a op l r)).val _ _) _
      else if (ETree.mk s r).hasType t then OMat.mul (nodeJacR op (ETree.mk s (.bin a op l r)).val _ _) _
      else 0) =
        total ((occurrences s t l).map (slopeL s op l r).mul ++
      (occurrences s t r).map (slopeR s op l r).mul)
    rw [mk_hasType, mk_hasType, nodeJacL_eq, nodeJacR_eq, total_append]
    rcases List.mem_append.1 h with hl | hr
    · have tl := (hasType_iff t l hp.1).2 (mem_types hl)
      have tr : r.hasType t = false := by
        by_contra hc
        exact nd _ (mem_types hl) _ ((hasType_iff t r hp.2).1 (by simpa using hc)) rfl
      rw [tl, tr, typed_eq s t l hp.1 nl hl, occ_of_not_hasType s t r hp.2 tr, total_map_mul]
      · exact (add_zero _).symm
      · exact fun h' => (occ_nil_iff s t l).1 h' hl
    · have tr := (hasType_iff t r hp.2).2 (mem_types hr)
      have tl : l.hasType t = false := by
        by_contra hc
        exact nd _ ((hasType_iff t l hp.1).1 (by simpa using hc)) _ (mem_types hr) rfl
      rw [tl, tr, typed_eq s t r hp.2 nr hr, occ_of_not_hasType s t l hp.1 tl,
        total_map_mul _ (occurrences s t r) (fun h' => (occ_nil_iff s t r).1 h' hr)]
      exact (zero_add _).symm
  | _, .proxy _ _, h, _, _ => by simp [Expr.noProxy] at h

theorem occ_nil {s : Store L} {t : Target L} {τ : L.Ty} {e : Expr L τ} (h : t ∉ objects e) :
    occurrences s t e = [] := (occ_nil_iff s t e).2 h

/-- The reverse sweep of a tree whose objects are all different: for each object, the adjoint times
the total over its occurrences. -/
theorem rev_eq (s : Store L) {ρ : L.Ty} : {τ : L.Ty} → (e : Expr L τ) → (objects e).Nodup →
    (adj : OMat (L.Idx ρ) (L.Idx τ)) → (ETree.mk s e).rev adj =
      (objects e).map fun t => (⟨t.ty, adj.mul (total (occurrences s t e))⟩ : Block L ρ)
  | τ, .leaf a c _, _, adj => by
    show [(⟨τ, adj⟩ : Block L ρ)] = [⟨τ, _⟩]
    have : total (occurrences s ⟨a, c, τ⟩ (.leaf a c τ : Expr L τ)) = some 1 := by
      unfold occurrences
      rw [dif_pos rfl]
      exact add_zero (idBlock rfl : OMat (L.Idx τ) (L.Idx τ))
    rw [this]
    congr 2
    rcases adj with _ | A
    · rfl
    · exact congrArg some (Matrix.mul_one A).symm
  | β, .un a op e, h, adj => by
    show (ETree.mk s e).rev (adj.mul (nodeJac op (ETree.mk s (.un a op e)).val _)) = (objects e).map _
    rw [nodeJac_eq, rev_eq s e h]
    refine List.map_congr_left fun t ht => ?_
    have : total (occurrences s t (.un a op e)) = (slopeU s op e).mul (total (occurrences s t e)) :=
      total_map_mul _ _ (fun h' => (occ_nil_iff s t e).1 h' ht)
    rw [this, OMat.mul_assoc]
  | γ, .bin a op l r, h, adj => by
    show (ETree.mk s l).rev (adj.mul (nodeJacL op (ETree.mk s (.bin a op l r)).val _ _)) ++
      (ETree.mk s r).rev (adj.mul (nodeJacR op (ETree.mk s (.bin a op l r)).val _ _)) =
        (objects l ++ objects r).map _
    obtain ⟨nl, nr, nd⟩ := List.nodup_append.1 h
    rw [nodeJacL_eq, nodeJacR_eq, rev_eq s l nl, rev_eq s r nr, List.map_append]
    congr 1
    · refine List.map_congr_left fun t ht => ?_
      have : total (occurrences s t (.bin a op l r)) =
          (slopeL s op l r).mul (total (occurrences s t l)) := by
        show total ((occurrences s t l).map (slopeL s op l r).mul ++
          (occurrences s t r).map (slopeR s op l r).mul) = _
        rw [occ_nil (e := r) (fun h' => nd _ ht _ h' rfl), List.map_nil, List.append_nil]
        exact total_map_mul _ _ (fun h' => (occ_nil_iff s t l).1 h' ht)
      rw [this, OMat.mul_assoc]
    · refine List.map_congr_left fun t ht => ?_
      have : total (occurrences s t (.bin a op l r)) =
          (slopeR s op l r).mul (total (occurrences s t r)) := by
        show total ((occurrences s t l).map (slopeL s op l r).mul ++
          (occurrences s t r).map (slopeR s op l r).mul) = _
        rw [occ_nil (e := l) (fun h' => nd _ h' _ ht rfl), List.map_nil, List.nil_append]
        exact total_map_mul _ _ (fun h' => (occ_nil_iff s t r).1 h' ht)
      rw [this, OMat.mul_assoc]
  | _, .proxy _ e, h, adj => rev_eq s e h adj

theorem containsSame_iff (t : Target L) : {τ : L.Ty} → (e : Expr L τ) → e.noProxy →
    (e.containsSame t = true ↔ t ∈ objects e)
  | _, .leaf a c τ, _ => by
    cases t
    simp [Expr.containsSame, objects]
    tauto
  | _, .un _ _ e, h => containsSame_iff t e h
  | _, .bin a op l r, h => by
    simp only [Expr.noProxy, Bool.and_eq_true] at h
    show (_ || _) = true ↔ t ∈ objects l ++ objects r
    rw [List.mem_append, ← containsSame_iff t l h.1, ← containsSame_iff t r h.2, Bool.or_eq_true]
  | _, .proxy _ _, h => by simp [Expr.noProxy] at h

theorem mkLog_eq (s : Store L) : {τ : L.Ty} → (e : Expr L τ) →
    ETree.mkLog s e = (ETree.mk s e, operations e)
  | _, .leaf _ _ _ => rfl
  | _, .un a op e => by
    unfold ETree.mkLog
    rw [mkLog_eq s e]; rfl
  | _, .bin a op l r => by
    unfold ETree.mkLog
    rw [mkLog_eq s l, mkLog_eq s r]; rfl
  | _, .proxy a e => by
    unfold ETree.mkLog
    rw [mkLog_eq s e]; rfl

theorem value_strip (s : Store L) : {τ : L.Ty} → (e : Expr L τ) → value s (strip e) = value s e
  | _, .leaf _ _ _ => rfl
  | _, .un _ op e => by unfold strip value; rw [value_strip s e]
  | _, .bin _ op l r => by unfold strip value; rw [value_strip s l, value_strip s r]
  | _, .proxy _ e => value_strip s e

theorem occurrences_strip (s : Store L) (t : Target L) : {τ : L.Ty} → (e : Expr L τ) →
    occurrences s t (strip e) = occurrences s t e
  | _, .leaf _ _ _ => rfl
  | _, .un _ op e => by
    unfold strip occurrences
    rw [occurrences_strip s t e]
    simp only [slopeU, value_strip s e]
  | _, .bin _ op l r => by
    unfold strip occurrences
    rw [occurrences_strip s t l, occurrences_strip s t r]
    simp only [slopeL, slopeR, value_strip s l, value_strip s r]
  | _, .proxy _ e => occurrences_strip s t e

theorem strip_noProxy : {τ : L.Ty} → (e : Expr L τ) → (strip e).noProxy = true
  | _, .leaf _ _ _ => rfl
  | _, .un _ op e => strip_noProxy e
  | _, .bin _ op l r => by
    show (_ && _) = true
    rw [strip_noProxy l, strip_noProxy r]; rfl
  | _, .proxy _ e => strip_noProxy e

end WG
