import Verif.Lemmas.Frames
import Verif.Lemmas.Jac

/-! Occurrences of an object are the same in the framed and in the unframed tree. -/

namespace WG
open Matrix Spec

variable {ε : ℝ}

theorem OMat.mul_none {m n p : Type} [Fintype n] (A : OMat m n) : OMat.mul A (none : OMat n p) = none := by
  cases A <;> rfl

theorem OMat.one_mul {m n : Type} [Fintype m] [DecidableEq m] (A : OMat m n) :
    OMat.mul (some 1) A = A := by
  cases A with
  | none => rfl
  | some a => exact congrArg some (Matrix.one_mul a)

/-- Below a node without a finite value nothing is finite, unless there is no operation at all. -/
theorem occ_none {L : Lib} (s : Store L) (t : Target L) : {τ : L.Ty} → (e : Expr L τ) →
    value s e = none → ∀ J ∈ occurrences s t e, J = none
  | _, .leaf a c τ, h => by cases h
  | _, .un a op e, h => by
    intro J hJ
    obtain ⟨K, -, rfl⟩ := List.mem_map.mp hJ
    have : slopeU s op e = none := by
      unfold slopeU
      change (value s e).bind _ = none at h
      rcases hx : value s e with _ | x
      · rfl
      · rw [hx] at h
        change L.evalU op x = none at h
        change (L.evalU op x).bind _ = none
        rw [h]; rfl
    rw [this]; rfl
  | _, .bin a op l r, h => by
    intro J hJ
    change ((value s l).bind fun x => (value s r).bind fun y => L.evalB op x y) = none at h
    have : slopeL s op l r = none ∧ slopeR s op l r = none := by
      unfold slopeL slopeR
      rcases hx : value s l with _ | x
      · exact ⟨rfl, rfl⟩
      · rw [hx] at h
        rcases hy : value s r with _ | y
        · exact ⟨rfl, rfl⟩
        · rw [hy] at h
          change L.evalB op x y = none at h
          constructor
          · change (L.evalB op x y).bind _ = none
            rw [h]; rfl
          · change (L.evalB op x y).bind _ = none
            rw [h]; rfl
    rcases List.mem_append.mp hJ with hJ | hJ
    · obtain ⟨K, -, rfl⟩ := List.mem_map.mp hJ
      rw [this.1]; rfl
    · obtain ⟨K, -, rfl⟩ := List.mem_map.mp hJ
      rw [this.2]; rfl
  | _, .proxy a e, h => occ_none s t e h

theorem slopeU_forget (s : Store (geoLib ε)) {α β : Ty} (op : Un α β) (e : Expr (geoLib ε) α) :
    slopeU (L := geoLib ε) s op (forget e) = slopeU (L := geoLib ε) s op e := by
  unfold slopeU; rw [value_forget]
theorem slopeL_forget (s : Store (geoLib ε)) {α β γ : Ty} (op : Bin α β γ) (l : Expr (geoLib ε) α)
    (r : Expr (geoLib ε) β) :
    slopeL (L := geoLib ε) s op (forget l) (forget r) = slopeL (L := geoLib ε) s op l r := by
  unfold slopeL; rw [value_forget, value_forget]
theorem slopeR_forget (s : Store (geoLib ε)) {α β γ : Ty} (op : Bin α β γ) (l : Expr (geoLib ε) α)
    (r : Expr (geoLib ε) β) :
    slopeR (L := geoLib ε) s op (forget l) (forget r) = slopeR (L := geoLib ε) s op l r := by
  unfold slopeR; rw [value_forget, value_forget]

theorem occ_forget (s : Store (geoLib ε)) (a c : ℕ) (τ : Ty) : {β : Ty} → (e : Expr (geoLib ε) β) →
    (∀ o ∈ objects e, o.addr = a → o.ty = τ → o.cls = c) →
    occurrences s ⟨a, 0, τ⟩ (forget e) = occurrences (L := geoLib ε) s ⟨a, c, τ⟩ e
  | _, .leaf a' c' τ', h => by
    change occurrences s ⟨a, 0, τ⟩ (Expr.leaf (L := geoLib ε) a' 0 τ') = _
    have h := h ⟨a', c', τ'⟩ (by simp [objects])
    by_cases h1 : a' = a ∧ τ' = τ
    · obtain ⟨rfl, rfl⟩ := h1
      obtain rfl : c' = c := h rfl rfl
      unfold occurrences
      rw [dif_pos rfl, dif_pos rfl]
    · unfold occurrences
      rw [dif_neg, dif_neg]
      · intro h2
        exact h1 ⟨congrArg Target.addr h2, congrArg Target.ty h2⟩
      · intro h2
        exact h1 ⟨congrArg Target.addr h2, congrArg Target.ty h2⟩
  | _, .un n op e, h => by
    have ih := occ_forget s a c τ e h
    have hs := slopeU_forget s op e
    cases op
    case recast =>
      change occurrences s ⟨a, 0, τ⟩ (forget e) = List.map _ _
      rw [ih]
      rcases hv : value s e with _ | v
      · symm
        refine (List.map_congr_left fun J hJ => ?_).trans (List.map_id _)
        rw [occ_none s _ e hv J hJ]
        exact OMat.mul_none _
      · symm
        refine (List.map_congr_left fun J hJ => ?_).trans (List.map_id _)
        have : slopeU (L := geoLib ε) s (Un.recast _) e = some 1 := by
          unfold slopeU; rw [hv]; rfl
        rw [this]
        exact OMat.one_mul J
    all_goals
      change List.map (OMat.mul (slopeU (L := geoLib ε) s _ (forget e))) (occurrences s _ (forget e)) =
        List.map (OMat.mul (slopeU (L := geoLib ε) s _ e)) _
      rw [hs, ih]
  | _, .bin n op l r, h => by
    change List.map (OMat.mul (slopeL (L := geoLib ε) s op (forget l) (forget r)))
        (occurrences s _ (forget l)) ++
      List.map (OMat.mul (slopeR (L := geoLib ε) s op (forget l) (forget r)))
        (occurrences s _ (forget r)) = _
    rw [slopeL_forget, slopeR_forget,
      occ_forget s a c τ l fun o ho => h o (List.mem_append_left _ ho),
      occ_forget s a c τ r fun o ho => h o (List.mem_append_right _ ho)]
    rfl
  | _, .proxy n e, h => occ_forget s a c τ e h

end WG
