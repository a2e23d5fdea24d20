import Verif.Lemmas.DiffBox
import Verif.Spec.Response

/-! The derivative of an expression under perturbation of one object with the box operators. -/

namespace WG
open Matrix Spec Filter Topology

variable {ε : ℝ}

theorem diffV_id {n : Type} [Fintype n] (x : n → ℝ) :
    DiffV (fun d : n → ℝ => d) x fun h => h := fun i =>
  ⟨ContinuousLinearMap.proj i, fun _ => rfl, hasFDerivAt_apply i x⟩

theorem DiffV.hasFDerivAt {m n : Type} [Fintype m] [Fintype n] {F : (n → ℝ) → m → ℝ} {x : n → ℝ}
    {J : Matrix m n ℝ} (h : DiffV F x fun d => J *ᵥ d) : HasFDerivAt F (linMap J) x := by
  rw [hasFDerivAt_pi']
  intro i
  obtain ⟨L, h1, h2⟩ := h i
  have : ContinuousLinearMap.comp (ContinuousLinearMap.proj i) (linMap J) = L := by
    ext d
    rw [h1]; rfl
  rw [this]; exact h2

theorem Store.set_get {L : Lib} (s : Store L) (a : ℕ) (τ : L.Ty) (v : L.Val τ) :
    s.set a τ v a τ = v := by simp [Store.set]

theorem Store.set_self {L : Lib} (s : Store L) (a : ℕ) (τ : L.Ty) : s.set a τ (s a τ) = s := by
  funext b σ
  unfold Store.set
  split_ifs with h
  · obtain ⟨rfl, rfl⟩ := h; rfl
  · rfl

theorem Store.set_of_ne {L : Lib} (s : Store L) {a b : ℕ} {τ σ : L.Ty} (v : L.Val τ)
    (h : ¬ (b = a ∧ τ = σ)) : s.set a τ v b σ = s b σ := by
  unfold Store.set; rw [dif_neg h]

/-- The response of a regular expression to perturbations of an object (which need not occur in it)
is differentiable, and its derivative is the sum over the occurrences. -/
theorem response_deriv_of_valid (hε : 0 < ε) (hε1 : ε ≤ 1) (s : Store (geoLib ε))
    (t : Target (geoLib ε)) {τ : Ty} (e : Expr (geoLib ε) τ) (hreg : RegularAt ε s e)
    (hvt : Valid t.ty (s t.addr t.ty))
    (ho : ∀ o ∈ objects e, o.addr = t.addr → o.ty = t.ty → o = t)
    {J : Matrix τ.Idx t.ty.Idx ℝ} (hJ : total (occurrences s t e) = some J) :
    ∃ F : (t.ty.Idx → ℝ) → τ.Idx → ℝ, (∀ᶠ d in 𝓝 0, response s t e d = some (F d)) ∧ F 0 = 0 ∧
      HasFDerivAt F (linMap J) 0 := by
  classical
  obtain ⟨p, p1, p2, p3, p4⟩ := moves_boxPlus hε t.ty (s t.addr t.ty) hvt
    (diffV_id (0 : t.ty.Idx → ℝ)) rfl
  -- the same family passing through the stored value itself
  set q : (t.ty.Idx → ℝ) → t.ty.Val := fun d => if d = 0 then s t.addr t.ty else p d with hq
  have q0 : q 0 = s t.addr t.ty := if_pos rfl
  have qm : MovesBy t.ty q 0 fun h => h := p4.repoint
    (Eventually.of_forall fun y hy => if_neg hy) (by rw [q0, p2]) (by rw [q0]; exact hvt)
  obtain ⟨f, f1, f2, f3⟩ := chain hε hε1 s t qm q0 e hreg ho hJ
  -- the value at the perturbed store for `d = 0`
  obtain ⟨y, y', g1, g2, g3, g4, g5⟩ := value_den (s' := s.set t.addr t.ty (p 0)) hε e hreg (by
    intro o hoe
    by_cases h : o = t
    · subst h
      rw [Store.set_get]; exact ⟨p3, p2.symm⟩
    · rw [Store.set_of_ne]
      · exact ⟨regular_leaves e hreg o hoe, rfl⟩
      · rintro ⟨h1, h2⟩
        exact h (ho o hoe h1 h2.symm))
  have hy : y = f 0 := by rw [g1] at f2; exact Option.some.inj f2
  set w : (t.ty.Idx → ℝ) → τ.Val := fun d => if d = 0 then y' else f d with hw
  have w0 : w 0 = y' := if_pos rfl
  have wm : MovesBy τ w 0 fun h => J *ᵥ h := f3.repoint
    (Eventually.of_forall fun d hd => if_neg hd) (by rw [w0, ← g5, hy]) (by rw [w0]; exact g4)
  obtain ⟨F, F1, F2, F3⟩ := moves_boxMinus hε τ (y := y) wm (by rw [w0]; exact g4) g3
    (by rw [w0]; exact g5)
  refine ⟨F, ?_, F2, DiffV.hasFDerivAt F3⟩
  filter_upwards [p1, f1, F1] with d d1 d2 d3
  unfold response
  rw [d1, g1]
  by_cases hd : d = 0
  · subst hd
    rw [w0] at d3
    simp only [Option.bind_some]
    rw [g2]; exact d3
  · rw [hq] at d2
    simp only [if_neg hd] at d2
    simp only [Option.bind_some]
    rw [d2]
    simp only [hw, if_neg hd] at d3
    exact d3

theorem response_deriv (hε : 0 < ε) (hε1 : ε ≤ 1) (s : Store (geoLib ε)) (t : Target (geoLib ε))
    {τ : Ty} (e : Expr (geoLib ε) τ) (hreg : RegularAt ε s e) (ht : t ∈ objects e)
    (ho : ∀ o ∈ objects e, o.addr = t.addr → o.ty = t.ty → o = t)
    {J : Matrix τ.Idx t.ty.Idx ℝ} (hJ : total (occurrences s t e) = some J) :
    ∃ F : (t.ty.Idx → ℝ) → τ.Idx → ℝ, (∀ᶠ d in 𝓝 0, response s t e d = some (F d)) ∧ F 0 = 0 ∧
      HasFDerivAt F (linMap J) 0 :=
  response_deriv_of_valid hε hε1 s t e hreg (regular_leaves e hreg t ht) ho hJ

/-- The numerical evaluator with an offset computes the value at the perturbed memory. -/
theorem evalDelta_eq {L : Lib} (s : Store L) (t : Target L) (d : L.Idx t.ty → ℝ) {v : L.Val t.ty}
    (hv : L.boxPlus t.ty (s t.addr t.ty) d = some v) : {τ : L.Ty} → (e : Expr L τ) →
    Distinguished t e → e.evalDelta s t.addr t.ty d = value (s.set t.addr t.ty v) e
  | _, .leaf a c τ, h => by
    unfold Expr.evalDelta Expr.evalDelta.bump value
    by_cases ha : a = t.addr
    · have := h.1 ⟨a, c, τ⟩ (by simp [objects]) ha
      subst this
      simp [Store.set, hv]
    · simp [ha, Store.set]
  | _, .un a op e, h => by
    have h2 : t.addr ∉ a :: nodeAddrs e := h.2
    rw [List.mem_cons, not_or] at h2
    have ih := evalDelta_eq s t d hv e ⟨h.1, h2.2⟩
    unfold Expr.evalDelta Expr.evalDelta.bump value
    rw [if_neg (fun h => h2.1 h.symm), ih]
  | _, .bin a op l r, h => by
    have h2 : t.addr ∉ a :: (nodeAddrs l ++ nodeAddrs r) := h.2
    rw [List.mem_cons, List.mem_append, not_or, not_or] at h2
    have ihl := evalDelta_eq s t d hv l
      ⟨fun o ho => h.1 o (List.mem_append_left _ ho), h2.2.1⟩
    have ihr := evalDelta_eq s t d hv r
      ⟨fun o ho => h.1 o (List.mem_append_right _ ho), h2.2.2⟩
    unfold Expr.evalDelta Expr.evalDelta.bump value
    rw [if_neg (fun h => h2.1 h.symm), ihl, ihr]
  | _, .proxy a e, h => by
    have h2 : t.addr ∉ a :: nodeAddrs e := h.2
    rw [List.mem_cons, not_or] at h2
    have ih := evalDelta_eq s t d hv e ⟨h.1, h2.2⟩
    unfold Expr.evalDelta Expr.evalDelta.bump value
    rw [if_neg (fun h => h2.1 h.symm), ih]

/-- A column of the numerical Jacobian in terms of the response. -/
theorem numColumn_eq (s : Store (geoLib ε)) (t : Target (geoLib ε)) {τ : Ty}
    (e : Expr (geoLib ε) τ) (hd : Distinguished t e) (j : t.ty.Idx) {δ : ℝ} (hδ : δ ≠ 0)
    {y : τ.Idx → ℝ} (h : response s t e (coordStep j δ) = some y) :
    e.numColumn s t.addr t.ty δ j = some fun i => y i / δ := by
  unfold response at h
  obtain ⟨v, hv, h⟩ := Option.bind_eq_some_iff.mp h
  obtain ⟨w, hw, h⟩ := Option.bind_eq_some_iff.mp h
  obtain ⟨w0, hw0, h⟩ := Option.bind_eq_some_iff.mp h
  unfold Expr.numColumn Expr.eval
  rw [evalDelta_eq s t _ hv e hd, hw, mk_val, hw0]
  simp only [Option.bind_some]
  change (boxMinusVal ε τ w w0).bind _ = _
  rw [h]
  simp [hδ]

end WG
