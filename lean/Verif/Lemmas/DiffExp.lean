import Verif.Lemmas.Diff

/-! Differentials of the exponential of a rotation vector and of a twist. -/

namespace WG
open Matrix Spec Filter Topology

variable {E : Type} [NormedAddCommGroup E] [NormedSpace ℝ E] {x : E}

/-- `sin θ / θ`, `(1 - cos θ) / θ²`, `(1 - sin θ / θ) / θ²` with `θ² = n` (helpers). -/
noncomputable def cA (n : ℝ) : ℝ := Real.sin √n / √n
/-- See `cA`. -/
noncomputable def cB (n : ℝ) : ℝ := (1 - Real.cos √n) / n
/-- See `cA`. -/
noncomputable def cC (n : ℝ) : ℝ := (1 - cA n) / n

theorem rodr_coef (v : V3) : rodr v =
    1 + cA (normSq v) • crossMatrix v + cB (normSq v) • (crossMatrix v * crossMatrix v) := rfl

theorem vmat_coef (v : V3) : vmat v =
    1 + cB (normSq v) • crossMatrix v + cC (normSq v) • (crossMatrix v * crossMatrix v) := rfl

theorem half_mul_two_mul (a b : ℝ) : a / 2 * (2 * b) = a * b := by ring

variable {n : ℝ}

theorem cC_rel (h : 0 < n) : cA n + cC n * n = 1 := by
  unfold cC; field_simp; ring

theorem cAB_rel (h : 0 < n) : cA n ^ 2 - 2 * cB n + cB n ^ 2 * n = 0 := by
  have hs : √n ^ 2 = n := Real.sq_sqrt h.le
  have h0 : √n ≠ 0 := (Real.sqrt_pos.mpr h).ne'
  have e := Real.sin_sq_add_cos_sq √n
  unfold cA cB
  rw [div_pow, hs]
  field_simp
  linear_combination e

theorem cA_deriv (h : 0 < n) : HasDerivAt cA ((cC n - cB n) / 2) n := by
  have hs : √n ^ 2 = n := Real.sq_sqrt h.le
  have h0 : √n ≠ 0 := (Real.sqrt_pos.mpr h).ne'
  have d := Real.hasDerivAt_sqrt h.ne'
  refine ((d.sin).div d h0).congr_deriv ?_
  unfold cC cB cA
  rw [← hs] 
  rw [Real.sqrt_sq (Real.sqrt_nonneg n)]
  field_simp
  ring

theorem cB_deriv (h : 0 < n) : HasDerivAt cB ((cA n * cC n - cB n ^ 2) / 2) n := by
  have hs : √n ^ 2 = n := Real.sq_sqrt h.le
  have h0 : √n ≠ 0 := (Real.sqrt_pos.mpr h).ne'
  have d := Real.hasDerivAt_sqrt h.ne'
  have r1 := cAB_rel h
  have r2 := cC_rel h
  have key : cA n * cC n - cB n ^ 2 = (cA n - 2 * cB n) / n := by
    rw [eq_div_iff h.ne']
    linear_combination cA n * r2 - r1
  rw [key]
  refine (((hasDerivAt_const n (1 : ℝ)).sub d.cos).div (hasDerivAt_id n) h.ne').congr_deriv ?_
  unfold cB cA
  simp only [id_eq, Pi.sub_apply]
  rw [← hs]
  rw [Real.sqrt_sq (Real.sqrt_nonneg n)]
  field_simp
  ring

theorem cC_deriv (h : 0 < n) : HasDerivAt cC ((cB n - 3 * cC n) / n / 2) n := by
  refine (((hasDerivAt_const n (1 : ℝ)).sub (cA_deriv h)).div (hasDerivAt_id n) h.ne').congr_deriv ?_
  simp only [id_eq, Pi.sub_apply]
  rw [show cC n = (1 - cA n) / n from rfl]
  field_simp
  ring

theorem vmat_apply {v : V3} (h : 0 < normSq v) (δ : V3) : vmat v *ᵥ δ =
    cA (normSq v) • δ + cB (normSq v) • cross v δ + (cC (normSq v) * dot v δ) • v := by
  have r := cC_rel h
  rw [vmat_coef, add_mulVec, add_mulVec, smul_mulVec, smul_mulVec, one_mulVec, crossMatrix_mulVec,
    crossMatrix_sq, sub_mulVec, smul_mulVec, one_mulVec]
  generalize cA (normSq v) = a at *
  generalize cB (normSq v) = b at *
  generalize cC (normSq v) = c at *
  generalize normSq v = n at *
  funext i
  have : (outer v v *ᵥ δ) i = dot v δ * v i := by
    simp [outer, mulVec, dotProduct, Fin.sum_univ_three, dot]; ring
  simp only [Pi.add_apply, Pi.smul_apply, Pi.sub_apply, smul_eq_mul, this]
  linear_combination -(δ i) * r

/-- The derivative of the Rodrigues formula (algebraic core). -/
theorem rodr_core (v δ : V3) (a b c : ℝ) :
    crossMatrix (a • δ + b • cross v δ + (c * dot v δ) • v) *
        (1 + a • crossMatrix v + b • (crossMatrix v * crossMatrix v)) =
      ((c - b) * dot v δ) • crossMatrix v + a • crossMatrix δ +
        (((a * c - b ^ 2) * dot v δ) • (crossMatrix v * crossMatrix v) +
          b • (crossMatrix δ * crossMatrix v + crossMatrix v * crossMatrix δ)) +
      (a ^ 2 - 2 * b + b ^ 2 * normSq v) • (crossMatrix δ * crossMatrix v) +
        (dot v δ * b * (1 - (a + c * normSq v))) • crossMatrix v := by
  mat3 [crossMatrix, cross, dot, normSq, Matrix.vecHead, Matrix.vecTail]

/-- `d exp([v]) = [V(v) dv] exp([v])`. -/
theorem diff_rodr {v δ : E → V3} (hv : DiffV v x δ) (h0 : v x ≠ 0) :
    DiffM (fun e => rodr (v e)) x fun h => crossMatrix (vmat (v x) *ᵥ δ h) * rodr (v x) := by
  have hp : 0 < normSq (v x) := lt_of_le_of_ne (normSq_nonneg _) (Ne.symm (normSq_ne h0))
  have dn := hv.normSq
  have dA := Diff.comp (f := fun e => normSq (v e)) (cA_deriv hp) dn
  have dB := Diff.comp (f := fun e => normSq (v e)) (cB_deriv hp) dn
  have dK := diffM_cross hv
  have := diffM_add (diffM_add (DiffM.const (x := x) (1 : M3)) (diffM_smul dA dK))
    (diffM_smul dB (dK.mul dK))
  simp only [rodr_coef]
  refine this.congr_right fun h => ?_
  rw [vmat_apply hp, rodr_core, cAB_rel hp, cC_rel hp]
  rw [sub_self, mul_zero, zero_smul, zero_smul, add_zero, add_zero, zero_add, half_mul_two_mul,
    half_mul_two_mul]

/-- The matrix `B` of the twist exponential (main branch, helper). -/
noncomputable def eadeM (ω u : V3) : M3 :=
  cB (normSq ω) • crossMatrix u + cC (normSq ω) • (outer ω u + outer u ω) +
    dot ω u • ((cC (normSq ω) - cB (normSq ω)) • (1 : M3) +
      ((cA (normSq ω) - 2 * cB (normSq ω)) / normSq ω) • crossMatrix ω +
      ((cB (normSq ω) - 3 * cC (normSq ω)) / normSq ω) • outer ω ω)

theorem eadeB_eq {ω : V3} (h : ω ≠ 0) (u : V3) : eadeB ω u = some (eadeM ω u) := by
  simp [eadeB, rdiv, sqrt_normSq_ne h, normSq_ne h, eadeM, cA, cB, cC]

theorem eadeB_zero (u : V3) : eadeB 0 u = none := by
  simp [eadeB, rdiv, normSq]

/-- Algebraic core of the derivative of `V(ω) u` with respect to `ω`. -/
theorem vmat_core (ω δ u : V3) (a b c w1 w2 : ℝ) :
    (((w1 * dot ω δ) • crossMatrix ω + b • crossMatrix δ +
        ((w2 * dot ω δ) • (crossMatrix ω * crossMatrix ω) +
          c • (crossMatrix δ * crossMatrix ω + crossMatrix ω * crossMatrix δ))) *ᵥ u) =
      cross (a • δ + b • cross ω δ + (c * dot ω δ) • ω)
          (a • u + b • cross ω u + (c * dot ω u) • ω) +
        (b • crossMatrix u + c • (outer ω u + outer u ω) +
          dot ω u • ((c - b) • (1 : M3) + w1 • crossMatrix ω + w2 • outer ω ω)) *ᵥ δ +
      ((2 * b - a ^ 2 - b ^ 2 * normSq ω) • cross δ u +
        (w1 - (a * c - b ^ 2)) • (dot ω δ • cross ω u - dot ω u • cross ω δ) +
        (dot ω δ * (b - 3 * c - w2 * normSq ω)) • u +
        (b * (1 - (a + c * normSq ω))) • (dot ω u • δ - dot ω δ • u)) := by
  vec3 [crossMatrix, cross, dot, normSq, outer, Matrix.vecHead, Matrix.vecTail]

/-- `d (V(ω) u) = (V dω) × (V u) + B dω + V du`. -/
theorem diff_vmat {ω δ u υ : E → V3} (hω : DiffV ω x δ) (hu : DiffV u x υ) (h0 : ω x ≠ 0) :
    DiffV (fun e => vmat (ω e) *ᵥ u e) x fun h =>
      cross (vmat (ω x) *ᵥ δ h) (vmat (ω x) *ᵥ u x) + eadeM (ω x) (u x) *ᵥ δ h +
        vmat (ω x) *ᵥ υ h := by
  have hp : 0 < normSq (ω x) := lt_of_le_of_ne (normSq_nonneg _) (Ne.symm (normSq_ne h0))
  have dn := hω.normSq
  have dB := Diff.comp (f := fun e => normSq (ω e)) (cB_deriv hp) dn
  have dC := Diff.comp (f := fun e => normSq (ω e)) (cC_deriv hp) dn
  have dK := diffM_cross hω
  have := (diffM_add (diffM_add (DiffM.const (x := x) (1 : M3)) (diffM_smul dB dK))
    (diffM_smul dC (dK.mul dK))).mulVec hu
  simp only [vmat_coef]
  refine this.congr_right fun h => ?_
  rw [← vmat_coef]
  congr 1
  rw [vmat_apply hp, vmat_apply hp]
  have r1 := cAB_rel hp
  have r2 := cC_rel hp
  have key : cA (normSq (ω x)) * cC (normSq (ω x)) - cB (normSq (ω x)) ^ 2 =
      (cA (normSq (ω x)) - 2 * cB (normSq (ω x))) / normSq (ω x) := by
    rw [eq_div_iff hp.ne']
    linear_combination cA (normSq (ω x)) * r2 - r1
  have core := vmat_core (ω x) (δ h) (u x) (cA (normSq (ω x))) (cB (normSq (ω x)))
    (cC (normSq (ω x))) ((cA (normSq (ω x)) - 2 * cB (normSq (ω x))) / normSq (ω x))
    ((cB (normSq (ω x)) - 3 * cC (normSq (ω x))) / normSq (ω x))
  have z1 : 2 * cB (normSq (ω x)) - cA (normSq (ω x)) ^ 2 -
      cB (normSq (ω x)) ^ 2 * normSq (ω x) = 0 := by linear_combination -r1
  rw [z1, ← key, sub_self, r2, sub_self, div_mul_cancel₀ _ hp.ne', sub_self] at core
  simp only [zero_smul, mul_zero, add_zero] at core
  unfold eadeM
  rw [← key, ← core, zero_add, half_mul_two_mul, half_mul_two_mul]

end WG
