import Verif.Model.ExpLog
import Verif.Lemmas.MatExp

/-! Exponential and logarithm of rotations. -/

namespace WG
open Matrix Spec

/-- The rotation with rotation vector `v` by Rodrigues' formula (helper). -/
noncomputable def rodr (v : V3) : M3 :=
  1 + (Real.sin √(normSq v) / √(normSq v)) • crossMatrix v +
    ((1 - Real.cos √(normSq v)) / normSq v) • (crossMatrix v * crossMatrix v)

/-- The quaternion of the main branch of ExpMap (helper). -/
noncomputable def expQ (v : V3) : Quat :=
  Quat.ofVec (Real.cos (√(normSq v) / 2)) ((Real.sin (√(normSq v) / 2) / √(normSq v)) • v)

theorem sqrt_normSq_ne {v : V3} (h : v ≠ 0) : √(normSq v) ≠ 0 := by
  rw [Real.sqrt_ne_zero (normSq_nonneg v)]; exact fun e => h (normSq_eq_zero.mp e)

theorem sqrt_normSq_pos {v : V3} (h : v ≠ 0) : 0 < √(normSq v) :=
  lt_of_le_of_ne (Real.sqrt_nonneg _) (sqrt_normSq_ne h).symm

theorem normSq_ne {v : V3} (h : v ≠ 0) : normSq v ≠ 0 := fun e => h (normSq_eq_zero.mp e)

theorem sqrt_normSq_sq (v : V3) : √(normSq v) * √(normSq v) = normSq v :=
  Real.mul_self_sqrt (normSq_nonneg v)

theorem expRel_big {ε : ℝ} (hε : 0 < ε) {v : V3} (h : normSq v * normSq v > ε) :
    expRel ε v = some (expQ v) := by
  have hv : v ≠ 0 := by
    rintro rfl; simp [normSq] at h; linarith
  simp [expRel, h, rdiv, sqrt_normSq_ne hv, expQ]

theorem expRel_small {ε : ℝ} {v : V3} (h : normSq v * normSq v ≤ ε) :
    expRel ε v =
      some (Quat.ofVec (1 - normSq v / 8) ((1 / 2 + normSq v / 48) • v)) := by
  simp [expRel, not_lt.mpr h]

theorem expRel_zero {ε : ℝ} (hε : 0 ≤ ε) : expRel ε 0 = some Quat.one := by
  rw [expRel_small (by simpa [normSq] using hε)]
  simp [Quat.ofVec, Quat.one, normSq]

theorem ofVec_normSq (w : ℝ) (v : V3) :
    (Quat.ofVec w v).w ^ 2 + (Quat.ofVec w v).x ^ 2 + (Quat.ofVec w v).y ^ 2
      + (Quat.ofVec w v).z ^ 2 = w ^ 2 + normSq v := by
  simp [Quat.ofVec, normSq]; ring

theorem toMatrix_ofVec (w s : ℝ) (v : V3) :
    (Quat.ofVec w (s • v)).toMatrix =
      1 + (2 * w * s) • crossMatrix v + (2 * s * s) • (crossMatrix v * crossMatrix v) := by
  mat3 [Quat.ofVec, Quat.toMatrix, crossMatrix]

theorem expQ_isUnit {v : V3} (h : v ≠ 0) : (expQ v).IsUnit := by
  have hs := sqrt_normSq_ne h
  unfold Quat.IsUnit expQ
  rw [ofVec_normSq, normSq_smul]
  have e := sqrt_normSq_sq v
  have := Real.sin_sq_add_cos_sq (√(normSq v) / 2)
  generalize √(normSq v) = θ at *
  rw [← e]
  field_simp
  linarith

theorem expQ_toMatrix {v : V3} (h : v ≠ 0) : (expQ v).toMatrix = rodr v := by
  have hs := sqrt_normSq_ne h
  have e := sqrt_normSq_sq v
  unfold expQ rodr
  rw [toMatrix_ofVec]
  have s2 : Real.sin √(normSq v) = 2 * Real.sin (√(normSq v) / 2) * Real.cos (√(normSq v) / 2) := by
    rw [← Real.sin_two_mul]; ring_nf
  have c2 : 1 - Real.cos √(normSq v) = 2 * Real.sin (√(normSq v) / 2) ^ 2 := by
    have := Real.cos_sq_add_sin_sq (√(normSq v) / 2)
    have h2 : Real.cos √(normSq v) = 2 * Real.cos (√(normSq v) / 2) ^ 2 - 1 := by
      rw [← Real.cos_two_mul]; ring_nf
    linarith
  rw [s2, c2]
  congr 1
  · congr 2; field_simp
  · congr 1
    generalize √(normSq v) = θ at *
    rw [← e]
    field_simp

theorem rodr_eq_exp {v : V3} (h : v ≠ 0) : rodr v = NormedSpace.exp (hat v) := by
  rw [hat_eq, exp_cross h]; rfl

theorem rodr_isRotation {v : V3} (h : v ≠ 0) : IsRotation (rodr v) := by
  rw [← expQ_toMatrix h]; exact Quat.toMatrix_isRotation (expQ_isUnit h)

theorem rodr_zero : rodr 0 = 1 := by
  unfold rodr; rw [crossMatrix_zero]; simp

theorem cross_sq_transpose (v : V3) :
    (crossMatrix v * crossMatrix v)ᵀ = crossMatrix v * crossMatrix v := by
  rw [transpose_mul, crossMatrix_transpose]; simp

theorem axial_rodr (v : V3) :
    axial (rodr v) = (Real.sin √(normSq v) / √(normSq v)) • v := by
  have : (1 / 2 : ℝ) • (rodr v - (rodr v)ᵀ) =
      crossMatrix ((Real.sin √(normSq v) / √(normSq v)) • v) := by
    unfold rodr
    rw [transpose_add, transpose_add, transpose_one, transpose_smul, transpose_smul,
      cross_sq_transpose, crossMatrix_transpose, crossMatrix_smul]
    ext i j
    simp
    ring
  unfold axial
  rw [this, uncross_cross]

theorem cosAngle_rodr {v : V3} (h : v ≠ 0) : cosAngle (rodr v) = Real.cos √(normSq v) := by
  have hn := normSq_ne h
  have : normSq v = v 0 * v 0 + v 1 * v 1 + v 2 * v 2 := rfl
  unfold cosAngle rodr
  rw [crossMatrix_sq]
  simp [crossMatrix, outer]
  field_simp
  rw [this]
  ring

/-- The rotation angle computed by the code is the angle of the rotation vector. -/
theorem arccos_cosAngle_rodr {v : V3} (h : v ≠ 0) (hπ : √(normSq v) ≤ Real.pi) :
    Real.arccos (cosAngle (rodr v)) = √(normSq v) := by
  rw [cosAngle_rodr h, Real.arccos_cos (Real.sqrt_nonneg _) hπ]

/-- Main branch of LogMap on a matrix whose trace is in range. -/
theorem logMat_range {ε : ℝ} {R : M3} (hR : -1 ≤ cosAngle R ∧ cosAngle R ≤ 1) :
    logMat ε R =
      if Real.arccos (cosAngle R) * Real.arccos (cosAngle R) > ε then
        (rdiv (Real.arccos (cosAngle R)) (Real.sin (Real.arccos (cosAngle R)))).map
          fun k => k • axial R
      else some (axial R) := by
  have hr : racos ((R 0 0 + R 1 1 + R 2 2 - 1) / 2) = some (Real.arccos (cosAngle R)) := by
    change racos (cosAngle R) = _
    unfold racos; rw [if_pos hR]
  have key : ∀ k : ℝ, uncrossMatrix ((k / 2) • (R - Rᵀ)) = k • axial R := by
    intro k
    vec3 [axial, uncrossMatrix]
  unfold logMat logMatWith
  rw [hr]
  simp only []
  split
  · unfold rdiv
    by_cases hs : Real.sin (Real.arccos (cosAngle R)) = 0
    · simp [hs]
    · rw [if_neg hs, if_neg (by simpa using hs)]
      simp only [Option.bind_eq_bind, Option.bind_some, Option.map_some, Option.some.injEq]
      rw [← key]
      congr 2
      field_simp
  · rfl

theorem logMat_rot {ε : ℝ} {R : M3} (hR : IsRotation R) :
    logMat ε R =
      if Real.arccos (cosAngle R) * Real.arccos (cosAngle R) > ε then
        (rdiv (Real.arccos (cosAngle R)) (Real.sin (Real.arccos (cosAngle R)))).map
          fun k => k • axial R
      else some (axial R) := logMat_range hR.cosAngle_le

theorem logMat_rodr {ε : ℝ} {v : V3} (hv : v ≠ 0) (hπ : √(normSq v) < Real.pi)
    (hε : normSq v > ε) : logMat ε (rodr v) = some v := by
  rw [logMat_rot (rodr_isRotation hv), arccos_cosAngle_rodr hv hπ.le, sqrt_normSq_sq, if_pos hε]
  have hs : Real.sin √(normSq v) ≠ 0 := by
    have := Real.sin_pos_of_pos_of_lt_pi (sqrt_normSq_pos hv) hπ
    exact this.ne'
  have hq := sqrt_normSq_ne hv
  unfold rdiv
  rw [if_neg hs, axial_rodr, Option.map_some, smul_smul]
  congr 1
  have : √(normSq v) / Real.sin √(normSq v) * (Real.sin √(normSq v) / √(normSq v)) = 1 := by
    field_simp
  rw [this, one_smul]

theorem normSq_log_sin {R : M3} (hR : IsRotation R) :
    normSq (axial R) = Real.sin (Real.arccos (cosAngle R)) ^ 2 := by
  rw [hR.normSq_axial, Real.sin_arccos, Real.sq_sqrt]
  nlinarith [hR.cosAngle_le]

/-- `exp` undoes `log`, as rotation matrices, for rotation angles in `(√ε, π)`. -/
theorem rodr_log {ε : ℝ} {R : M3} (hR : IsRotation R) (hε : 0 < ε)
    (h1 : Real.arccos (cosAngle R) * Real.arccos (cosAngle R) > ε)
    (h2 : cosAngle R ≠ -1) :
    ∃ v : V3, logMat ε R = some v ∧ v ≠ 0 ∧ √(normSq v) = Real.arccos (cosAngle R) ∧ rodr v = R := by
  set α := Real.arccos (cosAngle R) with hα
  have hα0 : 0 ≤ α := Real.arccos_nonneg _
  have hαne : α ≠ 0 := by
    intro e; rw [e] at h1; linarith
  have hαpi : α < Real.pi := by
    apply lt_of_le_of_ne (Real.arccos_le_pi _)
    intro e
    have := Real.cos_arccos hR.cosAngle_le.1 hR.cosAngle_le.2
    rw [e, Real.cos_pi] at this
    exact h2 this.symm
  have hs : Real.sin α ≠ 0 :=
    (Real.sin_pos_of_pos_of_lt_pi (lt_of_le_of_ne hα0 hαne.symm) hαpi).ne'
  have hcos : Real.cos α = cosAngle R := Real.cos_arccos hR.cosAngle_le.1 hR.cosAngle_le.2
  have hn : normSq ((α / Real.sin α) • axial R) = α * α := by
    rw [normSq_smul, normSq_log_sin hR, ← hα]; field_simp
  have hsq : √(normSq ((α / Real.sin α) • axial R)) = α := by
    rw [hn, Real.sqrt_mul_self hα0]
  refine ⟨(α / Real.sin α) • axial R, ?_, ?_, hsq, ?_⟩
  · rw [logMat_rot hR, ← hα, if_pos h1]; simp [rdiv, hs]
  · intro e
    rw [e] at hn; simp [normSq] at hn; exact hαne hn
  · have hro := hR.rodrigues
    unfold rodr
    rw [hsq, hn, crossMatrix_smul, smul_mul_smul_comm, ← hro, hcos]
    have hc : (1 - cosAngle R) * (1 + cosAngle R) = Real.sin α ^ 2 := by
      rw [← hcos]; nlinarith [Real.sin_sq_add_cos_sq α]
    have k1 : Real.sin α / α * (α / Real.sin α) = 1 := by field_simp
    have k2 : (1 - cosAngle R) / (α * α) * ((α / Real.sin α * (α / Real.sin α))) * (1 + cosAngle R) = 1 := by
      field_simp
      linarith
    rw [smul_smul, smul_smul, smul_smul, k1, k2]
    simp

/-- Half turn: the code divides by `sin π = 0`. -/
theorem logMat_halfTurn {ε : ℝ} (hε : ε < Real.pi * Real.pi) {R : M3} (hR : IsRotation R)
    (h : cosAngle R = -1) : logMat ε R = none := by
  rw [logMat_rot hR, h, Real.arccos_neg_one, if_pos hε]
  simp [rdiv]

end WG
