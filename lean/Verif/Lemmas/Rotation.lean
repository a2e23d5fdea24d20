import Verif.Model.Quat
import Verif.Lemmas.Linear
import Mathlib.LinearAlgebra.Matrix.NonsingularInverse

/-! Algebra of rotations: quaternions, matrices, the axis of a rotation. -/

namespace WG
open Matrix Spec

/-- The model-independent notion of a valid stored quaternion. -/
def Quat.IsUnit (q : Quat) : Prop := q.w ^ 2 + q.x ^ 2 + q.y ^ 2 + q.z ^ 2 = 1

/-- Homogeneous version of `toMatrix` (helper). -/
def Quat.hom (q : Quat) : M3 :=
  !![q.w * q.w + q.x * q.x - q.y * q.y - q.z * q.z, 2 * q.y * q.x - 2 * q.z * q.w,
        2 * q.z * q.x + 2 * q.y * q.w;
     2 * q.y * q.x + 2 * q.z * q.w, q.w * q.w - q.x * q.x + q.y * q.y - q.z * q.z,
        2 * q.z * q.y - 2 * q.x * q.w;
     2 * q.z * q.x - 2 * q.y * q.w, 2 * q.z * q.y + 2 * q.x * q.w,
        q.w * q.w - q.x * q.x - q.y * q.y + q.z * q.z]

theorem Quat.toMatrix_eq_hom {q : Quat} (h : q.IsUnit) : q.toMatrix = q.hom := by
  unfold IsUnit at h
  ext i j; fin_cases i <;> fin_cases j <;> simp [toMatrix, hom] <;> linarith

theorem Quat.hom_mul (a b : Quat) : (a.mul b).hom = a.hom * b.hom := by
  mat3 [hom, mul]

theorem Quat.mul_isUnit {a b : Quat} (ha : a.IsUnit) (hb : b.IsUnit) : (a.mul b).IsUnit := by
  unfold IsUnit at *
  simp only [mul]
  linear_combination (b.w ^ 2 + b.x ^ 2 + b.y ^ 2 + b.z ^ 2) * ha + hb

theorem Quat.conj_isUnit {a : Quat} (ha : a.IsUnit) : a.conj.IsUnit := by
  unfold IsUnit at *; simp only [conj]; linarith

theorem Quat.toMatrix_mul {a b : Quat} (ha : a.IsUnit) (hb : b.IsUnit) :
    (a.mul b).toMatrix = a.toMatrix * b.toMatrix := by
  rw [toMatrix_eq_hom (mul_isUnit ha hb), toMatrix_eq_hom ha, toMatrix_eq_hom hb, hom_mul]

theorem Quat.toMatrix_conj (a : Quat) : a.conj.toMatrix = a.toMatrixᵀ := by
  mat3 [toMatrix, conj]

theorem Quat.mul_conj {a : Quat} (ha : a.IsUnit) : a.mul a.conj = one := by
  unfold IsUnit at ha
  ext <;> simp [mul, conj, one] <;> linarith

theorem Quat.conj_mul {a : Quat} (ha : a.IsUnit) : a.conj.mul a = one := by
  unfold IsUnit at ha
  ext <;> simp [mul, conj, one] <;> linarith

theorem Quat.mul_assoc (a b c : Quat) : (a.mul b).mul c = a.mul (b.mul c) := by
  ext <;> simp [mul] <;> ring

theorem Quat.one_mul (a : Quat) : one.mul a = a := by ext <;> simp [mul, one]
theorem Quat.mul_one (a : Quat) : a.mul one = a := by ext <;> simp [mul, one]

theorem Quat.toMatrix_one : one.toMatrix = 1 := by mat3 [toMatrix, one]

theorem Quat.rotate_eq (q : Quat) (v : V3) : q.rotate v = q.toMatrix *ᵥ v := by
  vec3 [rotate, toMatrix, cross, vec, Matrix.vecHead, Matrix.vecTail]

theorem Quat.toMatrix_isRotation {q : Quat} (h : q.IsUnit) : IsRotation q.toMatrix := by
  constructor
  · rw [← toMatrix_conj, ← toMatrix_mul h (conj_isUnit h), mul_conj h, toMatrix_one]
  · rw [toMatrix_eq_hom h]
    unfold IsUnit at h
    have : q.hom.det = (q.w ^ 2 + q.x ^ 2 + q.y ^ 2 + q.z ^ 2) ^ 3 := by
      simp [det_fin_three, hom]; ring
    rw [this, h]; norm_num

theorem Spec.IsRotation.one : IsRotation (1 : M3) := by simp [IsRotation]

theorem Spec.IsRotation.mul {A B : M3} (ha : IsRotation A) (hb : IsRotation B) : IsRotation (A * B) := by
  refine ⟨?_, by rw [det_mul, ha.2, hb.2]; norm_num⟩
  rw [transpose_mul, Matrix.mul_assoc, ← Matrix.mul_assoc B, hb.1, Matrix.one_mul, ha.1]

theorem Spec.IsRotation.transpose_mul_self {A : M3} (ha : IsRotation A) : Aᵀ * A = 1 :=
  mul_eq_one_comm.mp ha.1

theorem Spec.IsRotation.transpose {A : M3} (ha : IsRotation A) : IsRotation Aᵀ := by
  refine ⟨?_, by rw [det_transpose, ha.2]⟩
  rw [transpose_transpose]; exact ha.transpose_mul_self

theorem Spec.IsRotation.adjugate_eq {A : M3} (ha : IsRotation A) : adjugate A = Aᵀ := by
  have h1 : A * adjugate A = 1 := by rw [mul_adjugate, ha.2, one_smul]
  calc adjugate A = (Aᵀ * A) * adjugate A := by rw [ha.transpose_mul_self, Matrix.one_mul]
    _ = Aᵀ := by rw [Matrix.mul_assoc, h1, Matrix.mul_one]

/-- Half of the skew part: `sin θ · axis`. -/
noncomputable def axial (m : M3) : V3 := uncrossMatrix ((1 / 2 : ℝ) • (m - mᵀ))

/-- `cos` of the rotation angle. -/
noncomputable def cosAngle (m : M3) : ℝ := (m 0 0 + m 1 1 + m 2 2 - 1) / 2

theorem adjugate_three (A : M3) : adjugate A =
    A * A - (A 0 0 + A 1 1 + A 2 2) • A +
      ((A 0 0 * A 1 1 - A 0 1 * A 1 0) + (A 0 0 * A 2 2 - A 0 2 * A 2 0) +
        (A 1 1 * A 2 2 - A 1 2 * A 2 1)) • (1 : M3) := by
  rw [adjugate_fin_three]
  mat3 []

theorem crossMatrix_axial (m : M3) : crossMatrix (axial m) = (1 / 2 : ℝ) • (m - mᵀ) := by
  apply cross_uncross
  simp [Matrix.transpose_sub, smul_sub]

theorem Spec.IsRotation.sq {R : M3} (h : IsRotation R) :
    R * R = Rᵀ + (R 0 0 + R 1 1 + R 2 2) • R - (R 0 0 + R 1 1 + R 2 2) • (1 : M3) := by
  have e := h.adjugate_eq
  rw [adjugate_three] at e
  have tr : ((R 0 0 * R 1 1 - R 0 1 * R 1 0) + (R 0 0 * R 2 2 - R 0 2 * R 2 0) +
        (R 1 1 * R 2 2 - R 1 2 * R 2 1)) = R 0 0 + R 1 1 + R 2 2 := by
    have e' := h.adjugate_eq
    rw [adjugate_fin_three] at e'
    have a := congrFun (congrFun e' 0) 0
    have b := congrFun (congrFun e' 1) 1
    have c := congrFun (congrFun e' 2) 2
    simp at a b c
    linarith
  rw [tr] at e
  rw [← e]; abel

theorem Spec.IsRotation.rodrigues {R : M3} (h : IsRotation R) :
    (1 + cosAngle R) • (R - 1 - crossMatrix (axial R)) =
      crossMatrix (axial R) * crossMatrix (axial R) := by
  have s1 := h.sq
  have s2 := h.transpose.sq
  have o1 := h.1
  have o2 := h.transpose_mul_self
  simp only [transpose_transpose, transpose_apply] at s2
  rw [crossMatrix_axial, smul_mul_smul_comm]
  have : (R - Rᵀ) * (R - Rᵀ) = R * R + Rᵀ * Rᵀ - R * Rᵀ - Rᵀ * R := by noncomm_ring
  rw [this, s1, s2, o1, o2, cosAngle]
  ext i j
  simp [Matrix.smul_apply]
  ring

theorem Spec.IsRotation.normSq_axial {R : M3} (h : IsRotation R) :
    normSq (axial R) = 1 - cosAngle R ^ 2 := by
  have e := h.rodrigues
  rw [crossMatrix_sq] at e
  have a := congrFun (congrFun e 0) 0
  have b := congrFun (congrFun e 1) 1
  have c := congrFun (congrFun e 2) 2
  simp [outer, crossMatrix] at a b c
  have tr : R 0 0 + R 1 1 + R 2 2 = 2 * cosAngle R + 1 := by unfold cosAngle; ring
  have n : normSq (axial R) = axial R 0 * axial R 0 + axial R 1 * axial R 1 + axial R 2 * axial R 2 := rfl
  linear_combination (1/2) * (a + b + c) - (1 + cosAngle R) / 2 * tr - 1 / 2 * n

theorem Spec.IsRotation.cosAngle_le {R : M3} (h : IsRotation R) : -1 ≤ cosAngle R ∧ cosAngle R ≤ 1 := by
  have := h.normSq_axial
  have := normSq_nonneg (axial R)
  constructor <;> nlinarith

end WG
