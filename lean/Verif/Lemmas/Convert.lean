import Verif.Lemmas.ExpLog

/-! Conversions between rotation representations. -/

namespace WG
open Matrix Spec

/-- The quaternion computed from the trace (helper). -/
noncomputable def traceQuat (m : M3) : Quat :=
  let T := √(m 0 0 + m 1 1 + m 2 2 + 1)
  ⟨1 / 2 * T, (m 2 1 - m 1 2) * (1 / 2 / T), (m 0 2 - m 2 0) * (1 / 2 / T),
    (m 1 0 - m 0 1) * (1 / 2 / T)⟩

theorem axial_entries (m : M3) : axial m =
    ![(m 2 1 - m 1 2) / 2, (m 0 2 - m 2 0) / 2, (m 1 0 - m 0 1) / 2] := by
  vec3 [axial, uncrossMatrix]

theorem traceQuat_spec {R : M3} (hR : IsRotation R) (ht : 0 < R 0 0 + R 1 1 + R 2 2 + 1) :
    (traceQuat R).IsUnit ∧ (traceQuat R).toMatrix = R := by
  have hT : 0 < √(R 0 0 + R 1 1 + R 2 2 + 1) := Real.sqrt_pos.mpr ht
  have hsq := Real.sq_sqrt ht.le
  have hc : R 0 0 + R 1 1 + R 2 2 + 1 = 2 * (1 + cosAngle R) := by unfold cosAngle; ring
  have e : traceQuat R = Quat.ofVec (1 / 2 * √(R 0 0 + R 1 1 + R 2 2 + 1))
      ((1 / √(R 0 0 + R 1 1 + R 2 2 + 1)) • axial R) := by
    rw [axial_entries]
    unfold traceQuat
    ext <;> simp [Quat.ofVec] <;> ring
  have hn := hR.normSq_axial
  have hro := hR.rodrigues
  constructor
  · unfold Quat.IsUnit
    rw [e, ofVec_normSq, normSq_smul, hn]
    rw [hc] at hsq hT ⊢
    generalize √(2 * (1 + cosAngle R)) = T at *
    have hT' : T ≠ 0 := hT.ne'
    field_simp
    have : cosAngle R = T ^ 2 / 2 - 1 := by linarith
    rw [this]; ring
  · rw [e, toMatrix_ofVec, ← hro, smul_smul]
    rw [hc] at hsq hT ⊢
    generalize √(2 * (1 + cosAngle R)) = T at *
    have hT' : T ≠ 0 := hT.ne'
    have k1 : 2 * (1 / 2 * T) * (1 / T) = 1 := by field_simp
    have k2 : 2 * (1 / T) * (1 / T) * (1 + cosAngle R) = 1 := by
      field_simp; linarith
    rw [k1, k2]
    simp

/-- Half turns about the coordinate axes (helper). -/
def flipX : M3 := !![1, 0, 0; 0, -1, 0; 0, 0, -1]
def flipY : M3 := !![-1, 0, 0; 0, 1, 0; 0, 0, -1]
def flipZ : M3 := !![-1, 0, 0; 0, -1, 0; 0, 0, 1]
def qX : Quat := ⟨0, 1, 0, 0⟩
def qY : Quat := ⟨0, 0, 1, 0⟩
def qZ : Quat := ⟨0, 0, 0, 1⟩

theorem qX_spec : qX.IsUnit ∧ qX.toMatrix = flipX := by
  constructor
  · simp [qX, Quat.IsUnit]
  · ext i j; fin_cases i <;> fin_cases j <;> simp [qX, flipX, Quat.toMatrix] <;> norm_num
theorem qY_spec : qY.IsUnit ∧ qY.toMatrix = flipY := by
  constructor
  · simp [qY, Quat.IsUnit]
  · ext i j; fin_cases i <;> fin_cases j <;> simp [qY, flipY, Quat.toMatrix] <;> norm_num
theorem qZ_spec : qZ.IsUnit ∧ qZ.toMatrix = flipZ := by
  constructor
  · simp [qZ, Quat.IsUnit]
  · ext i j; fin_cases i <;> fin_cases j <;> simp [qZ, flipZ, Quat.toMatrix] <;> norm_num

/-- If the flipped matrix has positive `trace + 1`, its trace quaternion times the flip
represents `R`. -/
theorem flip_spec {R F : M3} {f : Quat} (hR : IsRotation R) (hf : f.IsUnit ∧ f.toMatrix = F)
    (hFF : F * F = 1) (ht : 0 < (R * F) 0 0 + (R * F) 1 1 + (R * F) 2 2 + 1) :
    ((traceQuat (R * F)).mul f).IsUnit ∧ ((traceQuat (R * F)).mul f).toMatrix = R := by
  have hF : IsRotation F := hf.2 ▸ Quat.toMatrix_isRotation hf.1
  obtain ⟨h1, h2⟩ := traceQuat_spec (hR.mul hF) ht
  refine ⟨Quat.mul_isUnit h1 hf.1, ?_⟩
  rw [Quat.toMatrix_mul h1 hf.1, h2, hf.2, Matrix.mul_assoc, hFF, Matrix.mul_one]

/-- The other three pivots (helpers). -/
noncomputable def pivX (m : M3) : Quat :=
  let T := √(m 0 0 - m 1 1 - m 2 2 + 1)
  ⟨(m 2 1 - m 1 2) * (1 / 2 / T), 1 / 2 * T, (m 1 0 + m 0 1) * (1 / 2 / T),
    (m 2 0 + m 0 2) * (1 / 2 / T)⟩
noncomputable def pivY (m : M3) : Quat :=
  let T := √(m 1 1 - m 2 2 - m 0 0 + 1)
  ⟨(m 0 2 - m 2 0) * (1 / 2 / T), (m 0 1 + m 1 0) * (1 / 2 / T), 1 / 2 * T,
    (m 2 1 + m 1 2) * (1 / 2 / T)⟩
noncomputable def pivZ (m : M3) : Quat :=
  let T := √(m 2 2 - m 0 0 - m 1 1 + 1)
  ⟨(m 1 0 - m 0 1) * (1 / 2 / T), (m 0 2 + m 2 0) * (1 / 2 / T), (m 1 2 + m 2 1) * (1 / 2 / T),
    1 / 2 * T⟩

theorem pivX_eq (m : M3) : pivX m = (traceQuat (m * flipX)).mul qX := by
  have e : m 0 0 - m 1 1 - m 2 2 + 1 = m 0 0 + -m 1 1 + -m 2 2 + 1 := by ring
  ext <;> simp only [pivX, e] <;>
    simp [traceQuat, Quat.mul, qX, flipX, Matrix.mul_apply, Fin.sum_univ_three] <;> ring
theorem pivY_eq (m : M3) : pivY m = (traceQuat (m * flipY)).mul qY := by
  have e : m 1 1 - m 2 2 - m 0 0 + 1 = -m 0 0 + m 1 1 + -m 2 2 + 1 := by ring
  ext <;> simp only [pivY, e] <;>
    simp [traceQuat, Quat.mul, qY, flipY, Matrix.mul_apply, Fin.sum_univ_three] <;> ring
theorem pivZ_eq (m : M3) : pivZ m = (traceQuat (m * flipZ)).mul qZ := by
  have e : m 2 2 - m 0 0 - m 1 1 + 1 = -m 0 0 + -m 1 1 + m 2 2 + 1 := by ring
  ext <;> simp only [pivZ, e] <;>
    simp [traceQuat, Quat.mul, qZ, flipZ, Matrix.mul_apply, Fin.sum_univ_three] <;> ring

theorem pivX_spec {R : M3} (hR : IsRotation R) (h : 0 < R 0 0 - R 1 1 - R 2 2 + 1) :
    (pivX R).IsUnit ∧ (pivX R).toMatrix = R := by
  rw [pivX_eq]
  refine flip_spec hR qX_spec ?_ ?_
  · ext i j; fin_cases i <;> fin_cases j <;> simp [flipX, Matrix.mul_apply, Fin.sum_univ_three]
  · simp [flipX, Matrix.mul_apply, Fin.sum_univ_three]; linarith
theorem pivY_spec {R : M3} (hR : IsRotation R) (h : 0 < R 1 1 - R 2 2 - R 0 0 + 1) :
    (pivY R).IsUnit ∧ (pivY R).toMatrix = R := by
  rw [pivY_eq]
  refine flip_spec hR qY_spec ?_ ?_
  · ext i j; fin_cases i <;> fin_cases j <;> simp [flipY, Matrix.mul_apply, Fin.sum_univ_three]
  · simp [flipY, Matrix.mul_apply, Fin.sum_univ_three]; linarith
theorem pivZ_spec {R : M3} (hR : IsRotation R) (h : 0 < R 2 2 - R 0 0 - R 1 1 + 1) :
    (pivZ R).IsUnit ∧ (pivZ R).toMatrix = R := by
  rw [pivZ_eq]
  refine flip_spec hR qZ_spec ?_ ?_
  · ext i j; fin_cases i <;> fin_cases j <;> simp [flipZ, Matrix.mul_apply, Fin.sum_univ_three]
  · simp [flipZ, Matrix.mul_apply, Fin.sum_univ_three]; linarith

/-- Which pivot the conversion uses; every matrix (rotation or not) falls in one of the cases and
the pivot used is at least one. -/
theorem ofMatrix_cases1 (R : M3) :
    (1 ≤ R 0 0 + R 1 1 + R 2 2 + 1 ∧ Quat.ofMatrix R = some (traceQuat R)) ∨
    (1 ≤ R 0 0 - R 1 1 - R 2 2 + 1 ∧ Quat.ofMatrix R = some (pivX R)) ∨
    (1 ≤ R 1 1 - R 2 2 - R 0 0 + 1 ∧ Quat.ofMatrix R = some (pivY R)) ∨
    (1 ≤ R 2 2 - R 0 0 - R 1 1 + 1 ∧ Quat.ofMatrix R = some (pivZ R)) := by
  have step : ∀ t : ℝ, 0 < t → ∀ f : ℝ → ℝ → Quat,
      (do let T ← rsqrt t; let h ← rdiv (1 / 2) T; some (f T h) : Option Quat)
        = some (f √t (1 / 2 / √t)) := by
    intro t ht f
    have : √t ≠ 0 := (Real.sqrt_pos.mpr ht).ne'
    simp [rsqrt, ht.le, rdiv, this]
  unfold Quat.ofMatrix
  simp only []
  by_cases h1 : R 0 0 + R 1 1 + R 2 2 > 0
  · rw [if_pos h1]
    have hx : 1 ≤ R 0 0 + R 1 1 + R 2 2 + 1 := by linarith
    exact Or.inl ⟨hx, step _ (by linarith) (fun T h => ⟨1 / 2 * T, (R 2 1 - R 1 2) * h, (R 0 2 - R 2 0) * h,
      (R 1 0 - R 0 1) * h⟩)⟩
  rw [if_neg h1]
  by_cases h2 : R 2 2 > (if R 1 1 > R 0 0 then R 1 1 else R 0 0)
  · rw [if_pos h2]
    have hx : 1 ≤ R 2 2 - R 0 0 - R 1 1 + 1 := by
      split_ifs at h2 <;> linarith
    exact Or.inr (Or.inr (Or.inr ⟨hx, step _ (by linarith) (fun T h => ⟨(R 1 0 - R 0 1) * h,
      (R 0 2 + R 2 0) * h, (R 1 2 + R 2 1) * h, 1 / 2 * T⟩)⟩))
  rw [if_neg h2]
  by_cases h3 : R 1 1 > R 0 0
  · rw [if_pos h3]
    rw [if_pos h3] at h2
    have hx : 1 ≤ R 1 1 - R 2 2 - R 0 0 + 1 := by linarith
    exact Or.inr (Or.inr (Or.inl ⟨hx, step _ (by linarith) (fun T h => ⟨(R 0 2 - R 2 0) * h,
      (R 0 1 + R 1 0) * h, 1 / 2 * T, (R 2 1 + R 1 2) * h⟩)⟩))
  · rw [if_neg h3]
    rw [if_neg h3] at h2
    have hx : 1 ≤ R 0 0 - R 1 1 - R 2 2 + 1 := by linarith
    exact Or.inr (Or.inl ⟨hx, step _ (by linarith) (fun T h => ⟨(R 2 1 - R 1 2) * h, 1 / 2 * T,
      (R 1 0 + R 0 1) * h, (R 2 0 + R 0 2) * h⟩)⟩)

theorem ofMatrix_cases (R : M3) :
    (0 < R 0 0 + R 1 1 + R 2 2 + 1 ∧ Quat.ofMatrix R = some (traceQuat R)) ∨
    (0 < R 0 0 - R 1 1 - R 2 2 + 1 ∧ Quat.ofMatrix R = some (pivX R)) ∨
    (0 < R 1 1 - R 2 2 - R 0 0 + 1 ∧ Quat.ofMatrix R = some (pivY R)) ∨
    (0 < R 2 2 - R 0 0 - R 1 1 + 1 ∧ Quat.ofMatrix R = some (pivZ R)) := by
  have p : ∀ {x : ℝ}, 1 ≤ x → 0 < x := fun h => by linarith
  rcases ofMatrix_cases1 R with h | h | h | h
  · exact Or.inl ⟨p h.1, h.2⟩
  · exact Or.inr (Or.inl ⟨p h.1, h.2⟩)
  · exact Or.inr (Or.inr (Or.inl ⟨p h.1, h.2⟩))
  · exact Or.inr (Or.inr (Or.inr ⟨p h.1, h.2⟩))

theorem ofMatrix_spec {R : M3} (hR : IsRotation R) :
    ∃ q, Quat.ofMatrix R = some q ∧ q.IsUnit ∧ q.toMatrix = R := by
  rcases ofMatrix_cases R with ⟨h, e⟩ | ⟨h, e⟩ | ⟨h, e⟩ | ⟨h, e⟩
  · exact ⟨_, e, traceQuat_spec hR h⟩
  · exact ⟨_, e, pivX_spec hR h⟩
  · exact ⟨_, e, pivY_spec hR h⟩
  · exact ⟨_, e, pivZ_spec hR h⟩

/-- Valid angle-axis storage: a unit axis. -/
def AngleAxis.IsUnit (a : AngleAxis) : Prop := normSq a.axis = 1

theorem AngleAxis.toMatrix_eq {a : AngleAxis} (h : a.IsUnit) :
    a.toMatrix = 1 + Real.sin a.angle • crossMatrix a.axis +
      (1 - Real.cos a.angle) • (crossMatrix a.axis * crossMatrix a.axis) := by
  unfold IsUnit at h
  rw [crossMatrix_sq, h]
  mat3 [toMatrix, crossMatrix, outer]

/-- The quaternion of an angle-axis (helper). -/
noncomputable def AngleAxis.quat (a : AngleAxis) : Quat :=
  Quat.ofVec (Real.cos (a.angle / 2)) (Real.sin (a.angle / 2) • a.axis)

theorem AngleAxis.quat_spec {a : AngleAxis} (h : a.IsUnit) :
    a.quat.IsUnit ∧ a.quat.toMatrix = a.toMatrix := by
  constructor
  · unfold Quat.IsUnit quat
    rw [ofVec_normSq, normSq_smul, h]
    nlinarith [Real.sin_sq_add_cos_sq (a.angle / 2)]
  · rw [toMatrix_eq h, quat, toMatrix_ofVec]
    have s2 : Real.sin a.angle = 2 * Real.sin (a.angle / 2) * Real.cos (a.angle / 2) := by
      rw [← Real.sin_two_mul]; ring_nf
    have c2 : Real.cos a.angle = 2 * Real.cos (a.angle / 2) ^ 2 - 1 := by
      rw [← Real.cos_two_mul]; ring_nf
    rw [s2, c2]
    congr 3
    · ring
    · nlinarith [Real.sin_sq_add_cos_sq (a.angle / 2)]

theorem AngleAxis.toMatrix_isRotation {a : AngleAxis} (h : a.IsUnit) : IsRotation a.toMatrix := by
  rw [← (quat_spec h).2]; exact Quat.toMatrix_isRotation (quat_spec h).1

theorem AngleAxis.inverse_toMatrix (a : AngleAxis) : a.inverse.toMatrix = a.toMatrixᵀ := by
  mat3 [toMatrix, inverse]

theorem AngleAxis.ofQuat_spec {q : Quat} (h : q.IsUnit) :
    (ofQuat q).IsUnit ∧ (ofQuat q).toMatrix = q.toMatrix := by
  unfold Quat.IsUnit at h
  have hv : normSq q.vec = 1 - q.w ^ 2 := by simp [Quat.vec, normSq]; linarith
  by_cases hn : norm3 q.vec = 0
  · have hz : q.vec = 0 := by
      by_contra hne
      exact sqrt_normSq_ne hne hn
    have hx : q.x = 0 := by simpa [Quat.vec] using congrFun hz 0
    have hy : q.y = 0 := by simpa [Quat.vec] using congrFun hz 1
    have hzz : q.z = 0 := by simpa [Quat.vec] using congrFun hz 2
    have e : ofQuat q = ⟨0, ![1, 0, 0]⟩ := by unfold ofQuat; simp [hn]
    rw [e]
    constructor
    · simp [IsUnit, normSq]
    · mat3 [toMatrix, Quat.toMatrix, hx, hy, hzz]
  · have hn2 : norm3 q.vec * norm3 q.vec = 1 - q.w ^ 2 := by
      unfold norm3; rw [sqrt_normSq_sq, hv]
    obtain ⟨σ, hσ, hσw, e⟩ : ∃ σ : ℝ, σ * σ = 1 ∧ σ * |q.w| = q.w ∧ ofQuat q =
        ⟨2 * atan2Q (norm3 q.vec) |q.w|, (σ / norm3 q.vec) • q.vec⟩ := by
      by_cases hw : q.w < 0
      · refine ⟨-1, by norm_num, by rw [abs_of_neg hw]; ring, ?_⟩
        unfold ofQuat
        simp only [ne_eq, hn, not_false_eq_true, if_true, hw]
        congr 1; funext i; simp; ring
      · refine ⟨1, by norm_num, by rw [abs_of_nonneg (not_lt.mp hw)]; ring, ?_⟩
        unfold ofQuat
        simp only [ne_eq, hn, not_false_eq_true, if_true, hw, if_false]
        congr 1; funext i; simp; ring
    have hat : atan2Q (norm3 q.vec) |q.w| = Real.arccos |q.w| := by
      unfold atan2Q
      rw [show |q.w| * |q.w| + norm3 q.vec * norm3 q.vec = 1 by rw [hn2, abs_mul_abs_self]; ring]
      simp
    have hw1 : |q.w| ≤ 1 := by
      rw [abs_le]; constructor <;> nlinarith [mul_self_nonneg (norm3 q.vec)]
    have hcos : Real.cos (Real.arccos |q.w|) = |q.w| :=
      Real.cos_arccos (by linarith [abs_nonneg q.w]) hw1
    have hsin : Real.sin (Real.arccos |q.w|) = norm3 q.vec := by
      rw [Real.sin_arccos, sq_abs, ← hn2]; exact Real.sqrt_mul_self (Real.sqrt_nonneg _)
    have hu : (ofQuat q).IsUnit := by
      unfold IsUnit
      rw [e]
      simp only [normSq_smul, hv, ← hn2]
      field_simp
      nlinarith [hσ]
    refine ⟨hu, ?_⟩
    rw [toMatrix_eq hu, e]
    simp only []
    rw [hat, Real.sin_two_mul, Real.cos_two_mul, hcos, hsin, crossMatrix_smul, smul_smul,
      smul_mul_smul_comm, smul_smul]
    have := toMatrix_ofVec q.w 1 q.vec
    rw [one_smul] at this
    have eq : Quat.ofVec q.w q.vec = q := by ext <;> simp [Quat.ofVec, Quat.vec]
    rw [eq] at this
    rw [this]
    have k1 : 2 * norm3 q.vec * |q.w| * (σ / norm3 q.vec) = 2 * q.w * 1 := by
      field_simp; linarith
    have k2 : (1 - (2 * |q.w| ^ 2 - 1)) * (σ / norm3 q.vec * (σ / norm3 q.vec)) = 2 * 1 * 1 := by
      rw [sq_abs]
      have : 1 - (2 * q.w ^ 2 - 1) = 2 * (norm3 q.vec * norm3 q.vec) := by rw [hn2]; ring
      rw [this]
      field_simp
      linarith
    rw [k1, k2]

end WG
