import Verif.Props.Manifold

/-!
# C11: what `isApprox` accepts on transforms
-/

namespace WG
open Matrix Spec

variable {ε : ℝ} {s : Memory} {e f : SExpr}

/-- Unless the rotation is a half-turn, its logarithm has coordinates bounded by its angle. -/
theorem logMat_within {D : M3} (hε : 0 < ε) (hD : IsRotation D) (hπ : angle D ≠ Real.pi) :
    ∃ v, logMat ε D = some v ∧ ∀ i, |v i| ≤ angle D := by
  by_cases hs : Real.arccos (cosAngle D) * Real.arccos (cosAngle D) > ε
  · obtain ⟨v, hv, -, hlen, -⟩ := rodr_log hD hε hs (angle_ne_pi hπ)
    refine ⟨v, hv, fun i => (abs_le_sqrt_normSq v i).trans ?_⟩
    rw [hlen, rotOfAngle]
  · refine ⟨axial D, by rw [logMat_rot hD, if_neg hs], fun i => (abs_le_sqrt_normSq _ i).trans ?_⟩
    rw [normSq_log_sin hD, rotOfAngle, Real.sqrt_sq_eq_abs]
    refine (abs_of_nonneg (Real.sin_nonneg_of_nonneg_of_le_pi (Real.arccos_nonneg _)
      (Real.arccos_le_pi _))).trans_le (Real.sin_le (Real.arccos_nonneg _))

/-- A logarithm with small coordinates comes from a small rotation, at every angle. -/
theorem logMat_near {D : M3} (hε : 0 < ε) (hε1 : ε ≤ 1) (hD : IsRotation D) {v : V3}
    (hv : logMat ε D = some v) {prec : ℝ} (hb : ∀ i, |v i| ≤ prec) :
    angle D ≤ Real.pi / 2 * √3 * prec := by
  have hp : 0 ≤ prec := (abs_nonneg _).trans (hb 0)
  have h3 : √(normSq v) ≤ √3 * prec := by
    rw [show √3 * prec = √(3 * prec ^ 2) by rw [Real.sqrt_mul (by norm_num), Real.sqrt_sq hp]]
    exact Real.sqrt_le_sqrt (normSq_le_of_abs hb)
  have hπ := Real.pi_gt_three
  have hq : 0 ≤ √3 * prec := by positivity
  rcases logMat_close hε hD hv hb with h | h
  · refine h.trans ?_
    rw [mul_assoc]
    nlinarith
  · have hs : ¬ Real.arccos (cosAngle D) * Real.arccos (cosAngle D) > ε := by
      rw [← rotOfAngle]; nlinarith
    rw [logMat_rot hD, if_neg hs] at hv
    cases hv
    have h0 : 0 ≤ angle D := Real.arccos_nonneg _
    have h1 : angle D ≤ 1 := by nlinarith
    rw [normSq_log_sin hD, Real.sqrt_sq_eq_abs, ← rotOfAngle] at h3
    have h4 := Real.mul_le_sin h0 (by linarith : angle D ≤ Real.pi / 2)
    have h5 : 2 / Real.pi * angle D ≤ √3 * prec := h4.trans ((le_abs_self _).trans h3)
    have h6 : angle D = Real.pi / 2 * (2 / Real.pi * angle D) := by field_simp
    rw [h6, mul_assoc (Real.pi / 2)]
    exact mul_le_mul_of_nonneg_left h5 (by positivity)

/-- **C11 (completeness).** Rotations whose relative angle is at most the precision compare as
approximately equal, at every angle except exactly half a turn. -/
theorem c11_rot_of_close (hε : 0 < ε) {X Y : M3} (he : Means ε s e (.rot X))
    (hf : Means ε s f (.rot Y)) (hπ : angle (X * Y⁻¹) ≠ Real.pi) {prec : ℝ}
    (h : angle (X * Y⁻¹) ≤ prec) : e.isApprox ε s prec f := by
  have hX := Means.rotation_valid hε he
  have hY := Means.rotation_valid hε hf
  obtain ⟨v, hv, hb⟩ := logMat_within hε (by rw [hY.inv_eq]; exact hX.mul hY.transpose) hπ
  exact (isApprox_rot hε he hf prec).mpr ⟨v, hv, fun i => (hb i).trans h⟩

/-- **C11 (partial).** `a.isApprox(b, prec)` bounds the relative angle by `(π/2)√3 · prec` with no
excluded region.  Missing: the constant, which cannot be 1 (`c11_angle_exceeds_prec`). -/
theorem c11_rot_near_partial (hε : 0 < ε) (hε1 : ε ≤ 1) {X Y : M3} (he : Means ε s e (.rot X))
    (hf : Means ε s f (.rot Y)) {prec : ℝ} (h : e.isApprox ε s prec f) :
    angle (X * Y⁻¹) ≤ Real.pi / 2 * √3 * prec := by
  have hX := Means.rotation_valid hε he
  have hY := Means.rotation_valid hε hf
  obtain ⟨v, hv, hb⟩ := (isApprox_rot hε he hf prec).mp h
  exact logMat_near hε hε1 (by rw [hY.inv_eq]; exact hX.mul hY.transpose) hv hb

/-- **C11 (partial).** The same for the orientations of rigid transforms. -/
theorem c11_rigid_near_partial (hε : 0 < ε) (hε1 : ε ≤ 1) {X Y : Rigid} (he : Means ε s e (.motion X))
    (hf : Means ε s f (.motion Y)) {prec : ℝ} (h : e.isApprox ε s prec f) :
    angle (X.R * Y.R⁻¹) ≤ Real.pi / 2 * √3 * prec := by
  have hX := Means.motion_valid hε he
  have hY := Means.motion_valid hε hf
  obtain ⟨Z, hZ⟩ := rigid_inverse_exists hY
  have hZR : Z.R = Y.R⁻¹ := (Matrix.inv_eq_right_inv (congrArg Rigid.R hZ)).symm
  obtain ⟨ξ, hξ, hb⟩ := (isApprox_motion hε he hf hZ prec).mp h
  obtain ⟨ω, hω, hu⟩ := Option.bind_eq_some_iff.mp hξ
  obtain ⟨u, -, hu'⟩ := Option.bind_eq_some_iff.mp hu
  cases hu'
  have hDR : (X.comp Z).R = X.R * Y.R⁻¹ := by rw [← hZR]; rfl
  rw [hDR] at hω
  exact logMat_near hε hε1 (by rw [hY.inv_eq]; exact hX.mul hY.transpose) hω fun i => hb (.inl i)

/-- **C11 (half-turns).** With exact arithmetic, rotations half a turn apart never compare as
approximately equal (with rounding they may: `c11_half_turn_floating`). -/
theorem c11_rot_half_turn (hε : 0 < ε) (hε1 : ε ≤ 1) {X Y : M3} (he : Means ε s e (.rot X))
    (hf : Means ε s f (.rot Y)) (hπ : angle (X * Y⁻¹) = Real.pi) (prec : ℝ) :
    ¬e.isApprox ε s prec f := by
  have hX := Means.rotation_valid hε he
  have hY := Means.rotation_valid hε hf
  have hD : IsRotation (X * Y⁻¹) := by rw [hY.inv_eq]; exact hX.mul hY.transpose
  have hc : cosAngle (X * Y⁻¹) = -1 := by
    rw [← Real.cos_arccos hD.cosAngle_le.1 hD.cosAngle_le.2, ← rotOfAngle, hπ, Real.cos_pi]
  rw [isApprox_rot hε he hf, logMat_halfTurn (by nlinarith [Real.pi_gt_three]) hD hc]
  rintro ⟨v, hv, -⟩
  cases hv

/-- **C11 (exact condition).** When the rotation taking `b` to `a` is the identity or is in the
regular region, `isApprox` holds exactly when every coordinate of its rotation vector is at most
`prec` in absolute value. -/
theorem c11_rot_iff (hε : 0 < ε) {X Y : M3} (he : Means ε s e (.rot X)) (hf : Means ε s f (.rot Y))
    {φ : V3} (hφ : X = NormedSpace.exp (hat φ) * Y) (hπ : sqLen φ < Real.pi ^ 2)
    (hr : φ = 0 ∨ ε < sqLen φ) (prec : ℝ) : e.isApprox ε s prec f ↔ ∀ i, |φ i| ≤ prec := by
  have hY := Means.rotation_valid hε hf
  have h : X * Y⁻¹ = NormedSpace.exp (hat φ) := by
    rw [hφ, mul_assoc, hY.inv_eq, hY.1, mul_one]
  rw [isApprox_rot hε he hf, h, logMat_exp hε hπ hr]
  exact ⟨fun ⟨v, hv, hb⟩ => by cases hv; exact hb, fun hb => ⟨φ, rfl, hb⟩⟩

/-- **C11 (exact condition, rigid transforms).** The same with the six coordinates of the twist taking
`b` to `a`. -/
theorem c11_rigid_iff (hε : 0 < ε) {X Y D : Rigid} (he : Means ε s e (.motion X))
    (hf : Means ε s f (.motion Y)) {ξ : Fin 3 ⊕ Fin 3 → ℝ} (hX : X = D.comp Y)
    (hD : D.hom = NormedSpace.exp (twistMat ξ)) (hπ : sqLen (angular ξ) < Real.pi ^ 2)
    (hr : angular ξ = 0 ∨ ε < sqLen (angular ξ)) (prec : ℝ) :
    e.isApprox ε s prec f ↔ ∀ i, |ξ i| ≤ prec := by
  obtain ⟨Z, hZ⟩ := rigid_inverse_exists (Means.motion_valid hε hf)
  have h : X.comp Z = D := by
    rw [hX, Rigid.comp_assoc, hZ]
    exact Rigid.ext' (mul_one _) (by
      change D.R *ᵥ 0 + D.t = D.t
      rw [mulVec_zero, zero_add])
  rw [isApprox_motion hε he hf hZ, h, logRigid_motion hε hD hπ hr]
  exact ⟨fun ⟨v, hv, hb⟩ => by cases hv; exact hb, fun hb => ⟨ξ, rfl, hb⟩⟩

section Examples

private theorem two_means (a : ℕ) : Means dblEps (twoRot (rodr fun _ => 1) 1) (.leaf a 0 (.rot .mat))
    (.rot (if a = 1 then rodr fun _ => 1 else 1)) := by
  refine Means.leaf a 0 (.rot .mat) ?_
  change IsRotation (if a = 1 then rodr fun _ => 1 else 1)
  split
  · exact rodr_rotation _
  · exact Spec.IsRotation.one

private theorem ones_len : sqLen (fun _ => 1 : V3) = 3 := by simp [sqLen, dotProduct]

/-- The exact condition at the turn by `√3` about the diagonal: accepted from precision 1 on, and not
below. -/
example (prec : ℝ) : (SExpr.leaf 1 0 (.rot .mat)).isApprox dblEps (twoRot (rodr fun _ => 1) 1) prec
    (.leaf 2 0 (.rot .mat)) ↔ 1 ≤ prec := by
  rw [c11_rot_iff (φ := fun _ => 1) dblEps_pos (two_means 1) (two_means 2)]
  · exact ⟨fun h => by simpa using h 0, fun h i => by simpa using h⟩
  · change rodr _ = _ * (1 : M3)
    rw [mul_one, rodr_exp]
  · rw [ones_len]; nlinarith [Real.pi_gt_three]
  · right; rw [ones_len]; linarith [dblEps_lt]

private theorem two_angle : angle ((rodr fun _ => 1) * (1 : M3)⁻¹) ≠ Real.pi ∧
    angle ((rodr fun _ => 1) * (1 : M3)⁻¹) ≤ 2 := by
  have h : angle ((rodr fun _ => 1) * (1 : M3)⁻¹) = √3 := by
    rw [inv_one, mul_one, rotOfAngle, arccos_cosAngle_rodr, ← sqLen_eq, ones_len]
    · intro h0; have := congrFun h0 0; simp at this
    · rw [← sqLen_eq, ones_len]
      exact Real.sqrt_le_iff.mpr ⟨Real.pi_pos.le, by nlinarith [Real.pi_gt_three]⟩
  have h2 : √3 ≤ 2 := Real.sqrt_le_iff.mpr (by norm_num)
  rw [h]
  exact ⟨by linarith [Real.pi_gt_three], h2⟩

/-- Completeness: the same pair at precision 2. -/
private theorem two_approx : (SExpr.leaf 1 0 (.rot .mat)).isApprox dblEps (twoRot (rodr fun _ => 1) 1) 2
    (.leaf 2 0 (.rot .mat)) :=
  c11_rot_of_close dblEps_pos (two_means 1) (two_means 2) two_angle.1 two_angle.2

example := c11_rot_near_partial dblEps_pos dblEps_lt.le (two_means 1) (two_means 2) two_approx

example := c11_rot_close_partial dblEps_pos (two_means 1) (two_means 2) two_approx

/-- A transform and the same moved by the twist `(1,1,1,1,1,1)`, at precision 1. -/
private theorem moved_approx : ∃ X Y, Means dblEps demo (lf (.rigid .mat) + lf (.vec .twist)) (.motion X) ∧
    Means dblEps demo (lf (.rigid .mat)) (.motion Y) ∧
    (lf (.rigid .mat) + lf (.vec .twist)).isApprox dblEps demo 1 (lf (.rigid .mat)) := by
  obtain ⟨D, hD⟩ := exists_exp_motion (demo 1 (.vec .twist))
  have h := Means.boxPlusMotion (demo_means (.rigid .mat)) (demo_means (.vec .twist)) hD
    (.inr demo_twist_regular.2)
  refine ⟨_, _, h, demo_means (.rigid .mat), ?_⟩
  exact (c11_rigid_iff dblEps_pos h (demo_means (.rigid .mat)) rfl hD demo_twist_regular.1
    (.inr demo_twist_regular.2) 1).mpr fun i => le_of_eq abs_one

example : ∃ X Y : Rigid, angle (X.R * Y.R⁻¹) ≤ Real.pi / 2 * √3 * 1 ∧
    (angle (X.R * Y.R⁻¹) ≤ √3 * 1 ∨ angle (X.R * Y.R⁻¹) ^ 2 ≤ dblEps) :=
  let ⟨X, Y, h1, h2, h3⟩ := moved_approx
  ⟨X, Y, c11_rigid_near_partial dblEps_pos dblEps_lt.le h1 h2 h3, c11_rigid_close_partial dblEps_pos h1 h2 h3⟩

/-- The half-turn about `z` against the identity. -/
example : ¬(lf (.rot .mat)).isApprox dblEps (twoRot !![-1, 0, 0; 0, -1, 0; 0, 0, 1] 1) 100
    (.leaf 2 0 (.rot .mat)) :=
  c11_rot_half_turn dblEps_pos dblEps_lt.le
    (X := !![-1, 0, 0; 0, -1, 0; 0, 0, 1]) (Means.leaf 1 0 (.rot .mat) (by exact demoHalf_valid)) (Y := 1)
    (Means.leaf 2 0 (.rot .mat) (by exact Spec.IsRotation.one)) (by
      have : ((!![-1, 0, 0; 0, -1, 0; 0, 0, 1] : M3).trace - 1) / 2 = -1 := by
        rw [Matrix.trace_fin_three]; simp; norm_num
      rw [inv_one, Matrix.mul_one, angle, this, Real.arccos_neg_one]) 100

end Examples

end WG
