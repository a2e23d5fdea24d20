import Verif.Lemmas.DiffRot

/-! Differential of the logarithms. -/

namespace WG
open Matrix Spec Filter Topology

variable {E : Type} [NormedAddCommGroup E] [NormedSpace ℝ E] {x : E}

/-- `θ / sin θ` as a function of `cos θ` (helper). -/
noncomputable def angleRatio (c : ℝ) : ℝ := Real.arccos c / Real.sin (Real.arccos c)

theorem angleRatio_deriv {θ : ℝ} (h0 : 0 < θ) (hπ : θ < Real.pi) :
    HasDerivAt angleRatio ((θ * Real.cos θ / Real.sin θ - 1) / Real.sin θ ^ 2) (Real.cos θ) := by
  have hs : 0 < Real.sin θ := Real.sin_pos_of_pos_of_lt_pi h0 hπ
  have sc := Real.sin_sq_add_cos_sq θ
  have ha : Real.arccos (Real.cos θ) = θ := Real.arccos_cos h0.le hπ.le
  have d : HasDerivAt Real.arccos (-(1 / √(1 - Real.cos θ ^ 2))) (Real.cos θ) := by
    apply Real.hasDerivAt_arccos
    · intro e; rw [e] at sc; nlinarith
    · intro e; rw [e] at sc; nlinarith
  have hq : √(1 - Real.cos θ ^ 2) = Real.sin θ := by
    rw [show 1 - Real.cos θ ^ 2 = Real.sin θ ^ 2 by linarith, Real.sqrt_sq hs.le]
  rw [hq] at d
  have := d.div d.sin (by rw [ha]; exact hs.ne')
  refine this.congr_deriv ?_
  rw [ha]
  field_simp
  ring

theorem diff_axial {f F : E → M3} (hf : DiffM f x F) :
    DiffV (fun e => axial (f e)) x fun h => axial (F h) := by
  have half : ∀ {g k G K : E → ℝ}, Diff g x G → Diff k x K →
      Diff (fun e => (g e - k e) / 2) x fun h => (G h - K h) / 2 := fun d1 d2 =>
    (((d1.sub d2).const_mul (1 / 2)).congr_left (Eventually.of_forall fun e => by ring)).congr_right
      fun h => by ring
  simp only [axial_entries]
  intro i
  fin_cases i
  · exact half (hf 2 1) (hf 1 2)
  · exact half (hf 0 2) (hf 2 0)
  · exact half (hf 1 0) (hf 0 1)

theorem diff_cosAngle {f F : E → M3} (hf : DiffM f x F) :
    Diff (fun e => cosAngle (f e)) x fun h => (F h 0 0 + F h 1 1 + F h 2 2) / 2 := by
  have := ((((hf 0 0).add (hf 1 1)).add (hf 2 2)).sub (Diff.const (x := x) 1)).const_mul (1 / 2)
  exact (this.congr_left (Eventually.of_forall fun e => by unfold cosAngle; ring)).congr_right
    fun h => by ring

theorem log_core (φ η : V3) (a b : ℝ) :
    axial (crossMatrix η * (1 + a • crossMatrix φ + b • (crossMatrix φ * crossMatrix φ))) =
      (1 - b * normSq φ / 2) • η + (a / 2) • cross η φ - (b * dot φ η / 2) • φ := by
  rw [axial_entries]
  vec3 [crossMatrix, cross, dot, normSq, Matrix.vecHead, Matrix.vecTail]

theorem log_core_trace (φ η : V3) (a b : ℝ) :
    let D := crossMatrix η * (1 + a • crossMatrix φ + b • (crossMatrix φ * crossMatrix φ))
    (D 0 0 + D 1 1 + D 2 2) / 2 = -(a * dot φ η) := by
  simp [crossMatrix, dot, Matrix.mul_apply, Fin.sum_univ_three]
  ring

theorem vinv_apply (φ η : V3) (k : ℝ) :
    (1 - (1 / 2 : ℝ) • crossMatrix φ + k • (crossMatrix φ * crossMatrix φ)) *ᵥ η =
      (1 - k * normSq φ) • η + (1 / 2 : ℝ) • cross η φ + (k * dot φ η) • φ := by
  vec3 [crossMatrix, cross, dot, normSq, Matrix.vecHead, Matrix.vecTail]

/-- Main branch of the logarithm of a matrix (helper). -/
noncomputable def logM (m : M3) : V3 := angleRatio (cosAngle m) • axial m

/-- `d log = V(φ)⁻¹ η` where `φ = log R`, `η` the angular velocity; the code stays in the main
branch near `R`. -/
theorem diff_logM {ε : ℝ} (hε : 0 < ε) {f : E → M3} {η : E → V3} {φ : V3}
    (hf : DiffM f x fun h => crossMatrix (η h) * f x) (hR : f x = rodr φ) (h0 : ε < normSq φ)
    (hπ : √(normSq φ) < Real.pi) :
    (∀ᶠ e in 𝓝 x, logMat ε (f e) = some (logM (f e))) ∧ logM (f x) = φ ∧
      DiffV (fun e => logM (f e)) x fun h => vinv φ *ᵥ η h := by
  have hφ : φ ≠ 0 := by
    rintro rfl; simp [normSq] at h0; linarith
  have hc := cosAngle_rodr hφ
  have hax := axial_rodr φ
  have sq := sqrt_normSq_sq φ
  have pos := sqrt_normSq_pos hφ
  have hn := normSq_ne hφ
  set θ := √(normSq φ) with hθ
  have hs : 0 < Real.sin θ := Real.sin_pos_of_pos_of_lt_pi pos hπ
  have sc := Real.sin_sq_add_cos_sq θ
  have c1 : Real.cos θ < 1 := by nlinarith
  have c2 : -1 < Real.cos θ := by nlinarith
  rw [← hR] at hc hax
  have dc := diff_cosAngle hf
  have hac : Real.arccos (Real.cos θ) = θ := Real.arccos_cos pos.le hπ.le
  have hval : logM (f x) = φ := by
    unfold logM angleRatio
    rw [hc, hac, hax, smul_smul]
    have : θ / Real.sin θ * (Real.sin θ / θ) = 1 := by field_simp
    rw [this, one_smul]
  refine ⟨?_, hval, ?_⟩
  · have t1 := dc.continuousAt.eventually_lt_const (u := 1) (by beta_reduce; rw [hc]; exact c1)
    have t2 := dc.continuousAt.eventually_const_lt (u := -1) (by beta_reduce; rw [hc]; exact c2)
    have t3 : ∀ᶠ e in 𝓝 x, ε < Real.arccos (cosAngle (f e)) * Real.arccos (cosAngle (f e)) := by
      have : ContinuousAt (fun e => Real.arccos (cosAngle (f e)) * Real.arccos (cosAngle (f e))) x := by
        have := Real.continuous_arccos.continuousAt.comp (f := fun e => cosAngle (f e)) dc.continuousAt
        exact this.mul this
      apply this.eventually_const_lt
      beta_reduce
      rw [hc, hac, sq]
      exact h0
    have t4 : ∀ᶠ e in 𝓝 x, 0 < Real.sin (Real.arccos (cosAngle (f e))) := by
      have : ContinuousAt (fun e => Real.sin (Real.arccos (cosAngle (f e)))) x :=
        (Real.continuous_sin.comp Real.continuous_arccos).continuousAt.comp
          (f := fun e => cosAngle (f e)) dc.continuousAt
      apply this.eventually_const_lt
      beta_reduce
      rw [hc, hac]
      exact hs
    filter_upwards [t1, t2, t3, t4] with e h1 h2 h3 h4
    rw [logMat_range ⟨h2.le, h1.le⟩, if_pos h3]
    simp [rdiv, h4.ne', logM, angleRatio]
  · have dk := Diff.comp (f := fun e => cosAngle (f e)) (hc ▸ angleRatio_deriv pos hπ) dc
    have da := diff_axial hf
    intro i
    have := dk.mul (da i)
    refine this.congr_right fun h => ?_
    unfold vinv
    beta_reduce
    have hD := log_core φ (η h) (cA (normSq φ)) (cB (normSq φ))
    rw [← rodr_coef, ← hR] at hD
    have hT := log_core_trace φ (η h) (cA (normSq φ)) (cB (normSq φ))
    rw [← rodr_coef, ← hR] at hT
    simp only [] at hT
    rw [vinv_apply, hax, hD, hT]
    unfold angleRatio
    rw [hc, hac]
    have eA : cA (normSq φ) = Real.sin θ / θ := rfl
    have eB : cB (normSq φ) = (1 - Real.cos θ) / normSq φ := rfl
    rw [eA, eB]
    simp only [Pi.add_apply, Pi.sub_apply, Pi.smul_apply, smul_eq_mul, ← hθ]
    rw [← sq]
    have c3 : 1 - Real.cos θ ≠ 0 := by linarith
    generalize Real.sin θ = S at *
    generalize Real.cos θ = C at *
    generalize dot φ (η h) = p
    generalize cross (η h) φ i = w
    generalize η h i = z
    generalize φ i = y
    have hS : S ≠ 0 := hs.ne'
    have hθ0 : θ ≠ 0 := pos.ne'
    have k0 : S ^ 2 = (1 - C) * (1 + C) := by linear_combination sc
    rw [show (1 - S / θ / 2 / ((1 - C) / (θ * θ))) / (θ * θ) = (1 / (θ * θ)) - (1 + C) / (2 * S * θ) by
      field_simp
      linear_combination (-θ) * k0]
    field_simp
    ring

theorem logRotJac_eq {φ : V3} (h : φ ≠ 0) (hc : 1 - Real.cos √(normSq φ) ≠ 0) :
    logRotJac φ = some (vinv φ) := by
  have h1 := sqrt_normSq_ne h
  have h2 := normSq_ne h
  simp only [logRotJac, rdiv, h1, h2, hc, if_false, Option.bind_eq_bind, Option.bind_some, vinv]
  congr 3
  field_simp

theorem logRotJac_zero : logRotJac 0 = none := by
  simp [logRotJac, rdiv, normSq]

theorem expRelJac_big {ε : ℝ} (hε : 0 < ε) {φ : V3} (h : ε < normSq φ) :
    expRelJac ε (rodr φ) φ = some (vmat φ) := by
  have hp : 0 < normSq φ := by linarith
  have r1 := cAB_rel hp
  have r2 := cC_rel hp
  unfold expRelJac
  simp only [gt_iff_lt, h, if_true, rdiv, hp.ne', if_false, Option.bind_eq_bind, Option.bind_some]
  congr 1
  rw [rodr_coef, vmat_coef, crossMatrix_sq]
  have k : (1 : M3) - (1 + cA (normSq φ) • crossMatrix φ +
      cB (normSq φ) • (outer φ φ - normSq φ • (1 : M3))) =
      -(cA (normSq φ)) • crossMatrix φ - cB (normSq φ) • (crossMatrix φ * crossMatrix φ) := by
    rw [crossMatrix_sq, neg_smul]; abel
  rw [k, Matrix.sub_mul, smul_mul_assoc, smul_mul_assoc, Matrix.mul_assoc, crossMatrix_cube,
    crossMatrix_sq]
  generalize hN : normSq φ = n at *
  ext i j
  simp only [Matrix.smul_apply, Matrix.add_apply, Matrix.sub_apply, smul_eq_mul]
  have hn : n ≠ 0 := hp.ne'
  generalize outer φ φ i j = o
  generalize crossMatrix φ i j = K
  generalize (1 : M3) i j = I
  rw [show cC n = (1 - cA n) / n from rfl]
  field_simp
  ring

/-- Main branch of the logarithm of a rigid transform (helper). -/
noncomputable def logT (m : M3) (t : V3) : V3 := vinv (logM m) *ᵥ t

/-- The differential of `V(ω)⁻¹`. -/
theorem diff_vinv {ω δ : E → V3} (hω : DiffV ω x δ) (h0 : ω x ≠ 0)
    (hc : 1 - Real.cos √(normSq (ω x)) ≠ 0) :
    ∃ L, DiffM (fun e => vinv (ω e)) x L := by
  have hp : 0 < normSq (ω x) := lt_of_le_of_ne (normSq_nonneg _) (Ne.symm (normSq_ne h0))
  have dn := hω.normSq
  have dA := Diff.comp (f := fun e => normSq (ω e)) (cA_deriv hp) dn
  have dB := Diff.comp (f := fun e => normSq (ω e)) (cB_deriv hp) dn
  have dK := diffM_cross hω
  have hB : cB (normSq (ω x)) ≠ 0 := div_ne_zero hc hp.ne'
  have dk := (((Diff.const (x := x) 1).sub ((dA.const_mul (1 / 2)).div dB hB))).div dn hp.ne'
  refine ⟨_, (diffM_add (diffM_sub (DiffM.const (x := x) (1 : M3)) (diffM_smul (Diff.const (x := x) (1 / 2)) dK))
    (diffM_smul dk (dK.mul dK))).congr_left (Eventually.of_forall fun e => ?_)⟩
  unfold vinv
  congr 3
  rw [show cA (normSq (ω e)) = Real.sin √(normSq (ω e)) / √(normSq (ω e)) from rfl,
    show cB (normSq (ω e)) = (1 - Real.cos √(normSq (ω e))) / normSq (ω e) from rfl]
  congr 3
  ring

/-- Differential of the logarithm of a rigid transform. -/
theorem diff_logT {ε : ℝ} (hε : 0 < ε) {f : E → M3} {t : E → V3} {η υ : E → V3} {φ : V3}
    (hf : DiffM f x fun h => crossMatrix (η h) * f x)
    (ht : DiffV t x fun h => cross (η h) (t x) + υ h) (hR : f x = rodr φ) (h0 : ε < normSq φ)
    (hπ : √(normSq φ) < Real.pi) :
    (∀ᶠ e in 𝓝 x, logRigid ε (f e) (t e) = some (Twist.mk (logM (f e)) (logT (f e) (t e)))) ∧
      DiffV (fun e => logT (f e) (t e)) x fun h =>
        vinv φ *ᵥ υ h - vinv φ *ᵥ (eadeM φ (logT (f x) (t x)) *ᵥ (vinv φ *ᵥ η h)) := by
  obtain ⟨ev, hval, dω⟩ := diff_logM hε hf hR h0 hπ
  have hφ : φ ≠ 0 := by
    rintro rfl; simp [normSq] at h0; linarith
  have hc := cos_ne_of_lt_pi hφ hπ
  have dω' := dω
  have cn : ContinuousAt (fun e => normSq (logM (f e))) x := dω.normSq.continuousAt
  have cc : ContinuousAt (fun e => 1 - Real.cos √(normSq (logM (f e)))) x :=
    continuousAt_const.sub ((Real.continuous_cos.comp Real.continuous_sqrt).continuousAt.comp
      (f := fun e => normSq (logM (f e))) cn)
  have e1 : ∀ᶠ e in 𝓝 x, ε < normSq (logM (f e)) :=
    cn.eventually_const_lt (by beta_reduce; rw [hval]; exact h0)
  have e2 : ∀ᶠ e in 𝓝 x, 1 - Real.cos √(normSq (logM (f e))) ≠ 0 :=
    cc.eventually_ne (by rw [hval]; exact hc)
  constructor
  · filter_upwards [ev, e1, e2] with e h1 h2 h3
    unfold logRigid
    rw [h1]
    simp only [Option.bind_eq_bind, Option.bind_some]
    rw [logTrans_big hε h2 h3]
    rfl
  · obtain ⟨L, hL⟩ := diff_vinv dω (by rw [hval]; exact hφ) (by rw [hval]; exact hc)
    have du := hL.mulVec ht
    have dd := diff_vmat dω du (by rw [hval]; exact hφ)
    have back : ∀ᶠ e in 𝓝 x, vmat (logM (f e)) *ᵥ (vinv (logM (f e)) *ᵥ t e) = t e := by
      filter_upwards [e1, e2] with e h1 h2
      have hne : logM (f e) ≠ 0 := by
        intro h; rw [h] at h1; simp [normSq] at h1; linarith
      rw [mulVec_mulVec, (vinv_mul_vmat hne h2).2, one_mulVec]
    have dt := ht.congr_left back
    refine DiffV.congr_right (f := fun e => logT (f e) (t e)) du fun h => ?_
    have eq : ∀ i, _ := fun i => congrFun ((dd i).unique (dt i)) h
    have eqv : cross (vmat φ *ᵥ (vinv φ *ᵥ η h)) (vmat φ *ᵥ (vinv φ *ᵥ t x)) +
        eadeM φ (vinv φ *ᵥ t x) *ᵥ (vinv φ *ᵥ η h) +
        vmat φ *ᵥ (L h *ᵥ t x + vinv φ *ᵥ (cross (η h) (t x) + υ h)) =
        cross (η h) (t x) + υ h := by
      funext i
      have := eq i
      rw [hval] at this
      exact this
    obtain ⟨i1, i2⟩ := vinv_mul_vmat hφ hc
    have k : ∀ w, vmat φ *ᵥ (vinv φ *ᵥ w) = w := fun w => by
      rw [mulVec_mulVec, i2, one_mulVec]
    rw [k, k] at eqv
    have eq2 : vmat φ *ᵥ (L h *ᵥ t x + vinv φ *ᵥ (cross (η h) (t x) + υ h)) =
        υ h - eadeM φ (vinv φ *ᵥ t x) *ᵥ (vinv φ *ᵥ η h) := by
      have := eqv
      funext i
      have := congrFun eqv i
      simp only [Pi.add_apply, Pi.sub_apply] at this ⊢
      linarith
    have eq3 := congrArg (fun w => vinv φ *ᵥ w) eq2
    beta_reduce at eq3
    rw [mulVec_mulVec, i1, one_mulVec, mulVec_sub] at eq3
    unfold logT
    rw [hval, eq3]

theorem ofQuat_scale {q : Quat} {s : ℝ} (hs : 0 < s) :
    AngleAxis.ofQuat ⟨s * q.w, s * q.x, s * q.y, s * q.z⟩ = AngleAxis.ofQuat q := by
  have hv : (⟨s * q.w, s * q.x, s * q.y, s * q.z⟩ : Quat).vec = s • q.vec := by
    funext i; fin_cases i <;> simp [Quat.vec]
  have hn : norm3 (s • q.vec) = s * norm3 q.vec := by
    unfold norm3
    rw [normSq_smul, Real.sqrt_mul (mul_self_nonneg s), Real.sqrt_mul_self hs.le]
  unfold AngleAxis.ofQuat
  rw [hv, hn]
  simp only [ne_eq, mul_eq_zero, hs.ne', false_or]
  by_cases h0 : norm3 q.vec = 0
  · simp [h0]
  · simp only [h0, not_false_eq_true, if_true]
    have hw : s * q.w < 0 ↔ q.w < 0 := by
      constructor
      · intro h; nlinarith
      · intro h; nlinarith
    have hat : AngleAxis.atan2Q (s * norm3 q.vec) |s * q.w| = AngleAxis.atan2Q (norm3 q.vec) |q.w| := by
      unfold AngleAxis.atan2Q
      rw [abs_mul, abs_of_pos hs]
      have : s * |q.w| * (s * |q.w|) + s * norm3 q.vec * (s * norm3 q.vec) =
          s * s * (|q.w| * |q.w| + norm3 q.vec * norm3 q.vec) := by ring
      rw [this, Real.sqrt_mul (mul_self_nonneg s), Real.sqrt_mul_self hs.le,
        mul_div_mul_left _ _ hs.ne']
    rw [hat]
    congr 1
    funext i
    simp only [Pi.smul_apply, smul_eq_mul, hw]
    split
    · rw [← mul_neg, mul_div_mul_left _ _ hs.ne']
    · rw [mul_div_mul_left _ _ hs.ne']

/-- Eigen's angle-axis from a quaternion that need not have unit norm. -/
theorem ofQuat_general {q : Quat} (h : 0 < q.nrm) :
    (AngleAxis.ofQuat q).IsUnit ∧ (AngleAxis.ofQuat q).toMatrix = (q.nrm)⁻¹ • q.hom := by
  have hs : 0 < 1 / √q.nrm := one_div_pos.mpr (Real.sqrt_pos.mpr h)
  have hss : (1 / √q.nrm) * (1 / √q.nrm) = (q.nrm)⁻¹ := by
    rw [div_mul_div_comm, Real.mul_self_sqrt h.le, one_mul, one_div]
  set s := 1 / √q.nrm
  have hu : (⟨s * q.w, s * q.x, s * q.y, s * q.z⟩ : Quat).IsUnit := by
    unfold Quat.IsUnit
    have : (s * q.w) ^ 2 + (s * q.x) ^ 2 + (s * q.y) ^ 2 + (s * q.z) ^ 2 = s * s * q.nrm := by
      unfold Quat.nrm; ring
    rw [this, hss]
    exact inv_mul_cancel₀ h.ne'
  obtain ⟨h1, h2⟩ := AngleAxis.ofQuat_spec hu
  rw [ofQuat_scale hs] at h1 h2
  refine ⟨h1, ?_⟩
  rw [h2, Quat.toMatrix_eq_hom hu, ← hss]
  mat3 [Quat.hom]

/-- Conversion of a turning quaternion to angle-axis. -/
theorem turns_ofQuat {c : E → Quat} {A : E → V3}
    (h : DiffM (fun e => (c e).hom) x fun h => crossMatrix (A h) * (c x).hom) (hu : (c x).IsUnit) :
    TurnsBy .aa (fun e => AngleAxis.ofQuat (c e)) x A := by
  have dn := diff_nrm h hu
  have hn : (c x).nrm = 1 := hu
  have ev : ∀ᶠ e in 𝓝 x, 0 < (c e).nrm :=
    dn.continuousAt.eventually_const_lt (by beta_reduce; rw [hn]; norm_num)
  have den : ∀ q : Quat, 0 < q.nrm → rotDen .aa (AngleAxis.ofQuat q) = (q.nrm)⁻¹ • q.hom := by
    intro q hq
    obtain ⟨h1, h2⟩ := ofQuat_general hq
    rw [rotDen_aa h1, h2]
  constructor
  · have d := diffM_smul (dn.inv (by rw [hn]; norm_num)) h
    simp only [hat_eq]
    refine (d.congr_left (ev.mono fun e he => den _ he)).congr_right fun k => ?_
    rw [den _ (by rw [hn]; norm_num), hn]
    simp
  · intro _
    filter_upwards [ev] with e he
    exact (validRot_aa _).mpr (ofQuat_general he).1

end WG
