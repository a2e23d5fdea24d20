import Verif.Model.Rigid
import Verif.Lemmas.Convert

/-! Rigid transforms: blocks, exponential, logarithm. -/

namespace WG
open Matrix Spec

@[simp] theorem rotBlock_mk4 (R : M3) (t : V3) : rotBlock (mk4 R t) = R := by
  ext i j; fin_cases i <;> fin_cases j <;> simp [rotBlock, mk4, Fin.castLE]
@[simp] theorem transBlock_mk4 (R : M3) (t : V3) : transBlock (mk4 R t) = t := by
  ext i; fin_cases i <;> simp [transBlock, mk4, Fin.castLE]

theorem bottomRow_mk4 (R : M3) (t : V3) : BottomRow (mk4 R t) := by
  simp [BottomRow, mk4]

theorem mk4_blocks {m : M4} (h : BottomRow m) : mk4 (rotBlock m) (transBlock m) = m := by
  obtain ⟨a, b, c, d⟩ := h
  ext i j
  fin_cases i <;> fin_cases j <;> simp [mk4, rotBlock, transBlock, Fin.castLE, *]

/-- The left Jacobian `V(ω)` of the main branch (helper). -/
noncomputable def vmat (ω : V3) : M3 :=
  1 + ((1 - Real.cos √(normSq ω)) / normSq ω) • crossMatrix ω +
    ((1 - Real.sin √(normSq ω) / √(normSq ω)) / normSq ω) • (crossMatrix ω * crossMatrix ω)

/-- Its inverse as computed by LogMap (helper). -/
noncomputable def vinv (ω : V3) : M3 :=
  1 - (1 / 2 : ℝ) • crossMatrix ω +
    ((1 - Real.sin √(normSq ω) / √(normSq ω) / 2 / ((1 - Real.cos √(normSq ω)) / normSq ω))
      / normSq ω) • (crossMatrix ω * crossMatrix ω)

theorem poly_mul (K : M3) (n : ℝ) (hK : K * (K * K) = -n • K) (a b c d : ℝ) :
    (1 + a • K + b • (K * K)) * (1 + c • K + d • (K * K)) =
      1 + (a + c - n * (a * d + b * c)) • K + (b + d + a * c - n * (b * d)) • (K * K) := by
  have hK4 : (K * K) * (K * K) = -n • (K * K) := by
    rw [Matrix.mul_assoc, hK, mul_smul_comm]
  have hK3 : (K * K) * K = -n • K := by rw [Matrix.mul_assoc, hK]
  simp only [add_mul, mul_add, Matrix.one_mul, Matrix.mul_one, smul_mul_assoc, mul_smul_comm,
    hK, hK3, hK4]
  ext i j
  simp
  ring

theorem one_sub_cos_ne {ω : V3} (h : ω ≠ 0) (hπ : √(normSq ω) < 2 * Real.pi) :
    1 - Real.cos √(normSq ω) ≠ 0 := by
  intro e
  have h1 : Real.cos √(normSq ω) = 1 := by linarith
  have := (Real.cos_eq_one_iff_of_lt_of_lt (by
    have := Real.sqrt_nonneg (normSq ω); have := Real.pi_pos; linarith) hπ).mp h1
  exact sqrt_normSq_ne h this

theorem vinv_mul_vmat {ω : V3} (h : ω ≠ 0) (hc : 1 - Real.cos √(normSq ω) ≠ 0) :
    vinv ω * vmat ω = 1 ∧ vmat ω * vinv ω = 1 := by
  have hθ := sqrt_normSq_ne h
  have e := sqrt_normSq_sq ω
  have hn := normSq_ne h
  have sc := Real.sin_sq_add_cos_sq √(normSq ω)
  have hv : vinv ω * vmat ω = 1 := by
    unfold vinv vmat
    rw [sub_eq_add_neg, ← neg_smul, poly_mul _ _ (crossMatrix_cube ω)]
    generalize Real.sin √(normSq ω) = s at *
    generalize Real.cos √(normSq ω) = c at *
    generalize √(normSq ω) = θ at *
    have k1 : (-(1 / 2 : ℝ) + (1 - c) / normSq ω - normSq ω *
        (-(1 / 2) * ((1 - s / θ) / normSq ω) +
          (1 - s / θ / 2 / ((1 - c) / normSq ω)) / normSq ω * ((1 - c) / normSq ω))) = 0 := by
      field_simp
      ring
    have k2 : ((1 - s / θ / 2 / ((1 - c) / normSq ω)) / normSq ω + (1 - s / θ) / normSq ω +
        -(1 / 2) * ((1 - c) / normSq ω) -
        normSq ω * ((1 - s / θ / 2 / ((1 - c) / normSq ω)) / normSq ω * ((1 - s / θ) / normSq ω))) = 0 := by
      rw [← e]
      field_simp
      have : s ^ 2 = 1 - c ^ 2 := by linarith
      ring_nf
      rw [this]
      ring
    rw [k1, k2]
    simp
  exact ⟨hv, mul_eq_one_comm.mp hv⟩

theorem expTwist_big {ε : ℝ} (hε : 0 < ε) {x : Twist} (h : normSq x.rot > ε) :
    expTwist ε x = some (mk4 (rodr x.rot) (vmat x.rot *ᵥ x.trans)) := by
  have hv : x.rot ≠ 0 := by
    intro e; rw [e] at h; simp [normSq] at h; linarith
  simp [expTwist, h, rdiv, sqrt_normSq_ne hv, normSq_ne hv, rodr, vmat]

theorem expTwist_small {ε : ℝ} {x : Twist} (h : normSq x.rot ≤ ε) :
    expTwist ε x = some (mk4 (1 + crossMatrix x.rot) x.trans) := by
  simp [expTwist, not_lt.mpr h]

theorem logTrans_big {ε : ℝ} (hε : 0 < ε) {ω t : V3} (h : normSq ω > ε)
    (hc : 1 - Real.cos √(normSq ω) ≠ 0) :
    logTrans ε ω t = some (vinv ω *ᵥ t) := by
  have hv : ω ≠ 0 := by
    rintro rfl; simp [normSq] at h; linarith
  have : (1 - Real.cos √(normSq ω)) / normSq ω ≠ 0 := div_ne_zero hc (normSq_ne hv)
  simp [logTrans, h, rdiv, sqrt_normSq_ne hv, normSq_ne hv, vinv, hc]

theorem cos_ne_of_lt_pi {ω : V3} (h : ω ≠ 0) (hπ : √(normSq ω) < Real.pi) :
    1 - Real.cos √(normSq ω) ≠ 0 :=
  one_sub_cos_ne h (by linarith [Real.pi_pos])

theorem Twist.mk_eta (x : Twist) : Twist.mk x.rot x.trans = x := by
  funext i; cases i <;> rfl

theorem logRigid_exp {ε : ℝ} (hε : 0 < ε) {x : Twist} (h : normSq x.rot > ε)
    (hπ : √(normSq x.rot) < Real.pi) :
    logRigid ε (rodr x.rot) (vmat x.rot *ᵥ x.trans) = some x := by
  have hv : x.rot ≠ 0 := by
    intro e; rw [e] at h; simp [normSq] at h; linarith
  have hc := cos_ne_of_lt_pi hv hπ
  unfold logRigid
  rw [logMat_rodr hv hπ h]
  simp only [Option.bind_eq_bind, Option.bind_some]
  rw [logTrans_big hε h hc]
  simp only [Option.bind_some]
  rw [mulVec_mulVec, (vinv_mul_vmat hv hc).1, one_mulVec, Twist.mk_eta]

/-- `exp` undoes `log` for rigid transforms with rotation angle in `(√ε, π)`. -/
theorem exp_logRigid {ε : ℝ} (hε : 0 < ε) {R : M3} (hR : IsRotation R) (t : V3)
    (h1 : Real.arccos (cosAngle R) * Real.arccos (cosAngle R) > ε) (h2 : cosAngle R ≠ -1) :
    ∃ x, logRigid ε R t = some x ∧ x.rot ≠ 0 ∧ √(normSq x.rot) < Real.pi ∧
      normSq x.rot > ε ∧ rodr x.rot = R ∧ vmat x.rot *ᵥ x.trans = t ∧
      expTwist ε x = some (mk4 R t) := by
  obtain ⟨ω, hl, hω, hθ, hr⟩ := rodr_log hR hε h1 h2
  have hn : normSq ω > ε := by rw [← sqrt_normSq_sq, hθ]; exact h1
  have hπ : √(normSq ω) < Real.pi := by
    rw [hθ]
    apply lt_of_le_of_ne (Real.arccos_le_pi _)
    intro e
    have := Real.cos_arccos hR.cosAngle_le.1 hR.cosAngle_le.2
    rw [e, Real.cos_pi] at this
    exact h2 this.symm
  have hc := cos_ne_of_lt_pi hω hπ
  have hV := (vinv_mul_vmat hω hc).2
  refine ⟨Twist.mk ω (vinv ω *ᵥ t), ?_, hω, hπ, hn, hr, ?_, ?_⟩
  · unfold logRigid
    rw [hl]
    simp only [Option.bind_eq_bind, Option.bind_some]
    rw [logTrans_big hε hn hc]; rfl
  · change vmat ω *ᵥ (vinv ω *ᵥ t) = t
    rw [mulVec_mulVec, hV, one_mulVec]
  · rw [expTwist_big (x := Twist.mk ω (vinv ω *ᵥ t)) hε hn]
    change some (mk4 (rodr ω) (vmat ω *ᵥ (vinv ω *ᵥ t))) = _
    rw [mulVec_mulVec, hV, one_mulVec, hr]

end WG
