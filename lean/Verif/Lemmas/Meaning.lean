import Verif.Spec.Meaning
import Verif.Lemmas.TwistExp
import Verif.Lemmas.Convert

/-! # The specification's meanings agree with the model's formulas on valid values -/

namespace WG
open Matrix Spec

theorem sqLen_eq (v : V3) : sqLen v = normSq v := by
  simp [sqLen, normSq, dotProduct, Fin.sum_univ_three]

@[simp] theorem mkH_re (w x y z : ℝ) : (mkH w x y z).re = w := rfl
@[simp] theorem mkH_imI (w x y z : ℝ) : (mkH w x y z).imI = x := rfl
@[simp] theorem mkH_imJ (w x y z : ℝ) : (mkH w x y z).imJ = y := rfl
@[simp] theorem mkH_imK (w x y z : ℝ) : (mkH w x y z).imK = z := rfl

theorem one_eq_mkH : (1 : Quaternion ℝ) = mkH 1 0 0 0 := rfl

theorem validRot_quat (q : Quat) : ValidRot .quat q ↔ q.IsUnit := by
  change mkH q.w q.x q.y q.z ∈ unitary (Quaternion ℝ) ↔ _
  unfold Quat.IsUnit
  rw [Unitary.mem_iff, one_eq_mkH]
  constructor
  · rintro ⟨-, h⟩
    have := congrArg (fun h : Quaternion ℝ => h.re) h
    simp [Quaternion.re_mul] at this
    linarith
  · intro h
    constructor <;> apply Quaternion.ext <;>
      simp [Quaternion.re_mul, Quaternion.imI_mul, Quaternion.imJ_mul, Quaternion.imK_mul] <;>
      first | linear_combination h | ring

theorem rotOfH_eq (h : Quaternion ℝ) : rotOfH h = (⟨h.re, h.imI, h.imJ, h.imK⟩ : Quat).hom := by
  unfold rotOfH
  ext i j
  simp only [Matrix.of_apply]
  fin_cases i <;> fin_cases j <;>
    simp [Quat.hom, Quaternion.re_mul, Quaternion.imI_mul, Quaternion.imJ_mul, Quaternion.imK_mul,
      Quaternion.re_star, Quaternion.imI_star, Quaternion.imJ_star, Quaternion.imK_star] <;> ring

theorem rotDen_quat (q : Quat) : rotDen .quat q = q.hom := rotOfH_eq _

theorem rotDen_quat_unit {q : Quat} (h : q.IsUnit) : rotDen .quat q = q.toMatrix := by
  rw [rotDen_quat, Quat.toMatrix_eq_hom h]

theorem rodr_smul_unit {n : V3} (h : normSq n = 1) (θ : ℝ) (hθ : θ ≠ 0) :
    rodr (θ • n) = 1 + Real.sin θ • crossMatrix n + (1 - Real.cos θ) • (crossMatrix n * crossMatrix n) := by
  unfold rodr
  rw [normSq_smul, h, mul_one, Real.sqrt_mul_self_eq_abs, Real.cos_abs, crossMatrix_smul]
  have e : Real.sin |θ| / |θ| * θ = Real.sin θ := by
    rcases abs_cases θ with ⟨e, -⟩ | ⟨e, -⟩ <;> rw [e]
    · field_simp
    · rw [Real.sin_neg]; field_simp
  have k2 : (1 - Real.cos θ) / (θ * θ) * (θ * θ) = 1 - Real.cos θ := by field_simp
  rw [smul_smul, e, smul_mul_smul_comm, smul_smul, k2]

theorem rotDen_aa {a : AngleAxis} (h : a.IsUnit) : rotDen .aa a = a.toMatrix := by
  change NormedSpace.exp (a.angle • hat a.axis) = _
  rw [AngleAxis.toMatrix_eq h]
  by_cases ha : a.angle = 0
  · simp [ha]
  · have hs : a.angle • a.axis ≠ 0 := by
      intro e
      have h1 := normSq_smul a.angle a.axis
      rw [e, h] at h1
      have : normSq (0 : V3) = 0 := by simp [normSq]
      rw [this] at h1
      have : a.angle * a.angle ≠ 0 := mul_ne_zero ha ha
      apply this; linarith
    have e : a.angle • hat a.axis = hat (a.angle • a.axis) := by
      rw [hat_eq, hat_eq, crossMatrix_smul]
    rw [e, ← rodr_eq_exp hs, rodr_smul_unit h _ ha]

theorem validRot_aa (a : AngleAxis) : ValidRot .aa a ↔ a.IsUnit := by
  change sqLen a.axis = 1 ↔ normSq a.axis = 1
  rw [sqLen_eq]

/-- On valid values the denotation is the rotation matrix computed by the code. -/
theorem rotDen_eq : (k : RotK) → (x : k.Val) → ValidRot k x → rotDen k x = k.matrix x
  | .quat, _, h => rotDen_quat_unit ((validRot_quat _).mp h)
  | .mat, _, _ => rfl
  | .aa, _, h => rotDen_aa ((validRot_aa _).mp h)

theorem validRot_rotation : (k : RotK) → (x : k.Val) → ValidRot k x → IsRotation (k.matrix x)
  | .quat, _, h => Quat.toMatrix_isRotation ((validRot_quat _).mp h)
  | .mat, _, h => h
  | .aa, _, h => AngleAxis.toMatrix_isRotation ((validRot_aa _).mp h)

theorem rotDen_rotation {k : RotK} {x : k.Val} (h : ValidRot k x) : IsRotation (rotDen k x) := by
  rw [rotDen_eq k x h]; exact validRot_rotation k x h

theorem rigidDen_mat (m : M4) : rigidDen .mat m = ⟨rotBlock m, transBlock m⟩ := rfl

theorem validRigid_mat (m : M4) : ValidRigid .mat m ↔ IsRotation (rotBlock m) ∧ BottomRow m := by
  change IsRotation (rotBlock m) ∧ m (Fin.last 3) = ![0, 0, 0, 1] ↔ _
  unfold BottomRow
  have : m (Fin.last 3) = ![0, 0, 0, 1] ↔ m 3 0 = 0 ∧ m 3 1 = 0 ∧ m 3 2 = 0 ∧ m 3 3 = 1 := by
    constructor
    · intro h
      have e : ∀ j, m 3 j = (![0, 0, 0, 1] : Fin 4 → ℝ) j := fun j => congrFun h j
      exact ⟨e 0, e 1, e 2, e 3⟩
    · rintro ⟨a, b, c, d⟩
      funext j
      fin_cases j
      · exact a
      · exact b
      · exact c
      · exact d
  simp only [this]

theorem rigidDen_eq : (k : RigK) → (x : k.Val) → ValidRigid k x →
    rigidDen k x = ⟨k.rotMatrix x, k.trans x⟩
  | .mat, _, _ => rfl
  | .compact, x, h => by
    change (⟨rotDen .quat x.q, x.t⟩ : Rigid) = _
    rw [rotDen_quat_unit ((validRot_quat _).mp h)]
    rfl

theorem validRigid_rotation : (k : RigK) → (x : k.Val) → ValidRigid k x → IsRotation (k.rotMatrix x)
  | .mat, _, h => ((validRigid_mat _).mp h).1
  | .compact, _, h => Quat.toMatrix_isRotation ((validRot_quat _).mp h)

theorem rotOfAngle (R : M3) : angle R = Real.arccos (cosAngle R) := by
  unfold angle cosAngle
  simp [Matrix.trace, Fin.sum_univ_three]

/-- Index relabelling between the block form of the specification and the 4x4 storage. -/
def ix4 : Fin 3 ⊕ Unit ≃ Fin 4 := (Equiv.sumCongr (Equiv.refl _) (Equiv.ofUnique Unit (Fin 1))).trans
  finSumFinEquiv

theorem ix4_hom (T : Rigid) : reindexAlgEquiv ℝ ℝ ix4 T.hom = mk4 T.R T.t := by
  ext i j
  simp only [coe_reindexAlgEquiv, reindex_apply, submatrix_apply]
  have e0 : ix4.symm 0 = Sum.inl 0 := by decide
  have e1 : ix4.symm 1 = Sum.inl 1 := by decide
  have e2 : ix4.symm 2 = Sum.inl 2 := by decide
  have e3 : ix4.symm 3 = Sum.inr () := by decide
  fin_cases i <;> fin_cases j <;> simp [e0, e1, e2, e3, Rigid.hom, mk4]

theorem ix4_twist (x : Twist) :
    reindexAlgEquiv ℝ ℝ ix4 (twistMat x) = blk (crossMatrix x.rot) x.trans := by
  ext i j
  simp only [coe_reindexAlgEquiv, reindex_apply, submatrix_apply]
  have e0 : ix4.symm 0 = Sum.inl 0 := by decide
  have e1 : ix4.symm 1 = Sum.inl 1 := by decide
  have e2 : ix4.symm 2 = Sum.inl 2 := by decide
  have e3 : ix4.symm 3 = Sum.inr () := by decide
  fin_cases i <;> fin_cases j <;>
    simp [e0, e1, e2, e3, twistMat, blk, hat_eq, crossMatrix, Twist.rot, Twist.trans]

theorem map_exp_ix4 (A : Matrix (Fin 3 ⊕ Unit) (Fin 3 ⊕ Unit) ℝ) :
    reindexAlgEquiv ℝ ℝ ix4 (NormedSpace.exp A) = NormedSpace.exp (reindexAlgEquiv ℝ ℝ ix4 A) := by
  let _ : NormedRing (Matrix (Fin 3 ⊕ Unit) (Fin 3 ⊕ Unit) ℝ) := Matrix.linftyOpNormedRing
  let _ : NormedAlgebra ℝ (Matrix (Fin 3 ⊕ Unit) (Fin 3 ⊕ Unit) ℝ) := Matrix.linftyOpNormedAlgebra
  let _ : NormedAlgebra ℚ (Matrix (Fin 3 ⊕ Unit) (Fin 3 ⊕ Unit) ℝ) :=
    NormedAlgebra.restrictScalars ℚ ℝ _
  let _ : NormedRing M4 := Matrix.linftyOpNormedRing
  let _ : NormedAlgebra ℝ M4 := Matrix.linftyOpNormedAlgebra
  refine NormedSpace.map_exp (reindexAlgEquiv ℝ ℝ ix4).toRingEquiv.toRingHom ?_ A
  exact LinearMap.continuous_of_finiteDimensional (reindexAlgEquiv ℝ ℝ ix4).toLinearMap

/-- Characterisation of the rigid exponential by blocks. -/
theorem hom_eq_exp_iff (T : Rigid) (x : Twist) :
    T.hom = NormedSpace.exp (twistMat x) ↔
      mk4 T.R T.t = NormedSpace.exp (blk (crossMatrix x.rot) x.trans) := by
  rw [← ix4_hom, ← ix4_twist, ← map_exp_ix4]
  exact (reindexAlgEquiv ℝ ℝ ix4).injective.eq_iff.symm

theorem exp_blk_zero (u : V3) : NormedSpace.exp (blk 0 u) = mk4 1 u := by
  let _ : NormedRing M4 := Matrix.linftyOpNormedRing
  let _ : NormedAlgebra ℝ M4 := Matrix.linftyOpNormedAlgebra
  have h2 : blk 0 u ^ 2 = 0 := by
    rw [pow_two, blk_mul]
    ext i j
    fin_cases i <;> fin_cases j <;> simp [blk]
  have hs : NormedSpace.exp (blk 0 u) = 1 + blk 0 u := by
    rw [congrFun (NormedSpace.exp_eq_tsum ℝ) (blk 0 u), tsum_eq_sum (s := Finset.range 2)]
    · simp [Finset.sum_range_succ]
    · intro n hn
      obtain ⟨k, rfl⟩ : ∃ k, n = 2 + k := ⟨n - 2, by simp at hn; omega⟩
      rw [pow_add, h2, zero_mul, smul_zero]
  rw [hs, one_add_blk, add_zero]

end WG
