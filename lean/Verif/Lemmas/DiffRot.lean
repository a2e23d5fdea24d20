import Verif.Lemmas.DiffExp

/-! Differentials of the conversions and of the logarithm of rotations. -/

namespace WG
open Matrix Spec Filter Topology

variable {E : Type} [NormedAddCommGroup E] [NormedSpace ℝ E] {x : E}

/-- Squared norm of a quaternion (helper). -/
def Quat.nrm (q : Quat) : ℝ := q.w ^ 2 + q.x ^ 2 + q.y ^ 2 + q.z ^ 2

theorem Quat.toMatrix_hom (q : Quat) : q.toMatrix = q.hom + (1 - q.nrm) • (1 : M3) := by
  mat3 [toMatrix, hom, nrm]

theorem Quat.hom_conj (q : Quat) : q.conj.hom = q.homᵀ := by
  mat3 [conj, hom]

theorem Quat.hom_mul_transpose (q : Quat) : q.hom * q.homᵀ = (q.nrm * q.nrm) • (1 : M3) := by
  mat3 [hom, nrm]

theorem Quat.nrm_nonneg (q : Quat) : 0 ≤ q.nrm := by unfold nrm; positivity

theorem diff_nrm {c : E → Quat} {A : E → V3}
    (h : DiffM (fun e => (c e).hom) x fun h => crossMatrix (A h) * (c x).hom)
    (hu : (c x).IsUnit) : Diff (fun e => (c e).nrm) x fun _ => 0 := by
  have hn : (c x).nrm = 1 := hu
  have hr : IsRotation (c x).hom := by
    rw [← Quat.toMatrix_eq_hom hu]; exact Quat.toMatrix_isRotation hu
  have d := (h.mul h.transpose) 0 0
  have e : ∀ q : Quat, (q.hom * q.homᵀ) 0 0 = q.nrm * q.nrm := fun q => by
    rw [Quat.hom_mul_transpose]; simp
  have d' : Diff (fun e => (c e).nrm * (c e).nrm) x fun _ => 0 := by
    refine (d.congr_left (Eventually.of_forall fun y => (e (c y)).symm)).congr_right fun h => ?_
    beta_reduce
    rw [transpose_mul, Matrix.mul_assoc, ← Matrix.mul_assoc (c x).hom, hr.1, Matrix.mul_one,
      Matrix.one_mul, crossMatrix_transpose]
    simp
  have d2 := d'.sqrt (by simp [hn])
  refine (d2.congr_left (Eventually.of_forall fun y => ?_)).congr_right fun h => by simp
  exact (Real.sqrt_mul_self (Quat.nrm_nonneg _)).symm

theorem diff_toMatrix {c : E → Quat} {A : E → V3}
    (h : DiffM (fun e => (c e).hom) x fun h => crossMatrix (A h) * (c x).hom)
    (hu : (c x).IsUnit) :
    DiffM (fun e => (c e).toMatrix) x fun h => crossMatrix (A h) * (c x).toMatrix := by
  have dn := diff_nrm h hu
  have := diffM_add h (diffM_smul ((Diff.const (x := x) 1).sub dn) (DiffM.const (x := x) (1 : M3)))
  refine (this.congr_left (Eventually.of_forall fun y => Quat.toMatrix_hom _)).congr_right fun h => ?_
  rw [Quat.toMatrix_eq_hom hu]
  simp

/-- The code's rotation matrix of a turning rotation turns. -/
theorem Spec.TurnsBy.matrix : {k : RotK} → {c : E → k.Val} → {A : E → V3} → TurnsBy k c x A →
    ValidRot k (c x) → DiffM (fun e => k.matrix (c e)) x fun h => crossMatrix (A h) * k.matrix (c x)
  | .quat, c, A, h, hv => by
    have hu := (validRot_quat _).mp hv
    have := h.1
    simp only [rotDen_quat, hat_eq] at this
    exact diff_toMatrix this hu
  | .mat, c, A, h, hv => by
    have := h.1
    simp only [hat_eq] at this
    exact this
  | .aa, c, A, h, hv => by
    have h1 := h.1
    simp only [hat_eq] at h1
    refine (h1.congr_left ?_).congr_right fun h => ?_
    · filter_upwards [h.2 rfl] with e he
      exact (rotDen_eq .aa (c e) he).symm
    · rw [rotDen_eq .aa (c x) hv]

theorem turnsBy_quat {c : E → Quat} {A : E → V3}
    (h : DiffM (fun e => (c e).hom) x fun h => crossMatrix (A h) * (c x).hom) :
    TurnsBy .quat c x A := by
  refine ⟨?_, by simp⟩
  simp only [rotDen_quat, hat_eq]
  exact h

theorem Spec.TurnsBy.hom {c : E → Quat} {A : E → V3} (h : TurnsBy .quat c x A) :
    DiffM (fun e => (c e).hom) x fun h => crossMatrix (A h) * (c x).hom := by
  have := h.1
  simp only [rotDen_quat, hat_eq] at this
  exact this

theorem turnsBy_mat {c : E → M3} {A : E → V3}
    (h : DiffM c x fun h => crossMatrix (A h) * c x) : TurnsBy .mat c x A := by
  refine ⟨?_, by simp⟩
  simp only [hat_eq]
  exact h

/-- `hom (traceQuat m)` without the square root (helper). -/
noncomputable def homT (s a b c : ℝ) : M3 :=
  !![s / 4 + (a * a - b * b - c * c) / (4 * s), a * b / (2 * s) - c / 2, a * c / (2 * s) + b / 2;
     a * b / (2 * s) + c / 2, s / 4 + (b * b - a * a - c * c) / (4 * s), b * c / (2 * s) - a / 2;
     a * c / (2 * s) - b / 2, b * c / (2 * s) + a / 2, s / 4 + (c * c - a * a - b * b) / (4 * s)]

theorem hom_traceQuat {m : M3} (h : 0 < m 0 0 + m 1 1 + m 2 2 + 1) : (traceQuat m).hom =
    homT (m 0 0 + m 1 1 + m 2 2 + 1) (m 2 1 - m 1 2) (m 0 2 - m 2 0) (m 1 0 - m 0 1) := by
  have hT : √(m 0 0 + m 1 1 + m 2 2 + 1) ≠ 0 := (Real.sqrt_pos.mpr h).ne'
  have hs := Real.sq_sqrt h.le
  set T := √(m 0 0 + m 1 1 + m 2 2 + 1) with hTd
  unfold homT
  rw [← hs]
  have e : traceQuat m = ⟨1 / 2 * T, (m 2 1 - m 1 2) * (1 / 2 / T), (m 0 2 - m 2 0) * (1 / 2 / T),
    (m 1 0 - m 0 1) * (1 / 2 / T)⟩ := rfl
  rw [e]
  ext i j
  fin_cases i <;> fin_cases j <;> simp [Quat.hom] <;> field_simp <;> ring

theorem homT_core (q : Quat) (hw : q.w ≠ 0) (A : V3) :
    let D := crossMatrix A * q.hom
    let s := 4 * q.w ^ 2
    let a := 4 * q.w * q.x
    let b := 4 * q.w * q.y
    let c := 4 * q.w * q.z
    let ds := D 0 0 + D 1 1 + D 2 2
    let da := D 2 1 - D 1 2
    let db := D 0 2 - D 2 0
    let dc := D 1 0 - D 0 1
    D = !![ds / 4 + ((2 * a * da - 2 * b * db - 2 * c * dc) * s - (a * a - b * b - c * c) * ds) / (4 * s ^ 2),
        ((da * b + a * db) * s - a * b * ds) / (2 * s ^ 2) - dc / 2,
        ((da * c + a * dc) * s - a * c * ds) / (2 * s ^ 2) + db / 2;
      ((da * b + a * db) * s - a * b * ds) / (2 * s ^ 2) + dc / 2,
        ds / 4 + ((2 * b * db - 2 * a * da - 2 * c * dc) * s - (b * b - a * a - c * c) * ds) / (4 * s ^ 2),
        ((db * c + b * dc) * s - b * c * ds) / (2 * s ^ 2) - da / 2;
      ((da * c + a * dc) * s - a * c * ds) / (2 * s ^ 2) - db / 2,
        ((db * c + b * dc) * s - b * c * ds) / (2 * s ^ 2) + da / 2,
        ds / 4 + ((2 * c * dc - 2 * a * da - 2 * b * db) * s - (c * c - a * a - b * b) * ds) / (4 * s ^ 2)] := by
  ext i j
  fin_cases i <;> fin_cases j <;>
    simp [Quat.hom, crossMatrix, Matrix.mul_apply, Fin.sum_univ_three] <;> field_simp <;> ring

theorem diff_traceQuat {f : E → M3} {A : E → V3} (hf : DiffM f x fun h => crossMatrix (A h) * f x)
    (hR : IsRotation (f x)) (ht : 0 < f x 0 0 + f x 1 1 + f x 2 2 + 1) :
    DiffM (fun e => (traceQuat (f e)).hom) x fun h => crossMatrix (A h) * f x := by
  obtain ⟨hu, hm⟩ := traceQuat_spec hR ht
  have hR' : f x = (traceQuat (f x)).hom := by rw [← Quat.toMatrix_eq_hom hu, hm]
  have hwd : (traceQuat (f x)).w = 1 / 2 * √(f x 0 0 + f x 1 1 + f x 2 2 + 1) := rfl
  have hw : (traceQuat (f x)).w ≠ 0 := by
    rw [hwd]; exact mul_ne_zero (by norm_num) (Real.sqrt_pos.mpr ht).ne'
  have hs : f x 0 0 + f x 1 1 + f x 2 2 + 1 = 4 * (traceQuat (f x)).w ^ 2 := by
    rw [hwd, mul_pow, Real.sq_sqrt ht.le]; ring
  generalize traceQuat (f x) = q at *
  have ha : f x 2 1 - f x 1 2 = 4 * q.w * q.x := by rw [hR']; simp [Quat.hom]; ring
  have hb : f x 0 2 - f x 2 0 = 4 * q.w * q.y := by rw [hR']; simp [Quat.hom]; ring
  have hc : f x 1 0 - f x 0 1 = 4 * q.w * q.z := by rw [hR']; simp [Quat.hom]; ring
  have s0 : f x 0 0 + f x 1 1 + f x 2 2 + 1 ≠ 0 := ht.ne'
  have ds := (((hf 0 0).add (hf 1 1)).add (hf 2 2)).add (Diff.const (x := x) 1)
  have da := (hf 2 1).sub (hf 1 2)
  have db := (hf 0 2).sub (hf 2 0)
  have dc := (hf 1 0).sub (hf 0 1)
  have near : ∀ᶠ e in 𝓝 x, (traceQuat (f e)).hom =
      homT (f e 0 0 + f e 1 1 + f e 2 2 + 1) (f e 2 1 - f e 1 2) (f e 0 2 - f e 2 0)
        (f e 1 0 - f e 0 1) := by
    filter_upwards [ds.continuousAt.eventually_const_lt ht] with e he
    exact hom_traceQuat he
  refine DiffM.congr_left ?_ near
  have core := fun h => homT_core q hw (A h)
  rw [← hR'] at core
  simp only [← ha, ← hb, ← hc, ← hs] at core
  refine DiffM.congr_right ?_ core
  have q4 : ∀ {g G : E → ℝ}, Diff g x G → Diff (fun e => g e / 4) x fun h => G h / 4 := fun d =>
    ((d.const_mul (1 / 4)).congr_left (Eventually.of_forall fun e => by ring)).congr_right
      fun h => by ring
  have q2 : ∀ {g G : E → ℝ}, Diff g x G → Diff (fun e => g e / 2) x fun h => G h / 2 := fun d =>
    ((d.const_mul (1 / 2)).congr_left (Eventually.of_forall fun e => by ring)).congr_right
      fun h => by ring
  have dd4 : ∀ {g G : E → ℝ}, Diff g x G → Diff (fun e => g e /
      (4 * (f e 0 0 + f e 1 1 + f e 2 2 + 1))) x fun h => (G h * (f x 0 0 + f x 1 1 + f x 2 2 + 1) -
        g x * ((crossMatrix (A h) * f x) 0 0 + (crossMatrix (A h) * f x) 1 1 +
          (crossMatrix (A h) * f x) 2 2)) / (4 * (f x 0 0 + f x 1 1 + f x 2 2 + 1) ^ 2) := fun d =>
    (d.div (ds.const_mul 4) (mul_ne_zero (by norm_num) s0)).congr_right fun h => by
      field_simp; ring
  have dd2 : ∀ {g G : E → ℝ}, Diff g x G → Diff (fun e => g e /
      (2 * (f e 0 0 + f e 1 1 + f e 2 2 + 1))) x fun h => (G h * (f x 0 0 + f x 1 1 + f x 2 2 + 1) -
        g x * ((crossMatrix (A h) * f x) 0 0 + (crossMatrix (A h) * f x) 1 1 +
          (crossMatrix (A h) * f x) 2 2)) / (2 * (f x 0 0 + f x 1 1 + f x 2 2 + 1) ^ 2) := fun d =>
    (d.div (ds.const_mul 2) (mul_ne_zero (by norm_num) s0)).congr_right fun h => by
      field_simp; ring
  have diag : ∀ {f g k F G K : E → ℝ}, Diff f x F → Diff g x G → Diff k x K →
      Diff (fun e => f e * f e - g e * g e - k e * k e) x fun h =>
        2 * f x * F h - 2 * g x * G h - 2 * k x * K h := fun d1 d2 d3 =>
    (((d1.mul d1).sub (d2.mul d2)).sub (d3.mul d3)).congr_right fun h => by ring
  intro i j
  fin_cases i <;> fin_cases j
  · exact ((q4 ds).add (dd4 (diag da db dc))).congr_right fun h => by simp
  · exact ((dd2 (da.mul db)).sub (q2 dc)).congr_right fun h => by simp
  · exact ((dd2 (da.mul dc)).add (q2 db)).congr_right fun h => by simp
  · exact ((dd2 (da.mul db)).add (q2 dc)).congr_right fun h => by simp
  · exact ((q4 ds).add (dd4 (diag db da dc))).congr_right fun h => by simp
  · exact ((dd2 (db.mul dc)).sub (q2 da)).congr_right fun h => by simp
  · exact ((dd2 (da.mul dc)).sub (q2 db)).congr_right fun h => by simp
  · exact ((dd2 (db.mul dc)).add (q2 da)).congr_right fun h => by simp
  · exact ((q4 ds).add (dd4 (diag dc da db))).congr_right fun h => by simp

/-- The pivot used by one of the four branches of the matrix to quaternion conversion. -/
def pivot (i : Fin 4) (m : M3) : ℝ :=
  match i with
  | 0 => m 0 0 + m 1 1 + m 2 2 + 1
  | 1 => m 0 0 - m 1 1 - m 2 2 + 1
  | 2 => m 1 1 - m 2 2 - m 0 0 + 1
  | 3 => m 2 2 - m 0 0 - m 1 1 + 1

/-- The quaternion of one of the four branches. -/
noncomputable def branch (i : Fin 4) (m : M3) : Quat :=
  match i with
  | 0 => traceQuat m
  | 1 => pivX m
  | 2 => pivY m
  | 3 => pivZ m

theorem ofMatrix_branch (m : M3) : ∃ i, 1 ≤ pivot i m ∧ Quat.ofMatrix m = some (branch i m) := by
  rcases ofMatrix_cases1 m with h | h | h | h
  · exact ⟨0, h⟩
  · exact ⟨1, h⟩
  · exact ⟨2, h⟩
  · exact ⟨3, h⟩

theorem branch_spec {R : M3} (hR : IsRotation R) : (i : Fin 4) → 0 < pivot i R →
    (branch i R).IsUnit ∧ (branch i R).hom = R := by
  have : ∀ i, 0 < pivot i R → (branch i R).IsUnit ∧ (branch i R).toMatrix = R := by
    intro i h
    match i, h with
    | 0, h => exact traceQuat_spec hR h
    | 1, h => exact pivX_spec hR h
    | 2, h => exact pivY_spec hR h
    | 3, h => exact pivZ_spec hR h
  intro i h
  obtain ⟨h1, h2⟩ := this i h
  exact ⟨h1, by rw [← Quat.toMatrix_eq_hom h1, h2]⟩

theorem diff_pivot {f F : E → M3} (hf : DiffM f x F) (i : Fin 4) :
    ContinuousAt (fun e => pivot i (f e)) x := by
  have c0 := (hf 0 0).continuousAt
  have c1 := (hf 1 1).continuousAt
  have c2 := (hf 2 2).continuousAt
  match i with
  | 0 => exact ((c0.add c1).add c2).add continuousAt_const
  | 1 => exact ((c0.sub c1).sub c2).add continuousAt_const
  | 2 => exact ((c1.sub c2).sub c0).add continuousAt_const
  | 3 => exact ((c2.sub c0).sub c1).add continuousAt_const

theorem diff_branch {f : E → M3} {A : E → V3} (hf : DiffM f x fun h => crossMatrix (A h) * f x)
    (hR : IsRotation (f x)) (i : Fin 4) (hi : 0 < pivot i (f x)) :
    DiffM (fun e => (branch i (f e)).hom) x fun h => crossMatrix (A h) * f x := by
  have flip : ∀ (F : M3) (q : Quat), IsRotation F → F * q.hom = 1 →
      0 < (f x * F) 0 0 + (f x * F) 1 1 + (f x * F) 2 2 + 1 →
      DiffM (fun e => ((traceQuat (f e * F)).mul q).hom) x fun h => crossMatrix (A h) * f x := by
    intro F q hF hFq ht
    have d : DiffM (fun e => f e * F) x fun h => crossMatrix (A h) * (f x * F) :=
      (hf.mul (DiffM.const (x := x) F)).congr_right fun h => by
        rw [Matrix.mul_zero, add_zero, Matrix.mul_assoc]
    have d2 := (diff_traceQuat d (hR.mul hF) ht).mul (DiffM.const (x := x) q.hom)
    refine (d2.congr_left (Eventually.of_forall fun e => Quat.hom_mul _ _)).congr_right fun h => ?_
    rw [Matrix.mul_zero, add_zero, Matrix.mul_assoc, Matrix.mul_assoc, hFq, Matrix.mul_one]
  have hom_of : ∀ {q : Quat} {F : M3}, q.IsUnit ∧ q.toMatrix = F → q.hom = F := fun h => by
    rw [← Quat.toMatrix_eq_hom h.1, h.2]
  have rot_of : ∀ {q : Quat} {F : M3}, q.IsUnit ∧ q.toMatrix = F → IsRotation F := fun h => by
    rw [← h.2]; exact Quat.toMatrix_isRotation h.1
  match i, hi with
  | 0, hi => exact diff_traceQuat hf hR hi
  | 1, hi =>
    change DiffM (fun e => (pivX (f e)).hom) x _
    simp only [pivX_eq]
    refine flip flipX qX (rot_of qX_spec) ?_ ?_
    · rw [hom_of qX_spec]
      ext i j; fin_cases i <;> fin_cases j <;> simp [flipX, Matrix.mul_apply, Fin.sum_univ_three]
    · simp only [pivot] at hi
      simp [flipX, Matrix.mul_apply, Fin.sum_univ_three]; linarith
  | 2, hi =>
    change DiffM (fun e => (pivY (f e)).hom) x _
    simp only [pivY_eq]
    refine flip flipY qY (rot_of qY_spec) ?_ ?_
    · rw [hom_of qY_spec]
      ext i j; fin_cases i <;> fin_cases j <;> simp [flipY, Matrix.mul_apply, Fin.sum_univ_three]
    · simp only [pivot] at hi
      simp [flipY, Matrix.mul_apply, Fin.sum_univ_three]; linarith
  | 3, hi =>
    change DiffM (fun e => (pivZ (f e)).hom) x _
    simp only [pivZ_eq]
    refine flip flipZ qZ (rot_of qZ_spec) ?_ ?_
    · rw [hom_of qZ_spec]
      ext i j; fin_cases i <;> fin_cases j <;> simp [flipZ, Matrix.mul_apply, Fin.sum_univ_three]
    · simp only [pivot] at hi
      simp [flipZ, Matrix.mul_apply, Fin.sum_univ_three]; linarith

/-- The quaternion of a matrix (total helper: `ofMatrix` never fails). -/
noncomputable def ofM (m : M3) : Quat := (Quat.ofMatrix m).get (by
  obtain ⟨i, -, h⟩ := ofMatrix_branch m
  rw [h]; rfl)

theorem ofMatrix_eq (m : M3) : Quat.ofMatrix m = some (ofM m) := by simp [ofM]

theorem ofM_spec {R : M3} (hR : IsRotation R) : (ofM R).IsUnit ∧ (ofM R).hom = R := by
  obtain ⟨i, h, e⟩ := ofMatrix_branch R
  rw [ofMatrix_eq] at e
  rw [Option.some.inj e]
  exact branch_spec hR i (by linarith)

/-- Conversion of a matrix to a quaternion turns with the same velocity. -/
theorem diff_ofM {f : E → M3} {A : E → V3} (hf : DiffM f x fun h => crossMatrix (A h) * f x)
    (hR : IsRotation (f x)) :
    DiffM (fun e => (ofM (f e)).hom) x fun h => crossMatrix (A h) * (ofM (f x)).hom := by
  obtain ⟨i0, h0, -⟩ := ofMatrix_branch (f x)
  have sel : ∀ᶠ e in 𝓝 x, ∃ i : {i : Fin 4 // 0 < pivot i (f x)}, ofM (f e) = branch i.1 (f e) := by
    have : ∀ᶠ e in 𝓝 x, ∀ i : Fin 4, 1 ≤ pivot i (f e) → 0 < pivot i (f x) := by
      rw [eventually_all]
      intro i
      by_cases hp : 0 < pivot i (f x)
      · exact Eventually.of_forall fun _ _ => hp
      · have hlt : pivot i (f x) < 1 := by linarith
        filter_upwards [(diff_pivot hf i).eventually_lt_const hlt] with e he h1
        exact absurd h1 (not_le.mpr he)
    filter_upwards [this] with e he
    obtain ⟨i, hi, e2⟩ := ofMatrix_branch (f e)
    rw [ofMatrix_eq] at e2
    exact ⟨⟨i, he i hi⟩, Option.some.inj e2⟩
  rw [(ofM_spec hR).2]
  intro a b
  refine Diff.select (ι := {i : Fin 4 // 0 < pivot i (f x)})
    (g := fun i e => (branch i.1 (f e)).hom a b) (fun i => ?_) (fun i => ?_) ?_ ⟨i0, by linarith⟩
  · exact diff_branch hf hR i.1 i.2 a b
  · simp only []
    rw [(branch_spec hR i.1 i.2).2, (ofM_spec hR).2]
  · filter_upwards [sel] with e ⟨i, hi⟩
    exact ⟨i, by simp only [hi]⟩

end WG
