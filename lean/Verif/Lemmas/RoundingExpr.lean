import Verif.Lemmas.RoundingQuat
import Verif.Lemmas.Rotation
import Verif.Lemmas.Rigid
import Verif.Lemmas.Meaning

/-! # Rounding errors of the operators -/

namespace WG.Round
open Matrix Spec

variable {F : Fl}

/-- What the exact rotation of a class satisfies. -/
def RotOk : (k : RotK) → k.Val → Prop
  | .quat, q => Quat.IsUnit q
  | .mat, (m : M3) => mᵀ * m = 1
  | .aa, _ => True

/-- Exact composition. -/
def compRot : (k : RotK) → k.Val → k.Val → k.Val
  | .quat, a, b => Quat.mul a b
  | .mat, (a : M3), (b : M3) => (a * b : M3)
  | .aa, a, _ => a

/-- Exact rotation of a vector. -/
def rotVec : (k : RotK) → k.Val → V3 → V3
  | .quat, q, v => Quat.rotate q v
  | .mat, m, v => rotateM m v
  | .aa, _, v => v

/-- What the exact value of a class satisfies. -/
def Ok : (τ : Ty) → ℝ → τ.Val → Prop
  | .vec k, S, x => len (n := k.Idx) x ≤ S
  | .point, S, x => len (n := Fin 3) x ≤ S
  | .rot k, _, x => RotOk k x
  | .rigid k, S, x => RotOk k.rotK (k.rot x) ∧ len (k.trans x) ≤ S

theorem len_unit {q : Quat} (h : q.IsUnit) : len (coeffs q) = 1 := by
  have h1 : len (coeffs q) ^ 2 = 1 := by
    rw [len_coeffs_sq]
    unfold Quat.IsUnit at h
    linarith
  nlinarith [len_nonneg (coeffs q)]

theorem iso_quat {q : Quat} (h : q.IsUnit) (x y : V3) :
    len (q.rotate x - q.rotate y) = len (x - y) := by
  rw [Quat.rotate_eq, Quat.rotate_eq, ← Matrix.mulVec_sub,
    len_orth (Quat.toMatrix_isRotation h).transpose_mul_self]

theorem rotate_near {k : RotK} {R R' : k.Val} {v v' w : V3} {A B S : ℝ} (hR : RotOk k R)
    (hA : 1 ≤ A) (hB : 1 ≤ B) (hv : len v ≤ S) (h1 : Within (.rot k) (A - 1) 0 R R')
    (h2 : len (v' - v) ≤ (B - 1) * S) (h : FlRotate F k R' v' w) :
    len (w - rotVec k R v) ≤ (rotateFactor F.u k A B - 1) * S ∧ len (rotVec k R v) = len v := by
  cases k with
  | quat =>
    refine ⟨rotateQ_near (len_unit hR) hA hB hv h1 h2 h (iso_quat hR), ?_⟩
    have := iso_quat hR v 0
    have z : Quat.rotate R 0 = 0 := by rw [Quat.rotate_eq, Matrix.mulVec_zero]
    rwa [z, sub_zero, sub_zero] at this
  | mat => exact ⟨rotateM_near hR hA hB hv h1 h2 h, len_orth hR v⟩
  | aa => exact h.elim

theorem orth_mul {R Q : M3} (hR : Rᵀ * R = 1) (hQ : Qᵀ * Q = 1) : (R * Q)ᵀ * (R * Q) = 1 := by
  rw [Matrix.transpose_mul, Matrix.mul_assoc, ← Matrix.mul_assoc Rᵀ, hR, Matrix.one_mul, hQ]

theorem compose_near {k : RotK} {R R' Q Q' C : k.Val} {A B : ℝ} (hR : RotOk k R) (hQ : RotOk k Q)
    (hA : 1 ≤ A) (hB : 1 ≤ B) (h1 : Within (.rot k) (A - 1) 0 R R')
    (h2 : Within (.rot k) (B - 1) 0 Q Q') (h : FlCompose F k R' Q' C) :
    RotOk k (compRot k R Q) ∧
      Within (.rot k) (composeFactor F.u k A B - 1) 0 (compRot k R Q) C := by
  cases k with
  | quat => exact ⟨Quat.mul_isUnit hR hQ, composeQ_near (len_unit hR) (len_unit hQ) hA hB h1 h2 h⟩
  | mat =>
    refine ⟨?_, composeM_near hR hQ hA hB h1 h2 h⟩
    exact orth_mul hR hQ
  | aa => exact h.elim

theorem inv_near {k : RotK} {R R' : k.Val} {δ : ℝ} (hR : RotOk k R)
    (h1 : Within (.rot k) δ 0 R R') :
    RotOk k (invRot k R) ∧ Within (.rot k) δ 0 (invRot k R) (invRot k R') := by
  cases k with
  | quat =>
    refine ⟨Quat.conj_isUnit hR, le_trans (le_of_eq ?_) h1⟩
    refine le_antisymm (len_mono fun i => ?_) (len_mono fun i => ?_) <;>
    · fin_cases i
      · exact le_rfl
      all_goals
        simp only [coeffs, invRot, Quat.conj, Pi.sub_apply]
        simp [neg_add_eq_sub, abs_sub_comm]
  | mat =>
    refine ⟨?_, ?_⟩
    · change (Matrix.transpose R)ᵀ * Matrix.transpose R = 1
      rw [Matrix.transpose_transpose]
      exact orth_comm hR
    · change frob (Matrix.transpose R' - Matrix.transpose R) ≤ δ
      rw [← Matrix.transpose_sub, frob_transpose]
      exact h1
  | aa => exact ⟨trivial, congrArg (invRot .aa) h1⟩

theorem one_le_mul' {a b : ℝ} (ha : 1 ≤ a) (hb : 1 ≤ b) : 1 ≤ a * b := by nlinarith

theorem one_le_rotateFactor (k : RotK) {A B : ℝ} (hA : 1 ≤ A) (hB : 1 ≤ B) :
    1 ≤ rotateFactor F.u k A B := by
  have := growth_nonneg F 7
  have := growth_nonneg F 3
  cases k with
  | quat => exact one_le_mul' (one_le_mul' (one_le_pow₀ hA) hB) (by linarith)
  | mat => exact one_le_mul' (one_le_mul' hA hB) (by linarith)
  | aa => exact one_le_mul' hA hB

theorem one_le_composeFactor (k : RotK) {A B : ℝ} (hA : 1 ≤ A) (hB : 1 ≤ B) :
    1 ≤ composeFactor F.u k A B := by
  have := growth_nonneg F 4
  have := growth_nonneg F 3
  cases k with
  | quat => exact one_le_mul' (one_le_mul' hA hB) (by linarith)
  | mat => exact one_le_mul' (one_le_mul' hA hB) (by linarith)
  | aa => exact one_le_mul' hA hB

theorem within_mono {k : RotK} {δ δ' : ℝ} (h : δ ≤ δ') {x z : k.Val} (hw : Within (.rot k) δ 0 x z) :
    Within (.rot k) δ' 0 x z := by
  cases k with
  | quat => exact hw.trans h
  | mat => exact hw.trans h
  | aa => exact hw

theorem within_rot_size {k : RotK} {δ S T : ℝ} {x z : k.Val} :
    Within (.rot k) δ S x z ↔ Within (.rot k) δ T x z := by
  cases k <;> exact Iff.rfl

theorem within_rigid {k : RigK} {δ S : ℝ} {x z : k.Val} :
    Within (.rigid k) δ S x z ↔
      Within (.rot k.rotK) δ 0 (k.rot x) (k.rot z) ∧ len (k.trans z - k.trans x) ≤ δ * S := by
  cases k <;> exact Iff.rfl

theorem rot_mk (k : RigK) (R : k.rotK.Val) (t : V3) : k.rot (k.mk R t) = R ∧ k.trans (k.mk R t) = t := by
  cases k with
  | mat => exact ⟨rotBlock_mk4 R t, transBlock_mk4 R t⟩
  | compact => exact ⟨rfl, rfl⟩

section
variable {n : Type} [Fintype n]

/-- Sum of two vectors. -/
theorem add_near {v w v' w' z : n → ℝ} {A B S T : ℝ} (hA : 1 ≤ A) (hB : 1 ≤ B) (hv : len v ≤ S)
    (hw : len w ≤ T) (h1 : len (v' - v) ≤ (A - 1) * S) (h2 : len (w' - w) ≤ (B - 1) * T)
    (h : FlAdd F v' w' z) :
    len (v + w) ≤ S + T ∧ len (z - (v + w)) ≤ (max A B * (1 + F.u) - 1) * (S + T) := by
  have hS : 0 ≤ S := (len_nonneg v).trans hv
  have hT : 0 ≤ T := (len_nonneg w).trans hw
  refine ⟨(len_add_le _ _).trans (add_le_add hv hw), ?_⟩
  have e : z - (v + w) = (z - (v' + w')) + ((v' - v) + (w' - w)) := by abel
  have a1 : (A - 1) * S ≤ (max A B - 1) * S :=
    mul_le_mul_of_nonneg_right (sub_le_sub_right (le_max_left A B) 1) hS
  have a2 : (B - 1) * T ≤ (max A B - 1) * T :=
    mul_le_mul_of_nonneg_right (sub_le_sub_right (le_max_right A B) 1) hT
  have t1 : len (v' + w') ≤ max A B * (S + T) := by
    have b1 := len_near hv (h1.trans a1)
    have b2 := len_near hw (h2.trans a2)
    rw [mul_add]
    exact (len_add_le _ _).trans (add_le_add b1 b2)
  have t2 := (flAdd_err h).trans (mul_le_mul_of_nonneg_left t1 (u_nonneg F))
  rw [e]
  refine (len_add_le _ _).trans ((add_le_add t2 ((len_add_le _ _).trans
    (add_le_add (h1.trans a1) (h2.trans a2)))).trans (le_of_eq ?_))
  ring

/-- Scaling of a vector. -/
theorem scale_near {v v' z : n → ℝ} {s s' : ℝ} {A B S T : ℝ} (hA : 1 ≤ A) (hB : 1 ≤ B)
    (hs : |s| ≤ S) (hv : len v ≤ T) (h1 : |s' - s| ≤ (A - 1) * S) (h2 : len (v' - v) ≤ (B - 1) * T)
    (h : ∀ i, z i = F.rnd (s' * v' i)) :
    len (s • v) ≤ S * T ∧ len (z - s • v) ≤ (A * B * (1 + F.u) - 1) * (S * T) := by
  have hS : 0 ≤ S := (abs_nonneg s).trans hs
  have hT : 0 ≤ T := (len_nonneg v).trans hv
  refine ⟨(len_smul _ _).le.trans (mul_le_mul hs hv (len_nonneg v) hS), ?_⟩
  have e : z - s • v = (z - s' • v') + ((s' - s) • v' + s • (v' - v)) := by
    rw [sub_smul, smul_sub]
    abel
  have b2 := len_near hv h2
  have b1 : |s'| ≤ A * S := by
    have := abs_add_le s (s' - s)
    rw [add_sub_cancel] at this
    linarith
  have t1 : len (z - s' • v') ≤ F.u * len (s' • v') := by
    rw [← abs_of_nonneg (u_nonneg F), ← len_smul]
    refine len_mono fun i => ?_
    rw [Pi.sub_apply, h i, Pi.smul_apply, Pi.smul_apply, smul_eq_mul, smul_eq_mul, abs_mul F.u,
      abs_of_nonneg (u_nonneg F)]
    exact F.err _
  have t2 : len (s' • v') ≤ A * S * (B * T) := by
    rw [len_smul]
    exact mul_le_mul b1 b2 (len_nonneg _) (by positivity)
  have t3 : len ((s' - s) • v') ≤ (A - 1) * S * (B * T) := by
    rw [len_smul]
    exact mul_le_mul h1 b2 (len_nonneg _) (mul_nonneg (by linarith) hS)
  have t4 : len (s • (v' - v)) ≤ S * ((B - 1) * T) := by
    rw [len_smul]
    exact mul_le_mul hs h2 (len_nonneg _) hS
  rw [e]
  refine (len_add_le _ _).trans ((add_le_add (t1.trans (mul_le_mul_of_nonneg_left t2 (u_nonneg F)))
    ((len_add_le _ _).trans (add_le_add t3 t4))).trans (le_of_eq ?_))
  ring

/-- Inner product. -/
theorem dot_near {v w v' w' : n → ℝ} {z A B S T : ℝ} (hA : 1 ≤ A) (hB : 1 ≤ B) (hv : len v ≤ S)
    (hw : len w ≤ T) (h1 : len (v' - v) ≤ (A - 1) * S) (h2 : len (w' - w) ≤ (B - 1) * T)
    (h : FlDot F v' w' z) :
    |v ⬝ᵥ w| ≤ S * T ∧ |z - v ⬝ᵥ w| ≤ (A * B * (1 + F.u) ^ Fintype.card n - 1) * (S * T) := by
  have hS : 0 ≤ S := (len_nonneg v).trans hv
  have hT : 0 ≤ T := (len_nonneg w).trans hw
  refine ⟨(abs_dot_le v w).trans (mul_le_mul hv hw (len_nonneg w) hS), ?_⟩
  have b1 := len_near hv h1
  have b2 := len_near hw h2
  have e : z - v ⬝ᵥ w = (z - v' ⬝ᵥ w') + ((v' - v) ⬝ᵥ w' + v ⬝ᵥ (w' - w)) := by
    rw [sub_dotProduct, dotProduct_sub]
    ring
  have t1 := (flDot_err h).trans (mul_le_mul_of_nonneg_left
    (mul_le_mul b1 b2 (len_nonneg _) (by positivity)) (growth_nonneg F (Fintype.card n)))
  have t2 := (abs_dot_le (v' - v) w').trans (mul_le_mul h1 b2 (len_nonneg _)
    (mul_nonneg (by linarith) hS))
  have t3 := (abs_dot_le v (w' - w)).trans (mul_le_mul hv h2 (len_nonneg _) hS)
  rw [e]
  refine (abs_add_le _ _).trans ((add_le_add t1 ((abs_add_le _ _).trans (add_le_add t2 t3))).trans
    (le_of_eq ?_))
  unfold growth
  ring

theorem abs_sqrt_sub_le {t L g : ℝ} (hL : 0 ≤ L) (hg : 0 ≤ g) (h : |t - L ^ 2| ≤ g * L ^ 2) :
    |√t - L| ≤ g * L := by
  obtain ⟨h1, h2⟩ := abs_le.mp h
  rw [abs_le]
  constructor
  · by_cases hg1 : 1 ≤ g
    · have := Real.sqrt_nonneg t
      nlinarith
    · have : (1 - g) * L ≤ √t := by
        refine Real.le_sqrt_of_sq_le ?_
        push Not at hg1
        have k : 0 ≤ g * (1 - g) * L ^ 2 := by
          have : 0 ≤ 1 - g := by linarith
          positivity
        nlinarith
      linarith
  · have : √t ≤ (1 + g) * L := by
      rw [Real.sqrt_le_left (by positivity)]
      nlinarith [mul_nonneg hg (sq_nonneg L), mul_nonneg (mul_nonneg hg hg) (sq_nonneg L)]
    linarith

/-- Norm. -/
theorem norm_near {v v' : n → ℝ} {t z A S : ℝ} (hA : 1 ≤ A) (hv : len v ≤ S)
    (h1 : len (v' - v) ≤ (A - 1) * S) (h : FlDot F v' v' t) (hz : z = F.rnd √t) :
    |z - len v| ≤ (A * (1 + F.u) ^ (Fintype.card n + 1) - 1) * S := by
  have hS : 0 ≤ S := (len_nonneg v).trans hv
  have b1 := len_near hv h1
  have u0 := u_nonneg F
  have g0 := growth_nonneg F (Fintype.card n)
  have L0 := len_nonneg v'
  have e1 : |√t - len v'| ≤ growth F.u (Fintype.card n) * len v' := by
    refine abs_sqrt_sub_le L0 g0 ?_
    have := flDot_err h
    rw [len_sq_dot]
    refine this.trans (le_of_eq ?_)
    rw [← sq, len_sq_dot]
  have e2 : |√t| ≤ (1 + growth F.u (Fintype.card n)) * len v' := by
    have := abs_add_le (√t - len v') (len v')
    rw [sub_add_cancel, abs_of_nonneg L0] at this
    linarith
  have e3 := (F.err √t).trans (mul_le_mul_of_nonneg_left e2 u0)
  rw [← hz] at e3
  have e4 : |len v' - len v| ≤ (A - 1) * S := by
    refine le_trans ?_ h1
    rw [len_eq, len_eq, len_eq, WithLp.toLp_sub]
    exact abs_norm_sub_norm_le _ _
  have e5 : |z - len v| ≤ |z - √t| + (|√t - len v'| + |len v' - len v|) := by
    have := (abs_add_le (z - √t) ((√t - len v') + (len v' - len v))).trans
      (add_le_add le_rfl (abs_add_le _ _))
    refine le_trans (le_of_eq ?_) this
    congr 1
    ring
  refine e5.trans ((add_le_add e3 (add_le_add e1 e4)).trans ?_)
  have : F.u * ((1 + growth F.u (Fintype.card n)) * len v') + (growth F.u (Fintype.card n) * len v' +
      (A - 1) * S) = ((1 + F.u) ^ (Fintype.card n + 1) - 1) * len v' + (A - 1) * S := by
    unfold growth
    ring
  rw [this]
  have k : 0 ≤ (1 + F.u) ^ (Fintype.card n + 1) - 1 := growth_nonneg F _
  nlinarith [mul_le_mul_of_nonneg_left b1 k]
end

end WG.Round
