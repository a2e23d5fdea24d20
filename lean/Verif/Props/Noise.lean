import Verif.Model.Noise

/-!
# C45: noise models whiten
-/

namespace WG
open Matrix

theorem lowerSym_of_symm {n : ℕ} {A : Matrix (Fin n) (Fin n) ℝ} (h : Aᵀ = A) : lowerSym A = A := by
  ext i j
  rw [lowerSym, Matrix.of_apply]
  split_ifs
  · rfl
  · exact congrFun (congrFun h i) j

theorem lowerSym_symm {n : ℕ} (A : Matrix (Fin n) (Fin n) ℝ) : (lowerSym A)ᵀ = lowerSym A := by
  ext i j
  simp only [lowerSym, Matrix.transpose_apply, Matrix.of_apply]
  rcases lt_trichotomy i j with h | h | h
  · rw [if_pos h.le, if_neg (not_le.2 h)]
  · subst h; rfl
  · rw [if_neg (not_le.2 h), if_pos h.le]

theorem EigenDecomp.orth' {n : ℕ} {A : Matrix (Fin n) (Fin n) ℝ} (D : EigenDecomp A) :
    D.Vᵀ * D.V = 1 := mul_eq_one_comm.1 D.orth

/-- The eigenvalues are positive exactly when the matrix is positive definite. -/
theorem EigenDecomp.pos_iff {n : ℕ} {A : Matrix (Fin n) (Fin n) ℝ} (D : EigenDecomp A) :
    (∀ i, 0 < D.d i) ↔ (lowerSym A).PosDef := by
  have hu : IsUnit D.V := IsUnit.of_mul_eq_one _ D.orth
  rw [← D.eq]
  have := Matrix.IsUnit.posDef_star_right_conjugate_iff (x := diagonal D.d) hu
  rw [show star D.V = D.Vᵀ from by rw [Matrix.star_eq_conjTranspose, conjTranspose_eq_transpose_of_trivial]] at this
  rw [this, Matrix.posDef_diagonal_iff]

/-- Every real matrix has such a decomposition, so that the statements below are about something. -/
theorem solver_exists : Nonempty Solver := by
  refine ⟨fun n A => ?_⟩
  have hA : (lowerSym A).IsHermitian := by
    rw [Matrix.IsHermitian, conjTranspose_eq_transpose_of_trivial, lowerSym_symm]
  have hU := hA.eigenvectorUnitary.2
  rw [Matrix.mem_unitaryGroup_iff, Matrix.star_eq_conjTranspose,
    conjTranspose_eq_transpose_of_trivial] at hU
  refine ⟨hA.eigenvectorUnitary, hA.eigenvalues, hU, ?_⟩
  have := hA.spectral_theorem
  rw [Unitary.conjStarAlgAut_apply, Matrix.star_eq_conjTranspose,
    conjTranspose_eq_transpose_of_trivial] at this
  exact this.symm

/-- The symmetric matrix with the lower triangle of `A`. -/
theorem lowerSym_eq {n : ℕ} {A S : Matrix (Fin n) (Fin n) ℝ} (hS : Sᵀ = S)
    (hl : ∀ i j, j ≤ i → S i j = A i j) : lowerSym A = S := by
  ext i j
  rw [lowerSym, Matrix.of_apply]
  split_ifs with h
  · exact (hl i j h).symm
  · rw [← hl j i (not_le.1 h).le]
    exact congrFun (congrFun hS i) j

/-- What the inverse square root computed from a decomposition satisfies. -/
theorem EigenDecomp.whitens {n : ℕ} {A : Matrix (Fin n) (Fin n) ℝ} (D : EigenDecomp A)
    (hd : ∀ i, 0 < D.d i) : ∃ W, D.operatorInverseSqrt = some W ∧ W.PosDef ∧ Wᵀ = W ∧
      W * lowerSym A * W = 1 := by
  refine ⟨_, if_pos hd, ?_⟩
  have hc := D.eq
  set S := diagonal (fun i => Real.sqrt (D.d i)⁻¹) with hS
  have hSt : Sᵀ = S := by rw [hS, diagonal_transpose]
  have key : S * diagonal D.d * S = 1 := by
    rw [hS, diagonal_mul_diagonal, diagonal_mul_diagonal, ← diagonal_one]
    congr 1
    ext i
    have h0 := hd i
    have : Real.sqrt (D.d i)⁻¹ * Real.sqrt (D.d i)⁻¹ = (D.d i)⁻¹ :=
      Real.mul_self_sqrt (inv_nonneg.2 h0.le)
    rw [mul_right_comm, this, inv_mul_cancel₀ h0.ne']
  refine ⟨?_, ?_, ?_⟩
  · have hu : IsUnit D.V := IsUnit.of_mul_eq_one _ D.orth
    have := Matrix.IsUnit.posDef_star_right_conjugate_iff (x := S) hu
    rw [show star D.V = D.Vᵀ from by
      rw [Matrix.star_eq_conjTranspose, conjTranspose_eq_transpose_of_trivial]] at this
    rw [this, hS, Matrix.posDef_diagonal_iff]
    exact fun i => Real.sqrt_pos.2 (inv_pos.2 (hd i))
  · simp only [Matrix.transpose_mul, Matrix.transpose_transpose, hSt, Matrix.mul_assoc]
  · calc D.V * S * D.Vᵀ * lowerSym A * (D.V * S * D.Vᵀ)
        = D.V * S * D.Vᵀ * (D.V * diagonal D.d * D.Vᵀ) * (D.V * S * D.Vᵀ) := by
          refine congrArg (fun X => D.V * S * D.Vᵀ * X * (D.V * S * D.Vᵀ)) hc.symm
      _ = D.V * S * (D.Vᵀ * D.V) * diagonal D.d * (D.Vᵀ * D.V) * S * D.Vᵀ := by
          simp only [Matrix.mul_assoc]
      _ = D.V * (S * diagonal D.d * S) * D.Vᵀ := by
          rw [D.orth', Matrix.mul_one, Matrix.mul_one]; simp only [Matrix.mul_assoc]
      _ = 1 := by rw [key, Matrix.mul_one, D.orth]

/-- **C45 (full covariance).** For every positive definite covariance and every eigenvalue solver,
`W = inverseSqrtCov()` is finite, symmetric, positive definite and whitens: `W cov Wᵀ = 1`; moreover
`Wᵀ W` is the inverse of the covariance, and `covariance()` returns the matrix given. -/
theorem c45_full (solver : Solver) {n : ℕ} (cov : Matrix (Fin n) (Fin n) ℝ) (h : cov.PosDef) :
    (fullNoise solver cov).covariance .lvalue = some cov ∧
      ∃ W, (fullNoise solver cov).inverseSqrtCov .lvalue = some (some W) ∧
        W.PosDef ∧ Wᵀ = W ∧ W * cov * Wᵀ = 1 ∧ Wᵀ * W * cov = 1 := by
  refine ⟨rfl, ?_⟩
  have hs : lowerSym cov = cov := lowerSym_of_symm (by
    have := h.isHermitian
    rwa [Matrix.IsHermitian, conjTranspose_eq_transpose_of_trivial] at this)
  obtain ⟨W, h1, h2, h3, h4⟩ := (solver n cov).whitens (((solver n cov).pos_iff).2 (by rwa [hs]))
  rw [hs] at h4
  refine ⟨W, congrArg some h1, h2, h3, by rwa [h3], ?_⟩
  rw [h3, Matrix.mul_assoc]
  rw [Matrix.mul_assoc] at h4
  exact mul_eq_one_comm.1 (by rw [Matrix.mul_assoc]; exact h4)

/-- **C45 (full covariance), limits.** Only the lower triangle is read.  Let `S` be the symmetric
matrix with the lower triangle of the matrix given: the inverse square root is finite exactly when
`S` is positive definite, and then it whitens `S`. -/
theorem c45_full_finite_iff (solver : Solver) {n : ℕ} (cov S : Matrix (Fin n) (Fin n) ℝ)
    (hS : Sᵀ = S) (hl : ∀ i j, j ≤ i → S i j = cov i j) :
    ((∃ W, (fullNoise solver cov).inverseSqrtCov .lvalue = some (some W)) ↔ S.PosDef) ∧
      ∀ W, (fullNoise solver cov).inverseSqrtCov .lvalue = some (some W) → W * S * Wᵀ = 1 := by
  have hs := lowerSym_eq hS hl
  have hp := (solver n cov).pos_iff
  rw [hs] at hp
  have key : ∀ W, (fullNoise solver cov).inverseSqrtCov .lvalue = some (some W) →
      ∀ i, 0 < (solver n cov).d i := by
    intro W hW
    by_contra hn
    have : (fullNoise solver cov).inverseSqrtCov .lvalue = some none := congrArg some (if_neg hn)
    rw [this] at hW
    simp at hW
  refine ⟨⟨fun ⟨W, hW⟩ => hp.1 (key W hW), fun h => ⟨_, congrArg some (if_pos (hp.2 h))⟩⟩, ?_⟩
  intro W hW
  obtain ⟨W', h1, -, h3, h4⟩ := (solver n cov).whitens (key W hW)
  have h5 : (fullNoise solver cov).inverseSqrtCov .lvalue = some (some W') := congrArg some h1
  rw [hW] at h5
  have h6 : W = W' := Option.some.inj (Option.some.inj h5)
  rw [h6, h3, ← hs]
  exact h4

/-- Positive definite matrices with equal squares are equal. -/
theorem posDef_sq_inj {n : ℕ} {A B : Matrix (Fin n) (Fin n) ℝ} (hA : A.PosDef) (hB : B.PosDef)
    (h : A * A = B * B) : A = B := by
  have hC : (A - B).IsHermitian := hA.isHermitian.sub hB.isHermitian
  have hsum : A * (A - B) + (A - B) * B = 0 := by
    rw [Matrix.mul_sub, Matrix.sub_mul, ← h]
    abel
  refine sub_eq_zero.1 (hC.eigenvalues_eq_zero_iff.1 (funext fun j => ?_))
  set x : Fin n → ℝ := ⇑(hC.eigenvectorBasis j) with hx
  have hx0 : x ≠ 0 := by
    intro h0
    refine hC.eigenvectorBasis.toBasis.ne_zero j ?_
    rw [OrthonormalBasis.coe_toBasis]
    ext i
    exact congrFun h0 i
  have he : (A - B) *ᵥ x = hC.eigenvalues j • x := hC.mulVec_eigenvectorBasis j
  have he' : x ᵥ* (A - B) = hC.eigenvalues j • x := by
    rw [← he, ← Matrix.vecMul_transpose, ← conjTranspose_eq_transpose_of_trivial, hC.eq]
  have h0 : x ⬝ᵥ ((A * (A - B) + (A - B) * B) *ᵥ x) = 0 := by
    rw [hsum, Matrix.zero_mulVec, dotProduct_zero]
  rw [Matrix.add_mulVec, dotProduct_add, ← Matrix.mulVec_mulVec, ← Matrix.mulVec_mulVec, he,
    Matrix.mulVec_smul, dotProduct_smul, Matrix.dotProduct_mulVec x (A - B), he', smul_dotProduct,
    ← smul_add, smul_eq_mul] at h0
  have pA := hA.dotProduct_mulVec_pos hx0
  have pB := hB.dotProduct_mulVec_pos hx0
  rw [star_trivial] at pA pB
  exact (mul_eq_zero.1 h0).resolve_right (by positivity)

/-- **C45 (the solver does not matter).** Whatever eigenvalue solvers are used, and whatever is above
the diagonals, matrices with equal lower triangles give the same inverse square root: the order of
the eigenvalues and the signs of the eigenvectors cancel. -/
theorem c45_solver_independent (solver solver' : Solver) {n : ℕ}
    (cov cov' : Matrix (Fin n) (Fin n) ℝ) (hl : ∀ i j, j ≤ i → cov i j = cov' i j) :
    (fullNoise solver cov).inverseSqrtCov .lvalue = (fullNoise solver' cov').inverseSqrtCov .lvalue := by
  have hs : lowerSym cov = lowerSym cov' := by
    ext i j
    simp only [lowerSym, Matrix.of_apply]
    split_ifs with h
    · exact hl i j h
    · exact hl j i (not_le.1 h).le
  have hp := (solver n cov).pos_iff
  have hp' := (solver' n cov').pos_iff
  by_cases h : (lowerSym cov).PosDef
  · obtain ⟨W, h1, h2, h3, h4⟩ := (solver n cov).whitens (hp.2 h)
    obtain ⟨W', k1, k2, k3, k4⟩ := (solver' n cov').whitens (hp'.2 (hs ▸ h))
    rw [← hs] at k4
    have e1 : W * W * lowerSym cov = 1 := by
      rw [Matrix.mul_assoc] at h4 ⊢
      exact mul_eq_one_comm.1 (by rw [Matrix.mul_assoc]; exact h4)
    have e2 : W' * W' * lowerSym cov = 1 := by
      rw [Matrix.mul_assoc] at k4 ⊢
      exact mul_eq_one_comm.1 (by rw [Matrix.mul_assoc]; exact k4)
    have hu : IsUnit (lowerSym cov) := IsUnit.of_mul_eq_one _ (mul_eq_one_comm.1 e1)
    have hW : W = W' := posDef_sq_inj h2 k2 (hu.mul_right_cancel (e1.trans e2.symm))
    exact congrArg some (h1.trans (hW ▸ k1.symm))
  · have h' : ¬(lowerSym cov').PosDef := hs ▸ h
    exact congrArg some ((if_neg fun g => h (hp.1 g)).trans (if_neg fun g => h' (hp'.1 g)).symm)

/-- **C45 (standard deviations).** For every list of nonzero standard deviations the covariance is
the diagonal matrix of their squares and `W` whitens it. -/
theorem c45_diagonal {n : ℕ} (σ : Fin n → ℝ) (h : ∀ i, σ i ≠ 0) :
    (diagonalNoise σ).covariance .lvalue = some (diagonal fun i => σ i ^ 2) ∧
      ∃ W, (diagonalNoise σ).inverseSqrtCov .lvalue = some (some W) ∧
        W * (diagonal fun i => σ i ^ 2) * Wᵀ = 1 := by
  refine ⟨?_, _, congrArg some (if_pos h), ?_⟩
  · show some (diagonal fun i => σ i * σ i) = _
    simp only [pow_two]
  · rw [diagonal_transpose, diagonal_mul_diagonal, diagonal_mul_diagonal, ← diagonal_one]
    congr 1
    ext i
    have := h i
    field_simp

/-- **C45, limit.** On a temporary noise object neither accessor is accepted by the compiler. -/
theorem c45_temporary_rejected {n : ℕ} (N : Noise n) :
    N.covariance .rvalue = none ∧ N.inverseSqrtCov .rvalue = none := ⟨rfl, rfl⟩

/-- A positive definite covariance that is not diagonal. -/
theorem exCov_posDef : (!![2, 1; 1, 2] : Matrix (Fin 2) (Fin 2) ℝ).PosDef := by
  refine Matrix.PosDef.of_dotProduct_mulVec_pos ?_ ?_
  · ext i j; fin_cases i <;> fin_cases j <;> rfl
  · intro x hx
    have h0 : x 0 ≠ 0 ∨ x 1 ≠ 0 := by
      by_contra hn
      push Not at hn
      apply hx
      ext i; fin_cases i
      · exact hn.1
      · exact hn.2
    simp only [star_trivial, dotProduct, mulVec, Fin.sum_univ_two, Matrix.of_apply, Matrix.cons_val',
      Matrix.cons_val_zero, Matrix.cons_val_one]
    rcases h0 with h0 | h0
    · nlinarith [sq_nonneg (x 0 + x 1), sq_nonneg (x 1), sq_pos_of_ne_zero h0]
    · nlinarith [sq_nonneg (x 0 + x 1), sq_nonneg (x 0), sq_pos_of_ne_zero h0]

example (solver : Solver) : ∃ W, (fullNoise solver !![2, 1; 1, 2]).inverseSqrtCov .lvalue =
    some (some W) ∧ W * !![2, 1; 1, 2] * Wᵀ = 1 :=
  let ⟨W, h1, _, _, h2, _⟩ := (c45_full solver _ exCov_posDef).2
  ⟨W, h1, h2⟩

/-- The upper triangle may hold anything. -/
example (solver : Solver) (x : ℝ) : ∃ W, (fullNoise solver !![2, x; 1, 2]).inverseSqrtCov .lvalue =
    some (some W) ∧ W * !![2, 1; 1, 2] * Wᵀ = 1 := by
  have h := c45_full_finite_iff solver !![2, x; 1, 2] !![2, 1; 1, 2]
    (by ext i j; fin_cases i <;> fin_cases j <;> rfl)
    (by intro i j h; fin_cases i <;> fin_cases j <;> first | rfl | exact absurd h (by decide))
  obtain ⟨W, hW⟩ := h.1.2 exCov_posDef
  exact ⟨W, hW, h.2 W hW⟩

example : ∃ W, (diagonalNoise ![(1 / 10 : ℝ), 1 / 5]).inverseSqrtCov .lvalue = some (some W) ∧
    W * (diagonal fun i => (![(1 / 10 : ℝ), 1 / 5]) i ^ 2) * Wᵀ = 1 :=
  (c45_diagonal _ (by intro i; fin_cases i <;> norm_num)).2

/-- **C45, limit.** For a covariance that is not symmetric the claim fails: only the lower triangle is
used.  Witness `(2 0; 1 2)`: no solver yields a `W` with `W cov Wᵀ = 1`. -/
theorem c45_asymmetric_not_whitened (solver : Solver) :
    ∀ W, (fullNoise solver !![2, 0; 1, 2]).inverseSqrtCov .lvalue = some (some W) →
      W * !![2, 0; 1, 2] * Wᵀ ≠ 1 := by
  intro W _ h
  -- `W cov Wᵀ = 1` makes `cov` symmetric
  have ht : W * (!![2, 0; 1, 2] : Matrix (Fin 2) (Fin 2) ℝ)ᵀ * Wᵀ = 1 := by
    have := congrArg Matrix.transpose h
    rwa [Matrix.transpose_mul, Matrix.transpose_mul, Matrix.transpose_transpose,
      Matrix.transpose_one, ← Matrix.mul_assoc] at this
  have hu : IsUnit W := IsUnit.of_mul_eq_one
    (!![2, 0; 1, 2] * Wᵀ) (by rw [← Matrix.mul_assoc]; exact h)
  have hu' : IsUnit Wᵀ := (Matrix.isUnit_transpose W).2 hu
  have := hu.mul_left_cancel (hu'.mul_right_cancel (h.trans ht.symm))
  have := congrFun (congrFun this 0) 1
  simp at this

end WG
