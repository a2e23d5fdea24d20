import Verif.Lemmas.Rigid

/-! The closed form of the twist exponential is the matrix exponential of the 4x4 twist matrix. -/

namespace WG
open Matrix Spec

/-- Homogeneous 4x4 matrix with the given blocks and zero last row (helper). -/
def blk (R : M3) (t : V3) : M4 :=
  !![R 0 0, R 0 1, R 0 2, t 0; R 1 0, R 1 1, R 1 2, t 1; R 2 0, R 2 1, R 2 2, t 2; 0, 0, 0, 0]

theorem blk_mul (A B : M3) (a b : V3) : blk A a * blk B b = blk (A * B) (A *ᵥ b) := by
  ext i j
  fin_cases i <;> fin_cases j <;>
    simp [blk, Matrix.mul_apply, Fin.sum_univ_four, Fin.sum_univ_three, mulVec, dotProduct]

theorem blk_pow (K : M3) (u : V3) (n : ℕ) : blk K u ^ (n + 1) = blk (K ^ (n + 1)) (K ^ n *ᵥ u) := by
  induction n with
  | zero => simp
  | succ n ih =>
    rw [pow_succ', ih, blk_mul, ← pow_succ', mulVec_mulVec, ← pow_succ']

theorem blk_smul (c : ℝ) (K : M3) (u : V3) : c • blk K u = blk (c • K) (c • u) := by
  ext i j
  fin_cases i <;> fin_cases j <;> simp [blk]

theorem one_add_blk (R : M3) (t : V3) : (1 : M4) + blk R t = mk4 (1 + R) t := by
  ext i j
  fin_cases i <;> fin_cases j <;> simp [blk, mk4]

/-- `blk` as a linear map (helper). -/
def blkL : (M3 × V3) →ₗ[ℝ] M4 where
  toFun p := blk p.1 p.2
  map_add' p q := by
    ext i j
    fin_cases i <;> fin_cases j <;> simp [blk]
  map_smul' c p := by rw [RingHom.id_apply, blk_smul]; rfl

theorem hasSum_blk {f : ℕ → M3} {g : ℕ → V3} {R : M3} {t : V3} (hf : HasSum f R)
    (hg : HasSum g t) : HasSum (fun n => blk (f n) (g n)) (blk R t) :=
  (hf.prodMk hg).mapL (LinearMap.toContinuousLinearMap blkL)

theorem v_odd_sum {φ : V3} {θ : ℝ} (hs : θ ≠ 0) (hsq : θ ^ 2 = normSq φ) :
    HasSum (fun k : ℕ => ((Nat.factorial (2 * k + 1 + 1) : ℝ)⁻¹) • crossMatrix φ ^ (2 * k + 1))
      (((1 - Real.cos θ) / normSq φ) • crossMatrix φ) := by
  have c := Real.hasSum_cos θ
  have c1 := (hasSum_nat_add_iff' 1).mpr c
  have := c1.smul_const ((-(normSq φ)⁻¹) • crossMatrix φ)
  convert this using 1
  · funext k
    rw [cross_pow_odd, ← hsq, smul_smul, smul_smul]
    congr 1
    have : 2 * (k + 1) = 2 * k + 1 + 1 := by ring
    rw [this]
    field_simp
    ring
  · rw [smul_smul]; congr 1
    simp
    rw [← hsq]
    field_simp
    ring

theorem v_even_sum {φ : V3} {θ : ℝ} (hs : θ ≠ 0) (hsq : θ ^ 2 = normSq φ) :
    HasSum (fun k : ℕ => ((Nat.factorial (2 * k + 1) : ℝ)⁻¹) • crossMatrix φ ^ (2 * k))
      (1 + ((1 - Real.sin θ / θ) / normSq φ) • (crossMatrix φ * crossMatrix φ)) := by
  have c := (Real.hasSum_sin θ).smul_const
    ((-(normSq φ)⁻¹ * θ⁻¹) • (crossMatrix φ * crossMatrix φ))
  have d : HasSum (fun k : ℕ => if k = 0 then
      (1 : M3) + (normSq φ)⁻¹ • (crossMatrix φ * crossMatrix φ) else 0)
      (1 + (normSq φ)⁻¹ • (crossMatrix φ * crossMatrix φ)) := hasSum_ite_eq 0 _
  have := c.add d
  convert this using 1
  · funext k
    cases k with
    | zero =>
      simp
      rw [smul_smul, show θ * ((normSq φ)⁻¹ * θ⁻¹) = (normSq φ)⁻¹ by field_simp]
      abel
    | succ k =>
      rw [show 2 * (k + 1) = 2 * k + 2 by ring, cross_pow_even, ← hsq]
      simp only [Nat.add_eq_zero_iff, one_ne_zero, and_false, if_false, add_zero]
      rw [smul_smul, smul_smul]
      congr 1
      field_simp
      ring
  · rw [smul_smul, add_left_comm, ← add_smul]
    congr 2
    ring

/-- `V(ω) = Σ [ω]ⁿ/(n+1)!`. -/
theorem vmat_hasSum {φ : V3} (h : φ ≠ 0) :
    HasSum (fun n : ℕ => ((Nat.factorial (n + 1) : ℝ)⁻¹) • crossMatrix φ ^ n) (vmat φ) := by
  have hs := sqrt_normSq_ne h
  have hsq : √(normSq φ) ^ 2 = normSq φ := Real.sq_sqrt (normSq_nonneg φ)
  have := HasSum.even_add_odd
    (f := fun n : ℕ => ((Nat.factorial (n + 1) : ℝ)⁻¹) • crossMatrix φ ^ n)
    (v_even_sum hs hsq) (v_odd_sum hs hsq)
  convert this using 1
  unfold vmat
  abel

theorem exp_hasSum (K : M3) :
    HasSum (fun n : ℕ => ((Nat.factorial n : ℝ)⁻¹) • K ^ n) (NormedSpace.exp K) := by
  let _ : NormedRing M3 := Matrix.linftyOpNormedRing
  let _ : NormedAlgebra ℝ M3 := Matrix.linftyOpNormedAlgebra
  exact NormedSpace.exp_series_hasSum_exp' (𝕂 := ℝ) K

theorem exp_blk {φ : V3} (h : φ ≠ 0) (u : V3) :
    NormedSpace.exp (blk (crossMatrix φ) u) = mk4 (rodr φ) (vmat φ *ᵥ u) := by
  have e1 := (hasSum_nat_add_iff' 1).mpr (exp_hasSum (crossMatrix φ))
  have e2 : HasSum (fun n : ℕ => (((Nat.factorial (n + 1) : ℝ)⁻¹) • crossMatrix φ ^ n) *ᵥ u)
      (vmat φ *ᵥ u) := by
    have hv := vmat_hasSum h
    have := hv.mapL ((Matrix.mulVecBilin ℝ ℝ).flip u).toContinuousLinearMap
    simpa [smul_mulVec] using this
  have e3 := hasSum_blk e1 e2
  have e4 : HasSum (fun n : ℕ => ((Nat.factorial n : ℝ)⁻¹) • blk (crossMatrix φ) u ^ n)
      (1 + blk (NormedSpace.exp (crossMatrix φ) - 1) (vmat φ *ᵥ u)) := by
    have e5 : HasSum (fun n : ℕ => ((Nat.factorial (n + 1) : ℝ)⁻¹) •
        blk (crossMatrix φ) u ^ (n + 1))
        (blk (NormedSpace.exp (crossMatrix φ) - 1) (vmat φ *ᵥ u)) := by
      have e6 : (fun n : ℕ => ((Nat.factorial (n + 1) : ℝ)⁻¹) • blk (crossMatrix φ) u ^ (n + 1)) =
          fun n => blk (((Nat.factorial (n + 1) : ℝ)⁻¹) • crossMatrix φ ^ (n + 1))
            ((((Nat.factorial (n + 1) : ℝ)⁻¹) • crossMatrix φ ^ n) *ᵥ u) := by
        funext n
        rw [blk_pow, blk_smul, smul_mulVec]
      rw [e6]
      simpa using e3
    have e7 := (hasSum_nat_add_iff (f := fun n : ℕ => ((Nat.factorial n : ℝ)⁻¹) •
      blk (crossMatrix φ) u ^ n) 1).mp e5
    rw [add_comm]
    simpa using e7
  rw [NormedSpace.exp_eq_tsum ℝ]
  refine e4.tsum_eq.trans ?_
  rw [one_add_blk, exp_cross h]
  unfold rodr
  simp

end WG
