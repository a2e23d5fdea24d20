import Verif.Lemmas.Rotation
import Mathlib.Analysis.Normed.Algebra.MatrixExponential
import Mathlib.Analysis.SpecialFunctions.Trigonometric.Series

/-! Rodrigues' formula is the matrix exponential of the cross matrix. -/

namespace WG
open Matrix Spec

theorem cross_pow_odd (φ : V3) (k : ℕ) :
    crossMatrix φ ^ (2 * k + 1) = ((-1) ^ k * normSq φ ^ k) • crossMatrix φ := by
  induction k with
  | zero => simp
  | succ k ih =>
    have : 2 * (k + 1) + 1 = (2 * k + 1) + 2 := by ring
    rw [this, pow_add, ih, pow_two, smul_mul_assoc, crossMatrix_cube, smul_smul]
    congr 1; ring

theorem cross_pow_even (φ : V3) (k : ℕ) :
    crossMatrix φ ^ (2 * k + 2) =
      ((-1) ^ k * normSq φ ^ k) • (crossMatrix φ * crossMatrix φ) := by
  rw [show 2 * k + 2 = (2 * k + 1) + 1 by ring, pow_succ, cross_pow_odd, smul_mul_assoc]

theorem odd_sum {φ : V3} {θ : ℝ} (hs : θ ≠ 0) (hsq : θ ^ 2 = normSq φ) :
    HasSum (fun k : ℕ => ((Nat.factorial (2 * k + 1) : ℝ)⁻¹) • crossMatrix φ ^ (2 * k + 1))
      ((Real.sin θ / θ) • crossMatrix φ) := by
  have := (Real.hasSum_sin θ).smul_const ((θ⁻¹) • crossMatrix φ)
  convert this using 1
  · funext k
    rw [cross_pow_odd, ← hsq, smul_smul, smul_smul]
    congr 1
    field_simp
    ring
  · rw [smul_smul]; congr 1

theorem even_sum {φ : V3} {θ : ℝ} (hs : θ ≠ 0) (hsq : θ ^ 2 = normSq φ) :
    HasSum (fun k : ℕ => ((Nat.factorial (2 * k) : ℝ)⁻¹) • crossMatrix φ ^ (2 * k))
      (1 + ((1 - Real.cos θ) / normSq φ) • (crossMatrix φ * crossMatrix φ)) := by
  have c := (Real.hasSum_cos θ).smul_const ((-(normSq φ)⁻¹) • (crossMatrix φ * crossMatrix φ))
  have d : HasSum (fun k : ℕ => if k = 0 then
      (1 : M3) + (normSq φ)⁻¹ • (crossMatrix φ * crossMatrix φ) else 0)
      (1 + (normSq φ)⁻¹ • (crossMatrix φ * crossMatrix φ)) := hasSum_ite_eq 0 _
  have := c.add d
  convert this using 1
  · funext k
    cases k with
    | zero => simp
    | succ k =>
      rw [show 2 * (k + 1) = 2 * k + 2 by ring, cross_pow_even, ← hsq]
      simp only [Nat.add_eq_zero_iff, one_ne_zero, and_false, if_false, add_zero]
      rw [smul_smul, smul_smul]
      congr 1
      field_simp
      ring
  · rw [smul_smul, add_left_comm, ← add_smul]
    congr 2
    ring

/-- Rodrigues' formula for a nonzero rotation vector. -/
theorem exp_cross {φ : V3} (h : φ ≠ 0) :
    NormedSpace.exp (crossMatrix φ) =
      1 + (Real.sin √(normSq φ) / √(normSq φ)) • crossMatrix φ +
        ((1 - Real.cos √(normSq φ)) / normSq φ) • (crossMatrix φ * crossMatrix φ) := by
  have hn : normSq φ ≠ 0 := fun e => h (normSq_eq_zero.mp e)
  have hs : √(normSq φ) ≠ 0 := by
    rw [Real.sqrt_ne_zero (normSq_nonneg φ)]; exact hn
  have hsq : √(normSq φ) ^ 2 = normSq φ := Real.sq_sqrt (normSq_nonneg φ)
  rw [NormedSpace.exp_eq_tsum ℝ]
  have := HasSum.even_add_odd
    (f := fun n : ℕ => ((Nat.factorial n : ℝ)⁻¹) • crossMatrix φ ^ n)
    (even_sum hs hsq) (odd_sum hs hsq)
  refine this.tsum_eq.trans ?_
  abel

end WG
