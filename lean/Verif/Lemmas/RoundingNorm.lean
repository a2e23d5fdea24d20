import Verif.Spec.Rounding
import Verif.Lemmas.Linear
import Mathlib.Analysis.InnerProductSpace.PiL2

/-! # Lengths -/

namespace WG.Round
open Matrix Spec

section
variable {n : Type} [Fintype n]

theorem len_eq (v : n → ℝ) : len v = ‖(WithLp.toLp 2 v : EuclideanSpace ℝ n)‖ := by
  rw [EuclideanSpace.norm_eq]
  unfold len dotProduct
  congr 1
  refine Finset.sum_congr rfl fun i _ => ?_
  simp [sq]

theorem len_nonneg (v : n → ℝ) : 0 ≤ len v := Real.sqrt_nonneg _

theorem len_sq (v : n → ℝ) : len v ^ 2 = ∑ i, v i ^ 2 := by
  unfold len
  rw [Real.sq_sqrt]
  · unfold dotProduct
    simp [sq]
  · exact Finset.sum_nonneg fun i _ => mul_self_nonneg _

theorem len_add_le (v w : n → ℝ) : len (v + w) ≤ len v + len w := by
  simp only [len_eq, WithLp.toLp_add]
  exact norm_add_le _ _

theorem len_neg (v : n → ℝ) : len (-v) = len v := by
  simp only [len_eq, WithLp.toLp_neg, norm_neg]

theorem len_zero : len (0 : n → ℝ) = 0 := by
  simp [len_eq]

theorem len_smul (a : ℝ) (v : n → ℝ) : len (a • v) = |a| * len v := by
  simp only [len_eq, WithLp.toLp_smul, norm_smul, Real.norm_eq_abs]

theorem len_sub_le (v w : n → ℝ) : len (v - w) ≤ len v + len w := by
  rw [sub_eq_add_neg, ← len_neg w]
  exact len_add_le _ _

theorem len_le_of_sq {v : n → ℝ} {c : ℝ} (hc : 0 ≤ c) (h : ∑ i, v i ^ 2 ≤ c ^ 2) : len v ≤ c :=
  abs_le_of_sq_le_sq' (by rwa [len_sq]) hc |>.2

theorem len_mono {v w : n → ℝ} (h : ∀ i, |v i| ≤ |w i|) : len v ≤ len w := by
  refine len_le_of_sq (len_nonneg w) ?_
  rw [len_sq]
  exact Finset.sum_le_sum fun i _ => sq_le_sq.mpr (h i)

theorem len_abs (v : n → ℝ) : len (fun i => |v i|) = len v :=
  le_antisymm (len_mono fun i => by simp) (len_mono fun i => by simp)

/-- Cauchy-Schwarz. -/
theorem sum_abs_mul_le (v w : n → ℝ) : ∑ i, |v i * w i| ≤ len v * len w := by
  have h := Finset.sum_mul_sq_le_sq_mul_sq Finset.univ (fun i => |v i|) fun i => |w i|
  simp only [sq_abs] at h
  rw [← len_sq, ← len_sq, ← mul_pow] at h
  simp only [abs_mul]
  exact abs_le_of_sq_le_sq' h (mul_nonneg (len_nonneg v) (len_nonneg w)) |>.2

theorem abs_dot_le (v w : n → ℝ) : |v ⬝ᵥ w| ≤ len v * len w :=
  (Finset.abs_sum_le_sum_abs _ _).trans (sum_abs_mul_le v w)

theorem len_one (s : Fin 1 → ℝ) : len s = |s 0| := by
  unfold len dotProduct
  simp [Real.sqrt_mul_self_eq_abs]
end

theorem frob_nonneg (A : M3) : 0 ≤ frob A := len_nonneg _

theorem frob_sq (A : M3) : frob A ^ 2 = ∑ i, ∑ j, A i j ^ 2 := by
  unfold frob
  rw [len_sq, Fintype.sum_prod_type]

theorem frob_add_le (A B : M3) : frob (A + B) ≤ frob A + frob B :=
  len_add_le (fun p : Fin 3 × Fin 3 => A p.1 p.2) fun p => B p.1 p.2

theorem frob_transpose (A : M3) : frob Aᵀ = frob A := by
  have : frob Aᵀ ^ 2 = frob A ^ 2 := by
    rw [frob_sq, frob_sq, Finset.sum_comm]
    rfl
  nlinarith [frob_nonneg A, frob_nonneg Aᵀ]

theorem frob_le_of_sq {A : M3} {c : ℝ} (hc : 0 ≤ c) (h : ∑ i, ∑ j, A i j ^ 2 ≤ c ^ 2) : frob A ≤ c := by
  refine len_le_of_sq hc ?_
  rwa [Fintype.sum_prod_type]

theorem len_mulVec_le (A : M3) (v : V3) : len (A *ᵥ v) ≤ frob A * len v := by
  refine len_le_of_sq (mul_nonneg (frob_nonneg A) (len_nonneg v)) ?_
  rw [mul_pow, frob_sq, len_sq, Finset.sum_mul]
  exact Finset.sum_le_sum fun i _ => Finset.sum_mul_sq_le_sq_mul_sq Finset.univ (fun k => A i k) v

theorem frob_mul_le (A B : M3) : frob (A * B) ≤ frob A * frob B := by
  refine frob_le_of_sq (mul_nonneg (frob_nonneg A) (frob_nonneg B)) ?_
  rw [mul_pow, frob_sq, frob_sq, Finset.sum_comm (f := fun i j => B i j ^ 2), Finset.sum_mul_sum]
  refine Finset.sum_le_sum fun i _ => Finset.sum_le_sum fun j _ => ?_
  rw [Matrix.mul_apply]
  exact Finset.sum_mul_sq_le_sq_mul_sq Finset.univ (fun k => A i k) fun k => B k j

theorem frob_sq_trace (A : M3) : frob A ^ 2 = (Aᵀ * A).trace := by
  rw [frob_sq, Finset.sum_comm]
  simp only [Matrix.trace, Matrix.diag, Matrix.mul_apply, Matrix.transpose_apply, sq]

theorem len_sq_dot {n : Type} [Fintype n] (v : n → ℝ) : len v ^ 2 = v ⬝ᵥ v := by
  rw [len_sq]; unfold dotProduct; simp [sq]

theorem len_orth {R : M3} (hR : Rᵀ * R = 1) (v : V3) : len (R *ᵥ v) = len v := by
  have : len (R *ᵥ v) ^ 2 = len v ^ 2 := by
    rw [len_sq_dot, len_sq_dot, Matrix.dotProduct_mulVec, Matrix.vecMul_mulVec, hR, Matrix.vecMul_one]
  nlinarith [len_nonneg (R *ᵥ v), len_nonneg v]

theorem frob_orth_mul {R : M3} (hR : Rᵀ * R = 1) (A : M3) : frob (R * A) = frob A := by
  have : frob (R * A) ^ 2 = frob A ^ 2 := by
    rw [frob_sq_trace, frob_sq_trace, Matrix.transpose_mul, Matrix.mul_assoc, ← Matrix.mul_assoc Rᵀ,
      hR, Matrix.one_mul]
  nlinarith [frob_nonneg (R * A), frob_nonneg A]

theorem orth_comm {R : M3} (hR : Rᵀ * R = 1) : R * Rᵀ = 1 := mul_eq_one_comm.mp hR

theorem frob_mul_orth {R : M3} (hR : Rᵀ * R = 1) (A : M3) : frob (A * R) = frob A := by
  rw [← frob_transpose, Matrix.transpose_mul, frob_orth_mul, frob_transpose]
  rw [Matrix.transpose_transpose]
  exact orth_comm hR

theorem frob_orth {R : M3} (hR : Rᵀ * R = 1) : frob R ^ 2 = 3 := by
  rw [frob_sq_trace, hR]
  simp

/-! ## Quaternions -/

theorem len_coeffs_sq (q : Quat) : len (coeffs q) ^ 2 = q.w ^ 2 + q.x ^ 2 + q.y ^ 2 + q.z ^ 2 := by
  rw [len_sq]
  simp [coeffs, Fin.sum_univ_four]

theorem len_mul (p q : Quat) : len (coeffs (p.mul q)) = len (coeffs p) * len (coeffs q) := by
  have : len (coeffs (p.mul q)) ^ 2 = (len (coeffs p) * len (coeffs q)) ^ 2 := by
    rw [mul_pow, len_coeffs_sq, len_coeffs_sq, len_coeffs_sq]
    simp only [Quat.mul]
    ring
  exact (pow_left_inj₀ (len_nonneg _) (mul_nonneg (len_nonneg _) (len_nonneg _)) two_ne_zero).mp this

theorem len_vec_sq (q : Quat) : len q.vec ^ 2 = q.x ^ 2 + q.y ^ 2 + q.z ^ 2 := by
  rw [len_sq]
  simp [Quat.vec, Fin.sum_univ_three]

theorem cross_sq (a b : V3) : len (cross a b) ^ 2 ≤ (len a * len b) ^ 2 := by
  rw [mul_pow, len_sq, len_sq, len_sq]
  simp only [Fin.sum_univ_three, cross, Matrix.cons_val_zero, Matrix.cons_val_one, Matrix.cons_val]
  nlinarith [sq_nonneg (a 0 * b 0 + a 1 * b 1 + a 2 * b 2)]

theorem len_cross_le (a b : V3) : len (cross a b) ≤ len a * len b :=
  abs_le_of_sq_le_sq' (cross_sq a b) (mul_nonneg (len_nonneg _) (len_nonneg _)) |>.2

end WG.Round
