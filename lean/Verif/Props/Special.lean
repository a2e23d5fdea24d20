import Verif.Model.CrossMat
import Verif.Lemmas.Linear

/-!
# C41: the implicit cross-product and identity matrices behave like dense ones
-/

namespace WG
open Matrix Spec

/-- `hat` is the dense matrix of the cross product with `v`. -/
theorem hat_entries (v : V3) : hat v = !![0, -v 2, v 1; v 2, 0, -v 0; -v 1, v 0, 0] := by
  rw [hat_eq]; rfl

/-- **C41.** The cross matrix of a vector has the coefficients of the cross-product matrix. -/
theorem c41_dense (x : VecExpr) (s : VecMem) (w : V3) :
    (CrossMat.mk' x s).dense = hat (x s) ∧ (CrossMat.mk' x s).dense *ᵥ w = x s ⨯₃ w := by
  refine ⟨(hat_eq _).symm, ?_⟩
  change crossMatrix (x s) *ᵥ w = _
  rw [crossMatrix_mulVec, cross_eq]

theorem crossMulMat_eq {n : Type} (v : V3) (m : Matrix (Fin 3) n ℝ) :
    crossMulMat v m = crossMatrix v * m := by
  ext i j
  fin_cases i <;> simp [crossMulMat, cross, col, crossMatrix, Matrix.mul_apply, Fin.sum_univ_three] <;> ring

theorem matMulCross_eq {n : Type} (m : Matrix n (Fin 3) ℝ) (v : V3) :
    matMulCross m v = m * crossMatrix v := by
  ext i j
  fin_cases j <;> simp [matMulCross, cross, row, crossMatrix, Matrix.mul_apply, Fin.sum_univ_three] <;> ring

/-- **C41.** Every overloaded product with a cross matrix equals the product with its dense matrix: with
vectors, row vectors, matrices of every width on both sides, other cross matrices, and identities; negation
gives the negated matrix and its own product overload agrees.  `s` is the memory when the matrix was built,
`s'` the memory when it is used; the vectors it was built from must not have changed in between. -/
theorem c41_products {n : Type} (x y : VecExpr) (s s' : VecMem) (hx : x s' = x s) (hy : y s' = y s)
    (w : V3) (m : Matrix (Fin 3) n ℝ) (k : Matrix n (Fin 3) ℝ) :
    let X := CrossMat.mk' x s
    let Y := CrossMat.mk' y s
    X.mulVec s' w = X.dense *ᵥ w ∧ CrossMat.vecMul w X s' = w ᵥ* X.dense ∧
      X.mulMat s' m = X.dense * m ∧ CrossMat.matMul k X s' = k * X.dense ∧
      X.mulCross Y s' = X.dense * Y.dense ∧
      (X.neg s').dense = -X.dense ∧ (X.neg s').mulVec s' w = -X.dense *ᵥ w ∧
      (X.neg s').mulMat s' m = -X.dense * m ∧ X.negMulMat s' m = -X.dense * m ∧
      X.identityMul.dense = 1 * X.dense ∧ X.identityMul.dense = X.dense * 1 ∧
      X.transpose = -X.dense ∧ X.add Y = hat (x s + y s) := by
  intro X Y
  have hX : X.dense = crossMatrix (x s) := rfl
  refine ⟨?_, ?_, ?_, ?_, ?_, ?_, ?_, ?_, ?_, ?_, ?_, ?_, ?_⟩
  · change cross (x s') w = _
    rw [hx, hX, crossMatrix_mulVec]
  · change cross w (x s') = _
    rw [hx, hX]
    vec3 [cross, crossMatrix, Matrix.vecMul, dotProduct, Fin.sum_univ_three]
  · change crossMulMat (x s') m = _
    rw [hx, crossMulMat_eq]; rfl
  · change matMulCross k (x s') = _
    rw [hx, matMulCross_eq]; rfl
  · change matMulCross X.dense (y s') = _
    rw [hy, matMulCross_eq]; rfl
  · change crossMatrix (-(x s')) = _
    rw [hx, crossMatrix_neg, hX]
  · change cross (-(x s')) w = _
    rw [hx, ← crossMatrix_mulVec, crossMatrix_neg, hX]
  · change crossMulMat (-(x s')) m = _
    rw [hx, crossMulMat_eq, crossMatrix_neg, hX]
  · change negCrossMulMat (x s') m = _
    have : negCrossMulMat (x s') m = crossMulMat (-(x s')) m := by
      unfold negCrossMulMat crossMulMat; rw [neg_neg]
    rw [this, hx, crossMulMat_eq, crossMatrix_neg, hX]
  · rw [Matrix.one_mul]; rfl
  · rw [Matrix.mul_one]; rfl
  · change X.denseᵀ = _
    rw [hX, crossMatrix_transpose]
  · change crossMatrix (x s) + crossMatrix (y s) = _
    rw [hat_eq, crossMatrix_add]

/-- **C41.** Products with the identity type return the other operand, which is the product with the dense
identity, for every shape. -/
theorem c41_identity {m n : Type} [Fintype m] [Fintype n] [DecidableEq m] [DecidableEq n]
    (a : Matrix m n ℝ) : identityMulMat a = (1 : Matrix m m ℝ) * a ∧ matMulIdentity a = a * (1 : Matrix n n ℝ) := by
  simp [identityMulMat, matMulIdentity]

/-- **C41.** The map from skew-symmetric matrices to vectors is the inverse of the cross matrix, both
ways. -/
theorem c41_uncross (x : VecExpr) (s : VecMem) (S : M3) :
    uncrossMatrix (CrossMat.mk' x s).dense = x s ∧ (Sᵀ = -S → hat (uncrossMatrix S) = S) :=
  ⟨uncross_cross _, fun h => by rw [hat_eq]; exact cross_uncross S h⟩

/-- **C41 (negation).** The two parts of a stored cross matrix can come apart: after the vector it was built
from has been changed (or after an inherited in-place operation), products no longer agree with the dense
matrix. -/
theorem c41_stale :
    (∃ (x : VecExpr) (s s' : VecMem) (w : V3),
        (CrossMat.mk' x s).mulVec s' w ≠ (CrossMat.mk' x s).dense *ᵥ w) ∧
      ∃ (x : VecExpr) (s : VecMem) (k : ℝ) (w : V3),
        ((CrossMat.mk' x s).scaleInPlace k).mulVec s w ≠ ((CrossMat.mk' x s).scaleInPlace k).dense *ᵥ w := by
  refine ⟨⟨fun m => m 0, fun _ => 0, fun _ => ![0, 0, 1], ![1, 0, 0], fun h => ?_⟩,
    fun m => m 0, fun _ => ![0, 0, 1], 2, ![1, 0, 0], fun h => ?_⟩
  · have := congrFun h 1
    simp [CrossMat.mulVec, CrossMat.mk', crossMulVec, cross, crossMatrix_zero] at this
  · have := congrFun h 1
    simp [CrossMat.mulVec, CrossMat.mk', CrossMat.scaleInPlace, crossMulVec, cross, crossMatrix,
      Matrix.mulVec, dotProduct, Fin.sum_univ_three] at this

/-- Non-vacuity of `c41_products`: vectors unchanged although other memory changes. -/
example : ∃ (x : VecExpr) (s s' : VecMem), x s' = x s ∧ s' ≠ s ∧ x s ≠ 0 :=
  ⟨fun m => m 0, fun _ => ![1, 2, 3], fun a => if a = 0 then ![1, 2, 3] else 0, rfl,
    fun h => by have := congrFun (congrFun h 1) 0; simp at this,
    fun h => by have := congrFun h 0; simp at this⟩

end WG
