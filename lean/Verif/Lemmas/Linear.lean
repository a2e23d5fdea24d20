import Verif.Model.Linear
import Verif.Spec.Geometry

/-! Entry-wise facts about cross matrices. -/

namespace WG
open Matrix

/-- Prove an equation of 3x3 matrices entry by entry. -/
macro "mat3" "[" ls:Lean.Parser.Tactic.simpLemma,* "]" : tactic =>
  `(tactic| (ext i j; fin_cases i <;> fin_cases j <;>
      simp [Matrix.mul_apply, Fin.sum_univ_three, Matrix.vecMul, Matrix.mulVec, dotProduct, $ls,*] <;> ring))

/-- Prove an equation of 3-vectors entry by entry. -/
macro "vec3" "[" ls:Lean.Parser.Tactic.simpLemma,* "]" : tactic =>
  `(tactic| (ext i; fin_cases i <;>
      simp [Matrix.mul_apply, Fin.sum_univ_three, Matrix.vecMul, Matrix.mulVec, dotProduct, $ls,*] <;> ring))

theorem crossMatrix_mulVec (v w : V3) : crossMatrix v *ᵥ w = cross v w := by
  vec3 [crossMatrix, cross]

theorem cross_eq (v w : V3) : cross v w = v ⨯₃ w := by
  vec3 [cross, crossProduct]

theorem hat_eq (v : V3) : Spec.hat v = crossMatrix v := by
  mat3 [Spec.hat, crossMatrix, crossProduct]

theorem crossMatrix_neg (v : V3) : crossMatrix (-v) = -crossMatrix v := by
  mat3 [crossMatrix]

theorem crossMatrix_add (v w : V3) : crossMatrix (v + w) = crossMatrix v + crossMatrix w := by
  mat3 [crossMatrix]

theorem crossMatrix_smul (s : ℝ) (v : V3) : crossMatrix (s • v) = s • crossMatrix v := by
  mat3 [crossMatrix]

theorem crossMatrix_zero : crossMatrix 0 = 0 := by
  mat3 [crossMatrix]

theorem crossMatrix_transpose (v : V3) : (crossMatrix v)ᵀ = -crossMatrix v := by
  mat3 [crossMatrix]

theorem uncross_cross (v : V3) : uncrossMatrix (crossMatrix v) = v := by
  vec3 [crossMatrix, uncrossMatrix]

theorem cross_uncross (S : M3) (h : Sᵀ = -S) : crossMatrix (uncrossMatrix S) = S := by
  have e : ∀ i j, S j i = - S i j := fun i j => by
    have := congrFun (congrFun h i) j; simpa using this
  have d0 := e 0 0; have d1 := e 1 1; have d2 := e 2 2
  have a := e 0 1; have b := e 0 2; have c := e 1 2
  ext i j; fin_cases i <;> fin_cases j <;> simp [crossMatrix, uncrossMatrix] <;> linarith

theorem crossMatrix_sq (v : V3) :
    crossMatrix v * crossMatrix v = outer v v - normSq v • (1 : M3) := by
  mat3 [crossMatrix, outer, normSq]

theorem crossMatrix_cube (v : V3) :
    crossMatrix v * (crossMatrix v * crossMatrix v) = -(normSq v) • crossMatrix v := by
  mat3 [crossMatrix, normSq]

theorem normSq_nonneg (v : V3) : 0 ≤ normSq v := by
  unfold normSq; nlinarith [mul_self_nonneg (v 0), mul_self_nonneg (v 1), mul_self_nonneg (v 2)]

theorem normSq_eq_zero {v : V3} : normSq v = 0 ↔ v = 0 := by
  constructor
  · intro h
    unfold normSq at h
    have h0 : v 0 = 0 := by nlinarith [mul_self_nonneg (v 0), mul_self_nonneg (v 1), mul_self_nonneg (v 2)]
    have h1 : v 1 = 0 := by nlinarith [mul_self_nonneg (v 0), mul_self_nonneg (v 1), mul_self_nonneg (v 2)]
    have h2 : v 2 = 0 := by nlinarith [mul_self_nonneg (v 0), mul_self_nonneg (v 1), mul_self_nonneg (v 2)]
    ext i; fin_cases i <;> assumption
  · rintro rfl; simp [normSq]

theorem normSq_eq_dot (v : V3) : normSq v = v ⬝ᵥ v := by
  simp [normSq, dotProduct, Fin.sum_univ_three]

theorem dot_eq (v w : V3) : dot v w = v ⬝ᵥ w := by
  simp [dot, dotProduct, Fin.sum_univ_three]

theorem normSq_smul (s : ℝ) (v : V3) : normSq (s • v) = s * s * normSq v := by
  simp [normSq]; ring

end WG
