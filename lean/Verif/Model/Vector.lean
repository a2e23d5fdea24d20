import Verif.Model.Linear

/-!
# Vector, point and scalar operators and their Jacobians

`geometry/base/VectorBase.hpp`, `ScalarBase.hpp`, `AffineBase.hpp`.  `n` is the index type of
the vector (`Fin 1` for scalars, `Fin 3` for translations, points and relative rotations,
`Fin 3 ⊕ Fin 3` for twists: first summand = the first three coefficients).
-/

namespace WG
open Matrix

variable {n : Type} [Fintype n] [DecidableEq n]

/-- Embed a scalar as the value of a `Scalar` leaf (a 1-vector in the model). -/
def sc (x : ℝ) : Fin 1 → ℝ := fun _ => x

/-- Sum of vectors, VectorBase.hpp:106-109 (and AffineBase.hpp:70-83). -/
def vSum (a b : n → ℝ) : n → ℝ := a + b
/-- Difference, VectorBase.hpp:115-118 and AffineBase.hpp:89-93. -/
def vSub (a b : n → ℝ) : n → ℝ := a - b
/-- Minus, VectorBase.hpp:122-125. -/
def vMinus (a : n → ℝ) : n → ℝ := -a
/-- SquaredNorm, VectorBase.hpp:129-132. -/
def vSqNorm (a : n → ℝ) : ℝ := a ⬝ᵥ a
/-- Norm, VectorBase.hpp:143-146. -/
noncomputable def vNorm (a : n → ℝ) : ℝ := Real.sqrt (vSqNorm a)
/-- Normalize, VectorBase.hpp:158-161: Eigen 3.3 `normalized()` returns the input unchanged
when its squared norm is not positive. -/
noncomputable def vNormalize (a : n → ℝ) : n → ℝ :=
  if vSqNorm a > 0 then fun i => a i / vNorm a else a
/-- Dot, VectorBase.hpp:261-264. -/
def vDot (a b : n → ℝ) : ℝ := a ⬝ᵥ b
/-- Scale, VectorBase.hpp:188-191 (scalar on the left). -/
def vScale (s : ℝ) (v : n → ℝ) : n → ℝ := fun i => s * v i
/-- ScaleR, VectorBase.hpp:195-198 (scalar on the right). -/
def vScaleR (v : n → ℝ) (s : ℝ) : n → ℝ := fun i => v i * s
/-- ScaleDiv, VectorBase.hpp:235-238. -/
noncomputable def vScaleDiv (v : n → ℝ) (s : ℝ) : Option (n → ℝ) :=
  if s = 0 then none else some fun i => v i / s

/-- A column vector as an `n×1` matrix. -/
def colMat (v : n → ℝ) : Matrix n (Fin 1) ℝ := Matrix.of fun i _ => v i
/-- A row vector as a `1×n` matrix. -/
def rowMat (v : n → ℝ) : Matrix (Fin 1) n ℝ := Matrix.of fun _ j => v j

/-- Minus Jacobian: Minus.hpp:33-37. -/
def minusJac : Matrix n n ℝ := -1
/-- Sum Jacobians: Sum.hpp:98-107. -/
def sumJac : Matrix n n ℝ := 1
/-- Subtract left Jacobian: Subtract.hpp:106-110. -/
def subJacL : Matrix n n ℝ := 1
/-- Subtract right Jacobian: Subtract.hpp:112-116. -/
def subJacR : Matrix n n ℝ := -1
/-- SquaredNorm Jacobian: VectorBase.hpp:134-139. -/
def sqNormJac (v : n → ℝ) : Matrix (Fin 1) n ℝ := rowMat fun j => 2 * v j
/-- Norm Jacobian: VectorBase.hpp:148-153, `v' / norm`. -/
noncomputable def normJac (val : ℝ) (v : n → ℝ) : Option (Matrix (Fin 1) n ℝ) :=
  if val = 0 then none else some (rowMat fun j => v j / val)
/-- Normalize Jacobian: VectorBase.hpp:163-183, `(I - v̂ v̂') / |v|`. -/
noncomputable def normalizeJac (val v : n → ℝ) : Option (Matrix n n ℝ) :=
  if vNorm v = 0 then none
  else some (Matrix.of fun i j => ((1 : Matrix n n ℝ) i j - val i * val j) / vNorm v)
/-- Scale Jacobian w.r.t. the scalar: VectorBase.hpp:200-206. -/
def scaleJacL (v : n → ℝ) : Matrix n (Fin 1) ℝ := colMat v
/-- Scale Jacobian w.r.t. the vector: VectorBase.hpp:224-230. -/
def scaleJacR (s : ℝ) : Matrix n n ℝ := s • (1 : Matrix n n ℝ)
/-- ScaleR Jacobian w.r.t. the vector: VectorBase.hpp:216-222. -/
def scaleRJacL (s : ℝ) : Matrix n n ℝ := s • (1 : Matrix n n ℝ)
/-- ScaleR Jacobian w.r.t. the scalar: VectorBase.hpp:208-214. -/
def scaleRJacR (v : n → ℝ) : Matrix n (Fin 1) ℝ := colMat v
/-- ScaleDiv Jacobian w.r.t. the vector: VectorBase.hpp:241-247. -/
noncomputable def scaleDivJacL (s : ℝ) : Option (Matrix n n ℝ) :=
  if s = 0 then none else some ((1 / s) • (1 : Matrix n n ℝ))
/-- ScaleDiv Jacobian w.r.t. the scalar: VectorBase.hpp:250-257. -/
noncomputable def scaleDivJacR (v : n → ℝ) (s : ℝ) : Option (Matrix n (Fin 1) ℝ) :=
  if s * s = 0 then none else some (colMat fun i => -v i / (s * s))
/-- Dot Jacobian w.r.t. the left operand: VectorBase.hpp:266-273. -/
def dotJacL (b : n → ℝ) : Matrix (Fin 1) n ℝ := rowMat b
/-- Dot Jacobian w.r.t. the right operand: VectorBase.hpp:274-281. -/
def dotJacR (a : n → ℝ) : Matrix (Fin 1) n ℝ := rowMat a

/-- Product: ScalarBase.hpp:79-82. -/
def sProduct (a b : ℝ) : ℝ := a * b
/-- Divide: ScalarBase.hpp:106-109. -/
noncomputable def sDivide (a b : ℝ) : Option ℝ := rdiv a b
/-- ACos: ScalarBase.hpp:112-116. -/
noncomputable def sACos (x : ℝ) : Option ℝ := racos x
/-- A 1x1 matrix. -/
def mat1 (x : ℝ) : Matrix (Fin 1) (Fin 1) ℝ := Matrix.of fun _ _ => x
/-- Product Jacobians: ScalarBase.hpp:84-101. -/
def productJacL (b : ℝ) : Matrix (Fin 1) (Fin 1) ℝ := mat1 b
/-- See `productJacL`. -/
def productJacR (a : ℝ) : Matrix (Fin 1) (Fin 1) ℝ := mat1 a
/-- Divide left Jacobian: ScalarBase.hpp:131-139. -/
noncomputable def divideJacL (b : ℝ) : Option (Matrix (Fin 1) (Fin 1) ℝ) := (rdiv 1 b).map mat1
/-- Divide right Jacobian: ScalarBase.hpp:140-149. -/
noncomputable def divideJacR (a b : ℝ) : Option (Matrix (Fin 1) (Fin 1) ℝ) :=
  (rdiv (-a) (b * b)).map mat1
/-- ACos Jacobian: ScalarBase.hpp:118-128, `-1 / sqrt(1 - x*x)`. -/
noncomputable def acosJac (x : ℝ) : Option (Matrix (Fin 1) (Fin 1) ℝ) := do
  let s ← rsqrt (1 - x * x)
  let d ← rdiv (-1) s
  some (mat1 d)

end WG
