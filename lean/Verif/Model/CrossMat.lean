import Verif.Model.Linear

/-!
# The `CrossMatrix` and `IdentityMatrix` objects

`util/math/CrossMatrix.hpp`, `util/math/IdentityMatrix.hpp`.  A `CrossMatrix` object is at the same time a
dense 3x3 matrix, filled by its constructor, and a nested Eigen vector expression (`vec`, line 59), which
for a plain vector is a *reference* (`ref_selector`).  Coefficient access, sum, transpose and assignment
are inherited from `Eigen::Matrix` and use the dense part; the overloaded products use `vec`.
-/

namespace WG
open Matrix

/-- Vectors in memory, by address. -/
abbrev VecMem := ℕ → V3

/-- A nested Eigen vector expression: read when used. -/
abbrev VecExpr := VecMem → V3

/-- `CrossMatrix<VecType>`: CrossMatrix.hpp:27-60. -/
structure CrossMat where
  /-- the base class `Eigen::Matrix<Scalar, 3, 3>` -/
  dense : M3
  /-- `VecTypeNested vec` -/
  vec : VecExpr

namespace CrossMat

/-- The constructor, CrossMatrix.hpp:36-49: fills the base matrix from the current value of the vector and
keeps the vector expression. -/
def mk' (x : VecExpr) (s : VecMem) : CrossMat := ⟨crossMatrix (x s), x⟩

/-- `operator-()`: CrossMatrix.hpp:53-56, a new object over the negated vector expression. -/
def neg (c : CrossMat) (s : VecMem) : CrossMat := mk' (fun m => -(c.vec m)) s

/-- `CrossMatrix * (3x1)`: CrossMatrix.hpp:88-96. -/
def mulVec (c : CrossMat) (s : VecMem) (w : V3) : V3 := crossMulVec (c.vec s) w

/-- `(1x3) * CrossMatrix`: CrossMatrix.hpp:102-110. -/
def vecMul (w : V3) (c : CrossMat) (s : VecMem) : V3 := rowMulCross w (c.vec s)

/-- `CrossMatrix * (3xN)`: CrossMatrix.hpp:120-128. -/
def mulMat {n : Type} (c : CrossMat) (s : VecMem) (m : Matrix (Fin 3) n ℝ) : Matrix (Fin 3) n ℝ :=
  crossMulMat (c.vec s) m

/-- `(-CrossMatrix) * (3xN)`, the overload for a negated vector expression: CrossMatrix.hpp:139-150; it
uses the vector inside the negation. -/
def negMulMat {n : Type} (c : CrossMat) (s : VecMem) (m : Matrix (Fin 3) n ℝ) : Matrix (Fin 3) n ℝ :=
  negCrossMulMat (c.vec s) m

/-- `(Nx3) * CrossMatrix`: CrossMatrix.hpp:161-169. -/
def matMul {n : Type} (m : Matrix n (Fin 3) ℝ) (c : CrossMat) (s : VecMem) : Matrix n (Fin 3) ℝ :=
  matMulCross m (c.vec s)

/-- `CrossMatrix * CrossMatrix`: CrossMatrix.hpp:175-179, `lhs.rowwise().cross(rhs.vec)` on the dense part
of the left operand. -/
def mulCross (c d : CrossMat) (s : VecMem) : M3 := matMulCross c.dense (d.vec s)

/-- `IdentityMatrix * CrossMatrix` and `CrossMatrix * IdentityMatrix`: CrossMatrix.hpp:181-203. -/
def identityMul (c : CrossMat) : CrossMat := c

/-- Transpose and sum, inherited from `Eigen::Matrix`. -/
def transpose (c : CrossMat) : M3 := c.denseᵀ
/-- See `transpose`. -/
def add (c d : CrossMat) : M3 := c.dense + d.dense

/-- Inherited in-place scaling `m *= k` of `Eigen::Matrix`: changes the base only. -/
def scaleInPlace (c : CrossMat) (k : ℝ) : CrossMat := ⟨k • c.dense, c.vec⟩

end CrossMat

end WG
