import Verif.Model.Num

/-!
# Vectors and cross matrices

Models `util/math/CrossMatrix.hpp`, `util/math/math.hpp` and the Eigen vector functions
the library calls (`dot`, `squaredNorm`, `cross`, outer product).
-/

namespace WG
open Matrix

/-- `Eigen::MatrixBase::dot`, as used in VectorBase.hpp:261-266. -/
def dot (a b : V3) : ℝ := a 0 * b 0 + a 1 * b 1 + a 2 * b 2

/-- `Eigen::MatrixBase::squaredNorm`. -/
def normSq (a : V3) : ℝ := a 0 * a 0 + a 1 * a 1 + a 2 * a 2

/-- `Eigen::MatrixBase::norm` = `sqrt(squaredNorm)`. -/
noncomputable def norm3 (a : V3) : ℝ := Real.sqrt (normSq a)

/-- `Eigen::MatrixBase::cross` of two 3-vectors (used by CrossMatrix.hpp:93-96). -/
def cross (a b : V3) : V3 :=
  ![a 1 * b 2 - a 2 * b 1, a 2 * b 0 - a 0 * b 2, a 0 * b 1 - a 1 * b 0]

/-- `crossMatrix(vec)`: CrossMatrix.hpp:37-49 (constructor) and 63-68. -/
def crossMatrix (v : V3) : M3 :=
  !![0, -v 2, v 1; v 2, 0, -v 0; -v 1, v 0, 0]

/-- `uncrossMatrix(skew)`: math.hpp:49-55. -/
def uncrossMatrix (s : M3) : V3 := ![s 2 1, s 0 2, s 1 0]

/-- `a * b.transpose()` for two 3-vectors. -/
def outer (a b : V3) : M3 := Matrix.of fun i j => a i * b j

/-- Column `j` of a matrix. -/
def col {n : Type} (m : Matrix (Fin 3) n ℝ) (j : n) : V3 := fun i => m i j
/-- Row `i` of a matrix. -/
def row {n : Type} (m : Matrix n (Fin 3) ℝ) (i : n) : V3 := fun j => m i j

/-- `CrossMatrix * vector`: CrossMatrix.hpp:88-96, computed as a cross product. -/
def crossMulVec (v w : V3) : V3 := cross v w
/-- `rowvector * CrossMatrix`: CrossMatrix.hpp:102-110. -/
def rowMulCross (w v : V3) : V3 := cross w v
/-- `CrossMatrix * (3xN matrix)`: CrossMatrix.hpp:120-128, `rhs.colwise().cross(-vec)`. -/
def crossMulMat {n : Type} (v : V3) (m : Matrix (Fin 3) n ℝ) : Matrix (Fin 3) n ℝ :=
  Matrix.of fun i j => cross (col m j) (-v) i
/-- `CrossMatrix(-vec) * (3xN matrix)`: CrossMatrix.hpp:139-150, `rhs.colwise().cross(vec)`;
the cross matrix was built from the negated vector `-v`, of which `v` is the nested one. -/
def negCrossMulMat {n : Type} (v : V3) (m : Matrix (Fin 3) n ℝ) : Matrix (Fin 3) n ℝ :=
  Matrix.of fun i j => cross (col m j) v i
/-- `(Nx3 matrix) * CrossMatrix`: CrossMatrix.hpp:161-169, `lhs.rowwise().cross(vec)`. -/
def matMulCross {n : Type} (m : Matrix n (Fin 3) ℝ) (v : V3) : Matrix n (Fin 3) ℝ :=
  Matrix.of fun i j => cross (row m i) v j
/-- `IdentityMatrix * m` and `m * IdentityMatrix` (IdentityMatrix.hpp:50-84,
CrossMatrix.hpp:181-203): the other operand is returned unchanged. -/
def identityMulMat {m n : Type} (a : Matrix m n ℝ) : Matrix m n ℝ := a
/-- See `identityMulMat`. -/
def matMulIdentity {m n : Type} (a : Matrix m n ℝ) : Matrix m n ℝ := a

end WG
