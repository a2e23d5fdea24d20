import Mathlib.LinearAlgebra.Matrix.PosDef
import Mathlib.Analysis.Matrix.Spectrum
import Mathlib.Algebra.Order.Star.Real
import Mathlib.Analysis.SpecialFunctions.Pow.Real

/-!
# Noise models (estimation/Noise.hpp)
-/

namespace WG
open Matrix

/-- The symmetric matrix `Eigen::SelfAdjointEigenSolver` works on: only the lower triangle of its
argument is read. -/
def lowerSym {n : ℕ} (A : Matrix (Fin n) (Fin n) ℝ) : Matrix (Fin n) (Fin n) ℝ :=
  Matrix.of fun i j => if j ≤ i then A i j else A j i

/-- What `Eigen::SelfAdjointEigenSolver<M>{A}` computes: an orthonormal basis of eigenvectors (the
columns of `V`) and the eigenvalues.  Only this is assumed of it (the order and the signs are
arbitrary). -/
structure EigenDecomp {n : ℕ} (A : Matrix (Fin n) (Fin n) ℝ) where
  V : Matrix (Fin n) (Fin n) ℝ
  d : Fin n → ℝ
  orth : V * Vᵀ = 1
  eq : V * diagonal d * Vᵀ = lowerSym A

/-- An eigenvalue solver: a decomposition for every matrix. -/
def Solver := ∀ (n : ℕ) (A : Matrix (Fin n) (Fin n) ℝ), EigenDecomp A

open Classical in
/-- `operatorInverseSqrt()`: `V diag(1/√d) Vᵀ`; `none` (not finite) if some eigenvalue is not
positive. -/
noncomputable def EigenDecomp.operatorInverseSqrt {n : ℕ} {A : Matrix (Fin n) (Fin n) ℝ}
    (D : EigenDecomp A) : Option (Matrix (Fin n) (Fin n) ℝ) :=
  if ∀ i, 0 < D.d i then some (D.V * diagonal (fun i => Real.sqrt (D.d i)⁻¹) * D.Vᵀ) else none

/-- A noise object: the stored covariance and the stored inverse square root (`none`: not finite). -/
structure Noise (n : ℕ) where
  cov : Matrix (Fin n) (Fin n) ℝ
  invSqrt : Option (Matrix (Fin n) (Fin n) ℝ)

/-- `FullNoise::FromCovariance`: Noise.hpp:21-52. -/
noncomputable def fullNoise (solver : Solver) {n : ℕ} (cov : Matrix (Fin n) (Fin n) ℝ) : Noise n :=
  ⟨cov, (solver n cov).operatorInverseSqrt⟩

open Classical in
/-- `DiagonalNoise::FromStdDev` of a vector (Noise.hpp:101-105) or of coefficients (108-116). -/
noncomputable def diagonalNoise {n : ℕ} (σ : Fin n → ℝ) : Noise n :=
  ⟨diagonal fun i => σ i * σ i, if ∀ i, σ i ≠ 0 then some (diagonal fun i => (σ i)⁻¹) else none⟩

/-- Value category of the object an accessor is called on. -/
inductive ValCat
  | lvalue
  | rvalue

/-- `noise.covariance()` (Noise.hpp:54-60, 118-124).  `none` is a compile error: the overload for
rvalues returns `MatrixType &&` bound to a `const` member. -/
def Noise.covariance {n : ℕ} (N : Noise n) : ValCat → Option (Matrix (Fin n) (Fin n) ℝ)
  | .lvalue => some N.cov
  | .rvalue => none

/-- `noise.inverseSqrtCov()` (Noise.hpp:62-68, 126-132); the outer `none` is a compile error, the
inner one a non-finite matrix. -/
def Noise.inverseSqrtCov {n : ℕ} (N : Noise n) : ValCat → Option (Option (Matrix (Fin n) (Fin n) ℝ))
  | .lvalue => some N.invSqrt
  | .rvalue => none

end WG
