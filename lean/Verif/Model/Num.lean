import Mathlib.Analysis.SpecialFunctions.Trigonometric.Inverse
import Mathlib.Analysis.SpecialFunctions.Sqrt
import Mathlib.LinearAlgebra.Matrix.Notation
import Mathlib.LinearAlgebra.Matrix.Determinant.Basic
import Mathlib.LinearAlgebra.CrossProduct
import Mathlib.Data.Matrix.Block
import Mathlib.Tactic.Ring
import Mathlib.Tactic.FieldSimp
import Mathlib.Tactic.LinearCombination
import Mathlib.Tactic.NormNum
import Mathlib.Tactic.Linarith
import Mathlib.Tactic.FinCases

/-!
# Numbers of the model

The C++ code computes with `Scalar` (in practice `double`).  The model computes with real
numbers.  Three C++ expressions have no finite value on some real inputs; the model makes
that outcome explicit with `none` ("the C++ result is NaN or infinite"):

* `a / b` with `b = 0`            (`rdiv`)
* `std::acos x` with `|x| > 1`    (`racos`)
* `std::sqrt x` with `x < 0`      (`rsqrt`)

Simplification: rounding is not modelled, and every operation on a non-finite operand
is non-finite (IEEE `1/Inf = 0` is not exploited by the code modelled here).
-/

namespace WG

/-- A 3-vector (`Eigen::Matrix<Scalar,3,1>`). -/
abbrev V3 := Fin 3 → ℝ
/-- A 3x3 matrix (`Eigen::Matrix<Scalar,3,3>`). -/
abbrev M3 := Matrix (Fin 3) (Fin 3) ℝ
/-- A 4x4 matrix (`Eigen::Matrix<Scalar,4,4>`). -/
abbrev M4 := Matrix (Fin 4) (Fin 4) ℝ

/-- C++ floating-point division, with division by zero as a separate outcome. -/
noncomputable def rdiv (a b : ℝ) : Option ℝ := if b = 0 then none else some (a / b)

/-- `std::acos`, with the domain error as a separate outcome. -/
noncomputable def racos (x : ℝ) : Option ℝ :=
  if -1 ≤ x ∧ x ≤ 1 then some (Real.arccos x) else none

/-- `std::sqrt`, with the domain error as a separate outcome. -/
noncomputable def rsqrt (x : ℝ) : Option ℝ := if 0 ≤ x then some (Real.sqrt x) else none

end WG
