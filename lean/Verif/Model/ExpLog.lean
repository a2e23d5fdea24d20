import Verif.Model.Quat

/-!
# Rotation operators: exponential and logarithm on SO(3), with their Jacobians

`ε` is `Eigen::NumTraits<Scalar>::epsilon()`.
-/

namespace WG
open Matrix

/-- ExpMap of a relative rotation: RelativeRotation.hpp:103-129.  Note the sign of the cubic
term of the small-angle branch (`+ angle2/48`), copied from line 122. -/
noncomputable def expRel (ε : ℝ) (v : V3) : Option Quat :=
  let angle2 := normSq v
  let angle := Real.sqrt angle2
  if angle2 * angle2 > ε then do
    let s ← rdiv (Real.sin (angle / 2)) angle
    some (Quat.ofVec (Real.cos (angle / 2)) (s • v))
  else
    let s := 1 / 2 + angle2 / 48
    some (Quat.ofVec (1 - angle2 / 8) (s • v))

/-- Jacobian of ExpMap of a relative rotation, from the rotation matrix `C` of the value:
RelativeRotation.hpp:132-151 (`… / n2` in the branch `n2 > ε`). -/
noncomputable def expRelJac (ε : ℝ) (C : M3) (φ : V3) : Option M3 :=
  let n2 := normSq φ
  if n2 > ε then do
    let r ← rdiv 1 n2
    some (r • ((1 - C) * crossMatrix φ + outer φ φ))
  else some (1 + (1 / 2 : ℝ) • crossMatrix φ)

/-- LogMap of a rotation matrix: MatrixRotation.hpp:72-89, over an arbitrary implementation of
`std::acos` and `std::sin` (`acosF x = none` is NaN).  If `acos` is NaN the comparison
`angle * angle > eps` is false and the small-angle branch is taken. -/
noncomputable def logMatWith (acosF : ℝ → Option ℝ) (sinF : ℝ → ℝ) (ε : ℝ) (m : M3) : Option V3 :=
  let small : Option V3 := some (uncrossMatrix ((1 / 2 : ℝ) • (m - mᵀ)))
  match acosF ((m 0 0 + m 1 1 + m 2 2 - 1) / 2) with
  | none => small
  | some angle =>
    if angle * angle > ε then do
      let k ← rdiv angle (2 * sinF angle)
      some (uncrossMatrix (k • (m - mᵀ)))
    else small

/-- LogMap of a rotation matrix with exact `acos` and `sin`. -/
noncomputable def logMat (ε : ℝ) (m : M3) : Option V3 := logMatWith racos Real.sin ε m

/-- Jacobian of LogMap of a rotation (from the value `φ`): LogMap.hpp:38-60; no small-angle
branch. -/
noncomputable def logRotJac (φ : V3) : Option M3 := do
  let n2 := normSq φ
  let n := Real.sqrt n2
  let A ← rdiv (Real.sin n) n
  let B ← rdiv (1 - Real.cos n) n2
  let k ← rdiv (B - 1 / 2 * A) (1 - Real.cos n)
  some (1 - (1 / 2 : ℝ) • crossMatrix φ + k • (crossMatrix φ * crossMatrix φ))

end WG
