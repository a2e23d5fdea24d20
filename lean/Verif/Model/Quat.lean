import Verif.Model.Linear

/-!
# Rotation storage classes

`Eigen::Quaternion`, rotation matrices and `Eigen::AngleAxis`, as used by
`geometry/leaf/QuaternionRotation.hpp`, `MatrixRotation.hpp` and `AngleAxisRotation.hpp`.
The Eigen member functions are modelled from Eigen 3.3's formulas (trusted base).
-/

namespace WG
open Matrix

/-- `Eigen::Quaternion<Scalar>`: the four stored coefficients. -/
@[ext] structure Quat where
  w : ℝ
  x : ℝ
  y : ℝ
  z : ℝ

namespace Quat

/-- `q.vec()`. -/
def vec (q : Quat) : V3 := ![q.x, q.y, q.z]

/-- Quaternion from real part and vector part (`coeffs() << vec, w`). -/
def ofVec (w : ℝ) (v : V3) : Quat := ⟨w, v 0, v 1, v 2⟩

/-- `Eigen::Quaternion::operator*` (Hamilton product). -/
def mul (a b : Quat) : Quat where
  w := a.w * b.w - a.x * b.x - a.y * b.y - a.z * b.z
  x := a.w * b.x + a.x * b.w + a.y * b.z - a.z * b.y
  y := a.w * b.y + a.y * b.w + a.z * b.x - a.x * b.z
  z := a.w * b.z + a.z * b.w + a.x * b.y - a.y * b.x

/-- `Eigen::Quaternion::conjugate`. -/
def conj (q : Quat) : Quat := ⟨q.w, -q.x, -q.y, -q.z⟩

/-- `Eigen::Quaternion::toRotationMatrix` (the formula for unit quaternions; Eigen does not
normalise). -/
def toMatrix (q : Quat) : M3 :=
  !![1 - (2 * q.y * q.y + 2 * q.z * q.z), 2 * q.y * q.x - 2 * q.z * q.w,
        2 * q.z * q.x + 2 * q.y * q.w;
     2 * q.y * q.x + 2 * q.z * q.w, 1 - (2 * q.x * q.x + 2 * q.z * q.z),
        2 * q.z * q.y - 2 * q.x * q.w;
     2 * q.z * q.x - 2 * q.y * q.w, 2 * q.z * q.y + 2 * q.x * q.w,
        1 - (2 * q.x * q.x + 2 * q.y * q.y)]

/-- `Eigen::Quaternion::_transformVector`: `uv = 2 vec×v; v + w*uv + vec×uv`. -/
def rotate (q : Quat) (v : V3) : V3 :=
  let uv : V3 := (2 : ℝ) • cross q.vec v
  v + q.w • uv + cross q.vec uv

/-- `Eigen::Quaternion::Identity()`. -/
def one : Quat := ⟨1, 0, 0, 0⟩

/-- `Eigen::Quaternion(const Matrix3&)`: Eigen's `quaternionbase_assign_impl<Matrix,3,3>`
("Quaternion calculus and fast animation"): use the trace if it is positive, otherwise the
largest diagonal entry.  `none`: the pivot divides by zero or the root is of a negative. -/
noncomputable def ofMatrix (m : M3) : Option Quat :=
  let t := m 0 0 + m 1 1 + m 2 2
  if t > 0 then do
    let t ← rsqrt (t + 1)
    let h ← rdiv (1 / 2) t
    some ⟨1 / 2 * t, (m 2 1 - m 1 2) * h, (m 0 2 - m 2 0) * h, (m 1 0 - m 0 1) * h⟩
  else if m 2 2 > (if m 1 1 > m 0 0 then m 1 1 else m 0 0) then do
    let t ← rsqrt (m 2 2 - m 0 0 - m 1 1 + 1)
    let h ← rdiv (1 / 2) t
    some ⟨(m 1 0 - m 0 1) * h, (m 0 2 + m 2 0) * h, (m 1 2 + m 2 1) * h, 1 / 2 * t⟩
  else if m 1 1 > m 0 0 then do
    let t ← rsqrt (m 1 1 - m 2 2 - m 0 0 + 1)
    let h ← rdiv (1 / 2) t
    some ⟨(m 0 2 - m 2 0) * h, (m 0 1 + m 1 0) * h, 1 / 2 * t, (m 2 1 + m 1 2) * h⟩
  else do
    let t ← rsqrt (m 0 0 - m 1 1 - m 2 2 + 1)
    let h ← rdiv (1 / 2) t
    some ⟨(m 2 1 - m 1 2) * h, 1 / 2 * t, (m 1 0 + m 0 1) * h, (m 2 0 + m 0 2) * h⟩

end Quat

/-- `Eigen::AngleAxis<Scalar>`. -/
@[ext] structure AngleAxis where
  angle : ℝ
  axis : V3

namespace AngleAxis

/-- `Eigen::AngleAxis::toRotationMatrix`. -/
noncomputable def toMatrix (a : AngleAxis) : M3 :=
  let s := Real.sin a.angle
  let c := Real.cos a.angle
  let n := a.axis
  !![(1 - c) * n 0 * n 0 + c, (1 - c) * n 0 * n 1 - s * n 2, (1 - c) * n 0 * n 2 + s * n 1;
     (1 - c) * n 0 * n 1 + s * n 2, (1 - c) * n 1 * n 1 + c, (1 - c) * n 1 * n 2 - s * n 0;
     (1 - c) * n 0 * n 2 - s * n 1, (1 - c) * n 1 * n 2 + s * n 0, (1 - c) * n 2 * n 2 + c]

/-- `Eigen::AngleAxis::inverse`: negated angle, same axis. -/
def inverse (a : AngleAxis) : AngleAxis := ⟨-a.angle, a.axis⟩

/-- `std::atan2(y, x)` for `y ≥ 0`, `x ≥ 0`, not both zero (the only use): written with
`arccos`, exact on that quadrant. -/
noncomputable def atan2Q (y x : ℝ) : ℝ := Real.arccos (x / Real.sqrt (x * x + y * y))

/-- `Eigen::AngleAxis(const Quaternion&)`, Eigen 3.3: `n = vec.norm(); if (n != 0) { angle =
2*atan2(n, |w|); if (w < 0) n = -n; axis = vec/n } else { angle = 0; axis = (1,0,0) }`. -/
noncomputable def ofQuat (q : Quat) : AngleAxis :=
  let n := norm3 q.vec
  if n ≠ 0 then
    let m := if q.w < 0 then -n else n
    ⟨2 * atan2Q n |q.w|, fun i => q.vec i / m⟩
  else ⟨0, ![1, 0, 0]⟩

/-- `Eigen::AngleAxis(const Matrix3&)`: Eigen goes through a quaternion. -/
noncomputable def ofMatrix (m : M3) : Option AngleAxis := (Quat.ofMatrix m).map ofQuat

end AngleAxis

end WG
