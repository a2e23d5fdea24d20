import Verif.Model.Ops

/-!
# Random rotations and rigid transforms

`util/math/math.hpp:34-43`, `RotationBase.hpp:94-97`, `RigidTransformBase.hpp:70-74`.  The draws of the
generator are arguments.
-/

namespace WG

/-- `randomQuaternion()`: math.hpp:34-43, from the three uniform draws `s`, `u1`, `u2` in `[0, 1]`;
`none` when a square root has a negative argument. -/
noncomputable def randomQuaternion (s u1 u2 : ℝ) : Option Quat := do
  let s1 ← rsqrt (1 - s)
  let s2 ← rsqrt s
  let t1 := 2 * Real.pi * u1
  let t2 := 2 * Real.pi * u2
  some ⟨Real.cos t2 * s2, Real.sin t1 * s1, Real.cos t1 * s1, Real.sin t2 * s2⟩

/-- `Leaf{quaternion}` for the three rotation classes: QuaternionRotation.hpp:44-46,
MatrixRotation.hpp:43-45 (`toRotationMatrix()`), AngleAxisRotation.hpp:44-46. -/
noncomputable def rotFromQuat : (k : RotK) → Quat → k.Val
  | .quat, q => q
  | .mat, q => q.toMatrix
  | .aa, q => AngleAxis.ofQuat q

/-- `Random()` of a rotation class: RotationBase.hpp:94-97, TransformBase.hpp:98-100. -/
noncomputable def randomRot (k : RotK) (s u1 u2 : ℝ) : Option k.Val :=
  (randomQuaternion s u1 u2).map (rotFromQuat k)

/-- `Leaf{quaternion, translation}` for the two rigid transform classes:
MatrixRigidTransform.hpp:46-63, CompactRigidTransform.hpp:41-51. -/
noncomputable def rigidFromQuat : (k : RigK) → Quat → V3 → k.Val
  | .mat, q, t => mk4 q.toMatrix t
  | .compact, q, t => (⟨q, t⟩ : QuatTrans)

/-- `Random()` of a rigid transform class: RigidTransformBase.hpp:70-74; `t` is the drawn
translation. -/
noncomputable def randomRigid (k : RigK) (s u1 u2 : ℝ) (t : V3) : Option k.Val :=
  (randomQuaternion s u1 u2).map fun q => rigidFromQuat k q t

end WG
