import Verif.Model.ExpLog
import Mathlib.Data.Matrix.ColumnRowPartitioned

/-!
# Rigid transforms and twists

`geometry/leaf/MatrixRigidTransform.hpp` (4x4 storage), `CompactRigidTransform.hpp` (quaternion and
translation), `Twist.hpp`, `geometry/base/RigidTransformBase.hpp`, `TransformBase.hpp`.
-/

namespace WG
open Matrix

/-- A twist: rotation = first three coefficients (`Twist.hpp:61-68`), translation = last three
(`Twist.hpp:71-78`). -/
abbrev Twist := Fin 3 ⊕ Fin 3 → ℝ
/-- `twist.rotation()`, Twist.hpp:61-68. -/
def Twist.rot (x : Twist) : V3 := fun i => x (Sum.inl i)
/-- `twist.translation()`, Twist.hpp:71-78. -/
def Twist.trans (x : Twist) : V3 := fun i => x (Sum.inr i)
/-- `Twist{rr, t}`, Twist.hpp:52-58. -/
def Twist.mk (r t : V3) : Twist := Sum.elim r t

/-- A 6x6 Jacobian block matrix (rotation block first). -/
abbrev M6 := Matrix (Fin 3 ⊕ Fin 3) (Fin 3 ⊕ Fin 3) ℝ

/-- `MatrixRigidTransform{R, t}`: MatrixRigidTransform.hpp:46-63 (and the default constructor
38-41, which fills the last row). -/
def mk4 (R : M3) (t : V3) : M4 :=
  !![R 0 0, R 0 1, R 0 2, t 0; R 1 0, R 1 1, R 1 2, t 1; R 2 0, R 2 1, R 2 2, t 2; 0, 0, 0, 1]

/-- `rotationBlock()`: MatrixRigidTransform.hpp:84-93, `topLeftCorner<3,3>()`. -/
def rotBlock (m : M4) : M3 := Matrix.of fun i j => m (i.castLE (by decide)) (j.castLE (by decide))
/-- `translationBlock()`: MatrixRigidTransform.hpp:97-106, `topRightCorner<3,1>()`. -/
def transBlock (m : M4) : V3 := fun i => m (i.castLE (by decide)) 3

/-- `CompactRigidTransform` storage: a quaternion and a translation
(CompactRigidTransform.hpp:20-29). -/
@[ext] structure QuatTrans where
  q : Quat
  t : V3

/-- ExpMap of a twist: Twist.hpp:95-131. -/
noncomputable def expTwist (ε : ℝ) (x : Twist) : Option M4 :=
  let ω := x.rot
  let θ2 := normSq ω
  let θ := Real.sqrt θ2
  let cr := crossMatrix ω
  let build (A B C : ℝ) : M4 :=
    mk4 (1 + A • cr + B • (cr * cr)) ((1 + B • cr + C • (cr * cr)) *ᵥ x.trans)
  if θ2 > ε then do
    let A ← rdiv (Real.sin θ) θ
    let B ← rdiv (1 - Real.cos θ) θ2
    let C ← rdiv (1 - A) θ2
    some (build A B C)
  else some (build 1 0 0)

/-- Eade's `B` term with the coefficients `a b c`: Twist.hpp:152-162 and
RigidTransformBase.hpp:178-190.  `none` when `theta2` or `theta` is zero (no small-angle branch). -/
noncomputable def eadeB (ω u : V3) : Option M3 := do
  let θ2 := normSq ω
  let θ := Real.sqrt θ2
  let a ← rdiv (Real.sin θ) θ
  let b ← rdiv (1 - Real.cos θ) θ2
  let c ← rdiv (1 - a) θ2
  let w1 ← rdiv (a - 2 * b) θ2
  let w2 ← rdiv (b - 3 * c) θ2
  let W : M3 := (c - b) • (1 : M3) + w1 • crossMatrix ω + w2 • outer ω ω
  some (b • crossMatrix u + c • (outer ω u + outer u ω) + dot ω u • W)

/-- Jacobian of ExpMap of a twist, from the rotation block of the value: Twist.hpp:134-171. -/
noncomputable def expTwistJac (ε : ℝ) (C : M3) (x : Twist) : Option M6 := do
  let Drot ← expRelJac ε C x.rot
  let B ← eadeB x.rot x.trans
  some (fromBlocks Drot 0 B Drot)

/-- Translation part of LogMap of a rigid transform, given `omega`: RigidTransformBase.hpp:131-157.
`A / 2 / B` is two divisions. -/
noncomputable def logTrans (ε : ℝ) (ω t : V3) : Option V3 :=
  let θ2 := normSq ω
  let θ := Real.sqrt θ2
  let cr := crossMatrix ω
  if θ2 > ε then do
    let A ← rdiv (Real.sin θ) θ
    let B ← rdiv (1 - Real.cos θ) θ2
    let q ← rdiv (A / 2) B
    let k ← rdiv (1 - q) θ2
    some ((1 - (1 / 2 : ℝ) • cr + k • (cr * cr)) *ᵥ t)
  else some ((1 - (1 / 2 : ℝ) • cr) *ᵥ t)

/-- LogMap of a rigid transform with rotation matrix `R` and translation `t`:
RigidTransformBase.hpp:122-158 (the rotation part calls LogMap of the rotation; a quaternion
rotation is first converted to a matrix). -/
noncomputable def logRigid (ε : ℝ) (R : M3) (t : V3) : Option Twist := do
  let ω ← logMat ε R
  let u ← logTrans ε ω t
  some (Twist.mk ω u)

/-- Jacobian of LogMap of a rigid transform (from its value): RigidTransformBase.hpp:161-200. -/
noncomputable def logRigidJac (val : Twist) : Option M6 := do
  let Drot ← logRotJac val.rot
  let B ← eadeB val.rot val.trans
  some (fromBlocks Drot 0 (-Drot * B * Drot) Drot)

/-- Adjoint block matrix `[R 0; [t]R R]`: RigidTransformBase.hpp:97-104,
TransformBase.hpp:217-225. -/
def adjoint (R : M3) (t : V3) : M6 := fromBlocks R 0 (crossMatrix t * R) R

/-- Jacobian of Inverse of a rigid transform, from the blocks of the value:
RigidTransformBase.hpp:86-105. -/
def invRigidJac (R : M3) (t : V3) : M6 := -adjoint R t

/-- Right Jacobian of Compose of rigid transforms, from the blocks of the left operand:
TransformBase.hpp:206-227. -/
def composeRigidJacR (R : M3) (t : V3) : M6 := adjoint R t

/-- Left Jacobian of Transform, from the value: TransformBase.hpp:241-252. -/
def transformJacL (val : V3) : Matrix (Fin 3) (Fin 3 ⊕ Fin 3) ℝ :=
  fromCols (crossMatrix (-val)) 1

/-- Jacobian of `.rotation()`: TransformBase.hpp:22-30. -/
def getRotJac : Matrix (Fin 3) (Fin 3 ⊕ Fin 3) ℝ := fromCols 1 0

/-- Jacobian of `.translation()`: TransformBase.hpp:43-53. -/
def getTransJac (t : V3) : Matrix (Fin 3) (Fin 3 ⊕ Fin 3) ℝ := fromCols (crossMatrix (-t)) 1

end WG
