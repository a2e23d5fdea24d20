import Verif.Model.Construct
import Verif.Model.Compound

/-!
# Jacobians filled block by block

The Jacobians of the rigid-transform operators are flat Eigen matrices that are created without
setting their coefficients and filled by assignments to blocks.  `Model/Rigid.lean` gives these
Jacobians by their blocks; here each function is modelled by the sequence of assignments it performs,
so that a coefficient left unset, set twice or set in the wrong place is visible.

Simplified: a `BlockMatrix{}` is in fact zero-initialised before the constructor of its base class
runs (its default constructor is defaulted in the class), an `Eigen::Matrix{}` is not; both are
modelled as unset.  Aliasing is absent: the right-hand sides never refer to the matrix being filled.
-/

namespace WG
open Matrix

/-- An Eigen matrix in memory, `none` for a coefficient that has not been set. -/
structure Flat where
  rows : ℕ
  cols : ℕ
  mem : ℕ → ℕ → Option ℝ

/-- A block of a matrix: first row, first column, number of rows, number of columns. -/
structure BlockView where
  row : ℕ
  col : ℕ
  rows : ℕ
  cols : ℕ

/-- `jacobian_t<Val, Rhs> out{}`, `BlockMatrix<Val, Rhs> adj{}`: TransformBase.hpp:26, 48, 219, 249,
RigidTransformBase.hpp:98, 194, Twist.hpp:165. -/
def Flat.fresh (R C : ℕ) : Flat := ⟨R, C, fun _ _ => none⟩

/-- `block<h, w>(r, c)`; Eigen asserts that the block lies in the matrix. -/
def Flat.block (M : Flat) (r c h w : ℕ) : Option BlockView :=
  if r + h ≤ M.rows ∧ c + w ≤ M.cols then some ⟨r, c, h, w⟩ else none

/-- `blockWrt<I, J>()`: BlockMatrix.hpp:51-69, for the tangent sizes of the two lists of blocks. -/
def Flat.blockWrt (M : Flat) (ls rs : List ℕ) (I J : ℕ) : Option BlockView := do
  let (r, h) ← blockRange ls I
  let (c, w) ← blockRange rs J
  M.block r c h w

/-- `colsWrt<J>()`: BlockMatrix.hpp:71-83, `middleCols`. -/
def Flat.colsWrt (M : Flat) (rs : List ℕ) (J : ℕ) : Option BlockView := do
  let (c, w) ← blockRange rs J
  M.block 0 c M.rows w

/-- `rowsWrt<I>()`: BlockMatrix.hpp:85-97, `middleRows`. -/
def Flat.rowsWrt (M : Flat) (ls : List ℕ) (I : ℕ) : Option BlockView := do
  let (r, h) ← blockRange ls I
  M.block r 0 h M.cols

/-- `topLeftCorner<h, w>()`. -/
def Flat.topLeft (M : Flat) (h w : ℕ) : Option BlockView := M.block 0 0 h w
/-- `topRightCorner<h, w>()`: starts at column `cols() - w`. -/
def Flat.topRight (M : Flat) (h w : ℕ) : Option BlockView :=
  if w ≤ M.cols then M.block 0 (M.cols - w) h w else none
/-- `bottomLeftCorner<h, w>()`. -/
def Flat.bottomLeft (M : Flat) (h w : ℕ) : Option BlockView :=
  if h ≤ M.rows then M.block (M.rows - h) 0 h w else none
/-- `bottomRightCorner<h, w>()`. -/
def Flat.bottomRight (M : Flat) (h w : ℕ) : Option BlockView :=
  if h ≤ M.rows ∧ w ≤ M.cols then M.block (M.rows - h) (M.cols - w) h w else none

/-- `block = A`: the sizes must agree (Eigen's static assertion). -/
def Flat.assign (M : Flat) (V : Option BlockView) (A : MatObj) : Option Flat := do
  let V ← V
  if A.rows = V.rows ∧ A.cols = V.cols then some { M with mem := putBlock V.row V.col A M.mem } else none

/-- `block.setZero()`. -/
def Flat.setZero (M : Flat) (V : Option BlockView) : Option Flat := do
  let V ← V
  M.assign V ⟨V.rows, V.cols, fun _ _ => 0⟩

/-- `block.setIdentity()`: ones on the diagonal of a block of any shape. -/
def Flat.setIdentity (M : Flat) (V : Option BlockView) : Option Flat := do
  let V ← V
  M.assign V ⟨V.rows, V.cols, fun i j => if i = j then 1 else 0⟩

/-- `-adj`: every coefficient of the matrix is negated. -/
def Flat.neg (M : Flat) : Flat := { M with mem := fun i j => (M.mem i j).map Neg.neg }

/-- The matrix as it is read afterwards; none when a coefficient in the matrix was never set (its
value is then undetermined). -/
def Flat.read (R C : ℕ) (M : Flat) : Option (Matrix (Fin R) (Fin C) ℝ) :=
  if M.rows = R ∧ M.cols = C ∧ ∀ (i : Fin R) (j : Fin C), (M.mem i j).isSome then
    some (Matrix.of fun i j => (M.mem i j).getD 0)
  else none

/-- The tangent sizes of the blocks of a rigid transform or a twist, rotation first:
RigidTransformBase.hpp:61-62, Twist.hpp:87-88. -/
def rigidBlocks : List ℕ := [3, 3]

/-- `enum : int { Rotation, Translation }`: TransformBase.hpp:63, TwistBase.hpp:21. -/
def rotationIdx : ℕ := 0
/-- See `rotationIdx`. -/
def translationIdx : ℕ := 1

/-- `CrossMatrix`'s constructor, CrossMatrix.hpp:38-49: nine numbers given to the comma initialiser
of a 3x3 matrix. -/
def crossFill (v : V3) : Option Flat := do
  let mem ← commaInit 3 3 [MatObj.one 0, MatObj.one (-v 2), MatObj.one (v 1),
    MatObj.one (v 2), MatObj.one 0, MatObj.one (-v 0),
    MatObj.one (-v 1), MatObj.one (v 0), MatObj.one 0]
  some ⟨3, 3, mem⟩

/-- `q.value().coeffs() << s * v, c`, RelativeRotation.hpp:126-127: a 3x1 block and a number given to
the comma initialiser of the 4x1 vector of an uninitialised quaternion's coefficients. -/
def quatFill (s c : ℝ) (v : V3) : Option Flat := do
  let mem ← commaInit 4 1 [⟨3, 1, fun i _ => if h : i < 3 then (s • v) ⟨i, h⟩ else 0⟩, MatObj.one c]
  some ⟨4, 1, mem⟩

/-- The quaternion whose coefficients are stored in the order x, y, z, w (Eigen's storage order). -/
def Quat.ofCoeffs (m : Matrix (Fin 4) (Fin 1) ℝ) : Quat := ⟨m 3 0, m 0 0, m 1 0, m 2 0⟩

/-- `RotationGetter::jacobian`, TransformBase.hpp:23-30. -/
def getRotFill : Option Flat := do
  let M := Flat.fresh 3 6
  let M ← M.setZero (M.colsWrt rigidBlocks 1)
  M.setIdentity (M.colsWrt rigidBlocks 0)

/-- `TranslationGetter::jacobian`, TransformBase.hpp:44-53. -/
def getTransFill (t : V3) : Option Flat := do
  let M := Flat.fresh 3 6
  let M ← M.assign (M.colsWrt rigidBlocks 0) (MatObj.ofM3 (crossMatrix (-t)))
  M.setIdentity (M.colsWrt rigidBlocks 1)

/-- Right Jacobian of Compose, TransformBase.hpp:206-227. -/
def composeFill (R : M3) (t : V3) : Option Flat := do
  let M := Flat.fresh 6 6
  let M ← M.assign (M.topLeft 3 3) (MatObj.ofM3 R)
  let M ← M.assign (M.bottomLeft 3 3) (MatObj.ofM3 (crossMatrix t * R))
  let M ← M.setZero (M.topRight 3 3)
  M.assign (M.bottomRight 3 3) (MatObj.ofM3 R)

/-- Left Jacobian of Transform, TransformBase.hpp:241-252: two blocks given to the comma initialiser
of a 3x6 matrix. -/
def transformFill (val : V3) : Option Flat := do
  let mem ← commaInit 3 6 [MatObj.ofM3 (crossMatrix (-val)), MatObj.ofM3 1]
  some ⟨3, 6, mem⟩

/-- Jacobian of Inverse, RigidTransformBase.hpp:85-105. -/
def inverseFill (R : M3) (t : V3) : Option Flat := do
  let M := Flat.fresh 6 6
  let M ← M.assign (M.blockWrt rigidBlocks rigidBlocks rotationIdx rotationIdx) (MatObj.ofM3 R)
  let M ← M.assign (M.blockWrt rigidBlocks rigidBlocks translationIdx rotationIdx)
    (MatObj.ofM3 (crossMatrix t * R))
  let M ← M.setZero (M.blockWrt rigidBlocks rigidBlocks rotationIdx translationIdx)
  let M ← M.assign (M.blockWrt rigidBlocks rigidBlocks translationIdx translationIdx) (MatObj.ofM3 R)
  some M.neg

/-- The assignments of the Jacobian of ExpMap of a twist, Twist.hpp:165-170. -/
def expTwistFill (Drot B : M3) : Option Flat := do
  let M := Flat.fresh 6 6
  let M ← M.assign (M.blockWrt rigidBlocks rigidBlocks rotationIdx rotationIdx) (MatObj.ofM3 Drot)
  let M ← M.assign (M.blockWrt rigidBlocks rigidBlocks translationIdx rotationIdx) (MatObj.ofM3 B)
  let M ← M.setZero (M.blockWrt rigidBlocks rigidBlocks rotationIdx translationIdx)
  M.assign (M.blockWrt rigidBlocks rigidBlocks translationIdx translationIdx) (MatObj.ofM3 Drot)

/-- The assignments of the Jacobian of LogMap, RigidTransformBase.hpp:194-199. -/
def logRigidFill (Drot B : M3) : Option Flat := do
  let M := Flat.fresh 6 6
  let M ← M.assign (M.topLeft 3 3) (MatObj.ofM3 Drot)
  let M ← M.assign (M.bottomLeft 3 3) (MatObj.ofM3 (-Drot * B * Drot))
  let M ← M.setZero (M.topRight 3 3)
  M.assign (M.bottomRight 3 3) (MatObj.ofM3 Drot)

/-- Jacobian of ExpMap of a twist as a flat matrix, Twist.hpp:133-171; none also when the rotation is
so small that a division by zero makes `B` not a number. -/
noncomputable def expTwistJacFlat (ε : ℝ) (C : M3) (x : Twist) : Option Flat := do
  let Drot ← expRelJac ε C x.rot
  let B ← eadeB x.rot x.trans
  expTwistFill Drot B

/-- Jacobian of LogMap of a rigid transform as a flat matrix, RigidTransformBase.hpp:160-200. -/
noncomputable def logRigidJacFlat (val : Twist) : Option Flat := do
  let Drot ← logRotJac val.rot
  let B ← eadeB val.rot val.trans
  logRigidFill Drot B

/-- Assignments of all the listed blocks of a `BlockMatrix`, in the order of the list. -/
def fillBlocks (ls rs : List ℕ) (A : ℕ → ℕ → MatObj) (M : Flat) (order : List (ℕ × ℕ)) : Option Flat :=
  order.foldlM (fun M p => M.assign (M.blockWrt ls rs p.1 p.2) (A p.1 p.2)) M

end WG
