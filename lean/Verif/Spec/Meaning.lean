import Verif.Spec.Geometry
import Verif.Model.Ops
import Mathlib.Algebra.Quaternion
import Mathlib.Analysis.Normed.Algebra.MatrixExponential

/-!
# Specification: what stored objects and operators mean

The meaning of a stored object is a mathematical object (a rotation matrix, a rigid motion or a
coordinate vector) described with Mathlib notions only; the meaning of an operator is a relation
between the meanings of operands and result.  Nothing here uses the model's evaluation functions.
-/

namespace WG.Spec
open Matrix

/-- The quaternion `w + x i + y j + z k`. -/
def mkH (w x y z : ℝ) : Quaternion ℝ := QuaternionAlgebra.mk w x y z

/-- The rotation `v ↦ h v h*` of a quaternion, as a matrix. -/
noncomputable def rotOfH (h : Quaternion ℝ) : M3 := Matrix.of fun i j =>
  let e := mkH 0 (if j = 0 then 1 else 0) (if j = 1 then 1 else 0) (if j = 2 then 1 else 0)
  let r := h * e * star h
  if i = 0 then r.imI else if i = 1 then r.imJ else r.imK

/-- A rotation by `angle` about the direction `axis`: the matrix exponential of the scaled
cross-product matrix. -/
noncomputable def rotAbout (angle : ℝ) (axis : V3) : M3 := NormedSpace.exp (angle • hat axis)

/-- A stored rotation is valid: unit quaternion, proper orthogonal matrix, unit axis. -/
def ValidRot : (k : RotK) → k.Val → Prop
  | .quat, q => mkH (Quat.w q) (Quat.x q) (Quat.y q) (Quat.z q) ∈ unitary (Quaternion ℝ)
  | .mat, m => IsRotation m
  | .aa, a => sqLen (AngleAxis.axis a) = 1

/-- The rotation a stored object represents. -/
noncomputable def rotDen : (k : RotK) → k.Val → M3
  | .quat, q => rotOfH (mkH (Quat.w q) (Quat.x q) (Quat.y q) (Quat.z q))
  | .mat, m => m
  | .aa, a => rotAbout (AngleAxis.angle a) (AngleAxis.axis a)

/-- The rigid motion a stored object represents: `x ↦` the first three coordinates of
`m (x, 1)`, respectively `x ↦ R x + t`. -/
noncomputable def rigidDen : (k : RigK) → k.Val → Rigid
  | .mat, (m : M4) =>
    ⟨Matrix.of fun i j => m (Fin.castSucc i) (Fin.castSucc j), fun i => m (Fin.castSucc i) (Fin.last 3)⟩
  | .compact, x => ⟨rotDen .quat (QuatTrans.q x), QuatTrans.t x⟩

/-- A stored rigid transform is valid: rotation part valid, and bottom row `(0,0,0,1)` for the
4x4 storage. -/
def ValidRigid : (k : RigK) → k.Val → Prop
  | .mat, (m : M4) => IsRotation (rigidDen .mat m).R ∧ m (Fin.last 3) = ![0, 0, 0, 1]
  | .compact, x => ValidRot .quat (QuatTrans.q x)

/-- Mathematical objects denoted by values of a leaf class. -/
def Den : Ty → Type
  | .vec k => k.Idx → ℝ
  | .point => V3
  | .rot _ => M3
  | .rigid _ => Rigid

/-- Meaning of a stored value. -/
noncomputable def den : (τ : Ty) → τ.Val → Den τ
  | .vec _, v => v
  | .point, p => p
  | .rot k, x => rotDen k x
  | .rigid k, x => rigidDen k x

/-- Validity of a stored value. -/
def Valid : (τ : Ty) → τ.Val → Prop
  | .vec _, _ => True
  | .point, _ => True
  | .rot k, x => ValidRot k x
  | .rigid k, x => ValidRigid k x

/-- Rotation angle in `[0, π]`. -/
noncomputable def angle (R : M3) : ℝ := Real.arccos ((R.trace - 1) / 2)

/-- Composition of rigid motions. -/
def Rigid.comp (S T : Rigid) : Rigid := ⟨S.R * T.R, S.act T.t⟩
/-- The identity motion. -/
def Rigid.id : Rigid := ⟨1, 0⟩
/-- A rigid motion as a homogeneous matrix. -/
def Rigid.hom (T : Rigid) : Matrix (Fin 3 ⊕ Unit) (Fin 3 ⊕ Unit) ℝ :=
  fromBlocks T.R (replicateCol Unit T.t) 0 1
/-- The homogeneous matrix of an infinitesimal motion (first block of coordinates: angular
velocity, second block: linear velocity). -/
def twistMat (x : Fin 3 ⊕ Fin 3 → ℝ) : Matrix (Fin 3 ⊕ Unit) (Fin 3 ⊕ Unit) ℝ :=
  fromBlocks (hat fun i => x (.inl i)) (replicateCol Unit fun i => x (.inr i)) 0 0

/-- Meaning of the unary operators, as a relation between operand and result. -/
def UnMeans : {a b : Ty} → Un a b → Den a → Den b → Prop
  | _, _, .minus k, (x : k.Idx → ℝ), (y : k.Idx → ℝ) => ∀ i, y i = -x i
  | _, _, .sqNorm k, (x : k.Idx → ℝ), (y : Fin 1 → ℝ) => y 0 = x ⬝ᵥ x
  | _, _, .norm k, (x : k.Idx → ℝ), (y : Fin 1 → ℝ) => 0 ≤ y 0 ∧ y 0 ^ 2 = x ⬝ᵥ x
  | _, _, .normalize k, (x : k.Idx → ℝ), (y : k.Idx → ℝ) =>
    (x = 0 ∧ y = 0) ∨ (y ⬝ᵥ y = 1 ∧ ∃ c : ℝ, 0 < c ∧ y = c • x)
  | _, _, .acos, (x : Fin 1 → ℝ), (y : Fin 1 → ℝ) =>
    Real.cos (y 0) = x 0 ∧ 0 ≤ y 0 ∧ y 0 ≤ Real.pi
  | _, _, .invRot _, (x : M3), (y : M3) => x * y = 1
  | _, _, .invRigid _, (x : Rigid), (y : Rigid) => x.comp y = Rigid.id
  | _, _, .expRel, (x : V3), (y : M3) => y = NormedSpace.exp (hat x)
  | _, _, .expTwist, (x : Fin 3 ⊕ Fin 3 → ℝ), (y : Rigid) => y.hom = NormedSpace.exp (twistMat x)
  | _, _, .logRot, (x : M3), (y : V3) =>
    x = NormedSpace.exp (hat y) ∧ sqLen y < Real.pi ^ 2
  | _, _, .logRigid _, (x : Rigid), (y : Fin 3 ⊕ Fin 3 → ℝ) =>
    x.hom = NormedSpace.exp (twistMat y) ∧ sqLen (fun i => y (.inl i)) < Real.pi ^ 2
  | _, _, .getRot _, (x : Rigid), (y : M3) => y = x.R
  | _, _, .getTrans _, (x : Rigid), (y : V3) => y = x.t
  | _, _, .zeroTrans _, _, (y : V3) => y = 0
  | _, _, .convRot _ _, (x : M3), (y : M3) => y = x
  | _, _, .convRigid _ _, (x : Rigid), (y : Rigid) => y = x
  | _, _, .recast _, x, y => y = x

/-- Meaning of the binary operators. -/
def BinMeans : {a b c : Ty} → Bin a b c → Den a → Den b → Den c → Prop
  | _, _, _, .sum k, (x : k.Idx → ℝ), (y : k.Idx → ℝ), (z : k.Idx → ℝ) => ∀ i, z i = x i + y i
  | _, _, _, .sumPV, (x : V3), (y : V3), (z : V3) => z = x + y
  | _, _, _, .sumVP, (x : V3), (y : V3), (z : V3) => z = x + y
  | _, _, _, .sub k, (x : k.Idx → ℝ), (y : k.Idx → ℝ), (z : k.Idx → ℝ) => ∀ i, z i = x i - y i
  | _, _, _, .subPP, (x : V3), (y : V3), (z : V3) => z = x - y
  | _, _, _, .subPV, (x : V3), (y : V3), (z : V3) => z = x - y
  | _, _, _, .scale k, (s : Fin 1 → ℝ), (v : k.Idx → ℝ), (z : k.Idx → ℝ) => ∀ i, z i = s 0 * v i
  | _, _, _, .scaleR k, (v : k.Idx → ℝ), (s : Fin 1 → ℝ), (z : k.Idx → ℝ) => ∀ i, z i = v i * s 0
  | _, _, _, .scaleDiv k, (v : k.Idx → ℝ), (s : Fin 1 → ℝ), (z : k.Idx → ℝ) =>
    ∀ i, z i * s 0 = v i
  | _, _, _, .dot k, (x : k.Idx → ℝ), (y : k.Idx → ℝ), (z : Fin 1 → ℝ) => z 0 = x ⬝ᵥ y
  | _, _, _, .product, (x : Fin 1 → ℝ), (y : Fin 1 → ℝ), (z : Fin 1 → ℝ) => z 0 = x 0 * y 0
  | _, _, _, .divide, (x : Fin 1 → ℝ), (y : Fin 1 → ℝ), (z : Fin 1 → ℝ) => z 0 * y 0 = x 0
  | _, _, _, .composeQ, (x : M3), (y : M3), (z : M3) => z = x * y
  | _, _, _, .composeM, (x : M3), (y : M3), (z : M3) => z = x * y
  | _, _, _, .composeRigid _ _, (x : Rigid), (y : Rigid), (z : Rigid) => z = x.comp y
  | _, _, _, .flipQ, (x : M3), (y : M3), (z : M3) => z = y * x
  | _, _, _, .flipM, (x : M3), (y : M3), (z : M3) => z = y * x
  | _, _, _, .flipRigid _ _, (x : Rigid), (y : Rigid), (z : Rigid) => z = y.comp x
  | _, _, _, .rotateQ, (R : M3), (v : V3), (z : V3) => z = R *ᵥ v
  | _, _, _, .rotateM, (R : M3), (v : V3), (z : V3) => z = R *ᵥ v
  | _, _, _, .transform _, (T : Rigid), (v : V3), (z : V3) => z = T.act v

/-- The operands on which a unary operator is exact: outside the small-angle approximation (other
than zero itself), no half-turn for the logarithms, in the domain of the arc cosine. -/
def RegularUn (ε : ℝ) : {a b : Ty} → Un a b → Den a → Prop
  | _, _, .acos, (x : Fin 1 → ℝ) => -1 ≤ x 0 ∧ x 0 ≤ 1
  | _, _, .expRel, (x : V3) => x = 0 ∨ ε < sqLen x ^ 2
  | _, _, .expTwist, (x : Fin 3 ⊕ Fin 3 → ℝ) =>
    (fun i => x (.inl i)) = (0 : V3) ∨ ε < sqLen fun i => x (.inl i)
  | _, _, .logRot, (x : M3) => x = 1 ∨ (ε < angle x ^ 2 ∧ angle x ≠ Real.pi)
  | _, _, .logRigid _, (x : Rigid) => x.R = 1 ∨ (ε < angle x.R ^ 2 ∧ angle x.R ≠ Real.pi)
  | _, _, _, _ => True

/-- The operands on which a binary operator is defined: no division by zero. -/
def RegularBin : {a b c : Ty} → Bin a b c → Den a → Den b → Prop
  | _, _, _, .scaleDiv _, _, (s : Fin 1 → ℝ) => s 0 ≠ 0
  | _, _, _, .divide, _, (y : Fin 1 → ℝ) => y 0 ≠ 0
  | _, _, _, _, _, _ => True

end WG.Spec
