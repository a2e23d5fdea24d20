import Verif.Model.Rigid
import Verif.Model.Vector

/-!
# The operators of the library, as a typed signature

`Ty` is the list of (unframed) leaf classes; `Un`/`Bin` are the directly evaluable operators, i.e.
the `evalImpl` overloads; conversions (`Convert`) are unary operators of their own, as in
`core/op/Convert.hpp`.
-/

namespace WG
open Matrix

/-- Vector-like leaf classes: `Scalar`, `Translation`, `RelativeRotation`, `Twist`
(geometry/leaf/*.hpp, all deriving from `VectorBase`). -/
inductive VK | scalar | trans | relrot | twist
  deriving DecidableEq, Repr

/-- Rotation leaf classes: `QuaternionRotation`, `MatrixRotation`, `AngleAxisRotation`. -/
inductive RotK | quat | mat | aa
  deriving DecidableEq, Repr

/-- Rigid transform leaf classes: `MatrixRigidTransform`, `CompactRigidTransform`. -/
inductive RigK | mat | compact
  deriving DecidableEq, Repr

/-- Leaf classes of the library (traits: `eval_t`). -/
inductive Ty
  | vec (k : VK) | point | rot (k : RotK) | rigid (k : RigK)
  deriving DecidableEq, Repr

/-- Index type of the coefficients of a vector leaf. -/
@[reducible] def VK.Idx : VK → Type
  | .scalar => Fin 1
  | .trans => Fin 3
  | .relrot => Fin 3
  | .twist => Fin 3 ⊕ Fin 3

/-- Index type of the tangent space (traits: `TangentType`, `TangentSize`): VectorBase.hpp:61-74,
RotationBase.hpp:79-80, RigidTransformBase.hpp:48-61, Point.hpp:44-47. -/
@[reducible] def Ty.Idx : Ty → Type
  | .vec k => k.Idx
  | .point => Fin 3
  | .rot _ => Fin 3
  | .rigid _ => Fin 3 ⊕ Fin 3

instance VK.instFintype : (k : VK) → Fintype k.Idx
  | .scalar => inferInstanceAs (Fintype (Fin 1))
  | .trans => inferInstanceAs (Fintype (Fin 3))
  | .relrot => inferInstanceAs (Fintype (Fin 3))
  | .twist => inferInstanceAs (Fintype (Fin 3 ⊕ Fin 3))
instance VK.instDecidableEq : (k : VK) → DecidableEq k.Idx
  | .scalar => inferInstanceAs (DecidableEq (Fin 1))
  | .trans => inferInstanceAs (DecidableEq (Fin 3))
  | .relrot => inferInstanceAs (DecidableEq (Fin 3))
  | .twist => inferInstanceAs (DecidableEq (Fin 3 ⊕ Fin 3))
instance Ty.instFintype : (τ : Ty) → Fintype τ.Idx
  | .vec k => inferInstanceAs (Fintype k.Idx)
  | .point => inferInstanceAs (Fintype (Fin 3))
  | .rot _ => inferInstanceAs (Fintype (Fin 3))
  | .rigid _ => inferInstanceAs (Fintype (Fin 3 ⊕ Fin 3))
instance Ty.instDecidableEq : (τ : Ty) → DecidableEq τ.Idx
  | .vec k => inferInstanceAs (DecidableEq k.Idx)
  | .point => inferInstanceAs (DecidableEq (Fin 3))
  | .rot _ => inferInstanceAs (DecidableEq (Fin 3))
  | .rigid _ => inferInstanceAs (DecidableEq (Fin 3 ⊕ Fin 3))

/-- `TangentSize`. -/
def Ty.dim : Ty → ℕ
  | .vec .scalar => 1
  | .vec .trans => 3
  | .vec .relrot => 3
  | .vec .twist => 6
  | .point => 3
  | .rot _ => 3
  | .rigid _ => 6

/-- Stored value of a rotation leaf. -/
@[reducible] def RotK.Val : RotK → Type
  | .quat => Quat
  | .mat => M3
  | .aa => AngleAxis

/-- Stored value of a rigid transform leaf. -/
@[reducible] def RigK.Val : RigK → Type
  | .mat => M4
  | .compact => QuatTrans

/-- Stored value of a leaf. -/
@[reducible] def Ty.Val : Ty → Type
  | .vec k => k.Idx → ℝ
  | .point => V3
  | .rot k => k.Val
  | .rigid k => k.Val

/-- `Mat3{x.value()}` / `x.value().toRotationMatrix()` / `x.value().matrix()`: the rotation matrix
of a stored rotation. -/
noncomputable def RotK.matrix : (k : RotK) → k.Val → M3
  | .quat, q => Quat.toMatrix q
  | .mat, m => m
  | .aa, a => AngleAxis.toMatrix a

/-- Rotation matrix of `rotationBlock()` of a rigid transform. -/
def RigK.rotMatrix : (k : RigK) → k.Val → M3
  | .mat, m => rotBlock m
  | .compact, x => x.q.toMatrix

/-- `translationBlock()` of a rigid transform. -/
def RigK.trans : (k : RigK) → k.Val → V3
  | .mat, m => transBlock m
  | .compact, x => x.t

/-- `rotationBlock()` class of a rigid transform class. -/
@[reducible] def RigK.rotK : RigK → RotK
  | .mat => .mat
  | .compact => .quat

/-- `rotationBlock()`. -/
def RigK.rot : (k : RigK) → k.Val → k.rotK.Val
  | .mat, m => rotBlock m
  | .compact, x => x.q

/-- Construct a rigid transform from a rotation of its own rotation class and a translation
(MatrixRigidTransform.hpp:46-52, CompactRigidTransform.hpp:41-46). -/
def RigK.mk : (k : RigK) → k.rotK.Val → V3 → k.Val
  | .mat, R, t => mk4 R t
  | .compact, q, t => ⟨q, t⟩

/-- Unary operators with a direct `evalImpl`. -/
inductive Un : Ty → Ty → Type
  /-- `-v` -/
  | minus (k : VK) : Un (.vec k) (.vec k)
  /-- `v.squaredNorm()` -/
  | sqNorm (k : VK) : Un (.vec k) (.vec .scalar)
  /-- `v.norm()` -/
  | norm (k : VK) : Un (.vec k) (.vec .scalar)
  /-- `v.normalized()` -/
  | normalize (k : VK) : Un (.vec k) (.vec k)
  /-- `acos(s)` -/
  | acos : Un (.vec .scalar) (.vec .scalar)
  /-- `inverse(R)` -/
  | invRot (k : RotK) : Un (.rot k) (.rot k)
  /-- `inverse(T)` -/
  | invRigid (k : RigK) : Un (.rigid k) (.rigid k)
  /-- `exp(φ)` -/
  | expRel : Un (.vec .relrot) (.rot .quat)
  /-- `exp(ξ)` -/
  | expTwist : Un (.vec .twist) (.rigid .mat)
  /-- `log(R)`, direct only for rotation matrices -/
  | logRot : Un (.rot .mat) (.vec .relrot)
  /-- `log(T)` -/
  | logRigid (k : RigK) : Un (.rigid k) (.vec .twist)
  /-- `T.rotation()` -/
  | getRot (k : RigK) : Un (.rigid k) (.rot k.rotK)
  /-- `T.translation()` -/
  | getTrans (k : RigK) : Un (.rigid k) (.vec .trans)
  /-- `R.translation()` of a rotation -/
  | zeroTrans (k : RotK) : Un (.rot k) (.vec .trans)
  /-- `Convert` between rotation classes -/
  | convRot (a b : RotK) : Un (.rot a) (.rot b)
  /-- `Convert` between rigid transform classes -/
  | convRigid (a b : RigK) : Un (.rigid a) (.rigid b)
  /-- `frame_cast` / `unframed_cast` (frame_cast.hpp:21-150) -/
  | recast (τ : Ty) : Un τ τ

/-- Binary operators with a direct `evalImpl`. -/
inductive Bin : Ty → Ty → Ty → Type
  /-- `a + b` on vectors -/
  | sum (k : VK) : Bin (.vec k) (.vec k) (.vec k)
  /-- `p + v` -/
  | sumPV : Bin .point (.vec .trans) .point
  /-- `v + p` -/
  | sumVP : Bin (.vec .trans) .point .point
  /-- `a - b` on vectors -/
  | sub (k : VK) : Bin (.vec k) (.vec k) (.vec k)
  /-- `p - q` -/
  | subPP : Bin .point .point (.vec .trans)
  /-- `p - v` -/
  | subPV : Bin .point (.vec .trans) .point
  /-- `s * v` -/
  | scale (k : VK) : Bin (.vec .scalar) (.vec k) (.vec k)
  /-- `v * s` -/
  | scaleR (k : VK) : Bin (.vec k) (.vec .scalar) (.vec k)
  /-- `v / s` -/
  | scaleDiv (k : VK) : Bin (.vec k) (.vec .scalar) (.vec k)
  /-- `dot(a, b)` -/
  | dot (k : VK) : Bin (.vec k) (.vec k) (.vec .scalar)
  /-- `s * t` -/
  | product : Bin (.vec .scalar) (.vec .scalar) (.vec .scalar)
  /-- `s / t` -/
  | divide : Bin (.vec .scalar) (.vec .scalar) (.vec .scalar)
  /-- `R1 * R2`, quaternions -/
  | composeQ : Bin (.rot .quat) (.rot .quat) (.rot .quat)
  /-- `R1 * R2`, matrices -/
  | composeM : Bin (.rot .mat) (.rot .mat) (.rot .mat)
  /-- `T1 * T2`, any two classes -/
  | composeRigid (a b : RigK) : Bin (.rigid a) (.rigid b) (.rigid b)
  /-- flipped composition (as used by box-plus), quaternions -/
  | flipQ : Bin (.rot .quat) (.rot .quat) (.rot .quat)
  /-- flipped composition, matrices -/
  | flipM : Bin (.rot .mat) (.rot .mat) (.rot .mat)
  /-- flipped composition, rigid transforms -/
  | flipRigid (a b : RigK) : Bin (.rigid a) (.rigid b) (.rigid a)
  /-- `R * v`, quaternion -/
  | rotateQ : Bin (.rot .quat) (.vec .trans) (.vec .trans)
  /-- `R * v`, matrix -/
  | rotateM : Bin (.rot .mat) (.vec .trans) (.vec .trans)
  /-- `T * v` -/
  | transform (k : RigK) : Bin (.rigid k) (.vec .trans) (.vec .trans)

/-- Conversions between rotation classes: QuaternionRotation.hpp:125-147,
AngleAxisRotation.hpp:83-128, MatrixRotation.hpp (M→M).  Angle-axis to quaternion goes through the
matrix (AngleAxisRotation.hpp:114-119). -/
noncomputable def convRot : (a b : RotK) → a.Val → Option b.Val
  | .quat, .quat, q => some q
  | .quat, .mat, q => some (Quat.toMatrix q)
  | .quat, .aa, q => some (AngleAxis.ofQuat q)
  | .mat, .quat, m => Quat.ofMatrix m
  | .mat, .mat, m => some m
  | .mat, .aa, m => AngleAxis.ofMatrix m
  | .aa, .quat, a => Quat.ofMatrix (AngleAxis.toMatrix a)
  | .aa, .mat, a => some (AngleAxis.toMatrix a)
  | .aa, .aa, a => some a

/-- Conversions between rigid transform classes: MatrixRigidTransform.hpp:135-139,
CompactRigidTransform.hpp:109-133. -/
noncomputable def convRigid : (a b : RigK) → a.Val → Option b.Val
  | .mat, .mat, m => some m
  | .mat, .compact, m => (Quat.ofMatrix (rotBlock m)).map fun q => ⟨q, transBlock m⟩
  | .compact, .mat, x => some (mk4 x.q.toMatrix x.t)
  | .compact, .compact, x => some x

/-- Inverse of a rotation: QuaternionRotation.hpp:64-68, MatrixRotation.hpp:58-61,
AngleAxisRotation.hpp:62-66. -/
def invRot : (k : RotK) → k.Val → k.Val
  | .quat, q => Quat.conj q
  | .mat, m => Matrix.transpose m
  | .aa, a => AngleAxis.inverse a

/-- Rotate, direct overloads: QuaternionRotation.hpp:101-107, MatrixRotation.hpp:111-114. -/
def rotateQ (q : Quat) (v : V3) : V3 := q.rotate v
/-- See `rotateQ`. -/
def rotateM (m : M3) (v : V3) : V3 := m *ᵥ v

/-- `lhs.rotation() * v` for the rotation of a rigid transform. -/
def RigK.rotate : (k : RigK) → k.Val → V3 → V3
  | .mat, m, v => rotateM (rotBlock m) v
  | .compact, x, v => rotateQ x.q v

/-- Inverse of a rigid transform: RigidTransformBase.hpp:78-83. -/
def invRigid : (k : RigK) → k.Val → k.Val
  | .mat, m => mk4 (invRot .mat (rotBlock m)) (-(rotateM (invRot .mat (rotBlock m)) (transBlock m)))
  | .compact, x => ⟨invRot .quat x.q, -(rotateQ (invRot .quat x.q) x.t)⟩

/-- Rotation part of Compose of rigid transforms, stored in the class of the right operand:
RigidTransformBase.hpp:113-114.  A mixed product converts the quaternion operand to a matrix
(conversion search, AddConversions.hpp) and the result back when assigned. -/
noncomputable def composeRigidRot : (a b : RigK) → a.Val → b.Val → Option b.rotK.Val
  | .mat, .mat, x, y => some (rotBlock x * rotBlock y)
  | .mat, .compact, x, y => Quat.ofMatrix (rotBlock x * y.q.toMatrix)
  | .compact, .mat, x, y => some (x.q.toMatrix * rotBlock y)
  | .compact, .compact, x, y => some (x.q.mul y.q)

/-- Compose of rigid transforms: RigidTransformBase.hpp:109-118. -/
noncomputable def composeRigid (a b : RigK) (x : a.Val) (y : b.Val) : Option b.Val :=
  (composeRigidRot a b x y).map fun R => b.mk R (a.rotate x (b.trans y) + a.trans x)

/-- Transform: TransformBase.hpp:233-238. -/
def transformEval (k : RigK) (x : k.Val) (v : V3) : V3 := k.rotate x v + k.trans x

/-- `evalImpl` of the unary operators. -/
noncomputable def evalUn (ε : ℝ) : {a b : Ty} → Un a b → a.Val → Option b.Val
  | _, _, .minus k, v => some (vMinus (n := k.Idx) v)
  | _, _, .sqNorm k, v => some (sc (vSqNorm (n := k.Idx) v))
  | _, _, .norm k, v => some (sc (vNorm (n := k.Idx) v))
  | _, _, .normalize k, v => some (vNormalize (n := k.Idx) v)
  | _, _, .acos, s => (sACos (s (0 : Fin 1))).map sc
  | _, _, .invRot k, x => some (invRot k x)
  | _, _, .invRigid k, x => some (invRigid k x)
  | _, _, .expRel, v => expRel ε v
  | _, _, .expTwist, v => expTwist ε v
  | _, _, .logRot, m => logMat ε m
  | _, _, .logRigid k, x => logRigid ε (k.rotMatrix x) (k.trans x)
  | _, _, .getRot k, x => some (k.rot x)
  | _, _, .getTrans k, x => some (k.trans x)
  -- RotationBase.hpp:47-50, MemberAccess.hpp:120-125
  | _, _, .zeroTrans _, _ => some (0 : V3)
  | _, _, .convRot a b, x => convRot a b x
  | _, _, .convRigid a b, x => convRigid a b x
  -- frame_cast.hpp:108-110 (`Tag = leaf`: identity)
  | _, _, .recast _, x => some x

/-- `evalImpl` of the binary operators. -/
noncomputable def evalBin : {a b c : Ty} → Bin a b c → a.Val → b.Val → Option c.Val
  | _, _, _, .sum k, a, b => some (vSum (n := k.Idx) a b)
  | _, _, _, .sumPV, p, v => some (vSum (n := Fin 3) p v)
  | _, _, _, .sumVP, v, p => some (vSum (n := Fin 3) v p)
  | _, _, _, .sub k, a, b => some (vSub (n := k.Idx) a b)
  | _, _, _, .subPP, p, q => some (vSub (n := Fin 3) p q)
  | _, _, _, .subPV, p, v => some (vSub (n := Fin 3) p v)
  | _, _, _, .scale k, s, v => some (vScale (n := k.Idx) (s (0 : Fin 1)) v)
  | _, _, _, .scaleR k, v, s => some (vScaleR (n := k.Idx) v (s (0 : Fin 1)))
  | _, _, _, .scaleDiv k, v, s => vScaleDiv (n := k.Idx) v (s (0 : Fin 1))
  | _, _, _, .dot k, a, b => some (sc (vDot (n := k.Idx) a b))
  | _, _, _, .product, a, b => some (sc (sProduct (a (0 : Fin 1)) (b (0 : Fin 1))))
  | _, _, _, .divide, a, b => (sDivide (a (0 : Fin 1)) (b (0 : Fin 1))).map sc
  | _, _, _, .composeQ, a, b => some (Quat.mul a b)
  | _, _, _, .composeM, (a : M3), (b : M3) => some (a * b : M3)
  | _, _, _, .composeRigid a b, x, y => composeRigid a b x y
  | _, _, _, .flipQ, a, b => some (Quat.mul b a)
  | _, _, _, .flipM, (a : M3), (b : M3) => some (b * a : M3)
  | _, _, _, .flipRigid a b, x, y => composeRigid b a y x
  | _, _, _, .rotateQ, q, v => some (rotateQ q v)
  | _, _, _, .rotateM, m, v => some (rotateM m v)
  | _, _, _, .transform k, x, v => some (transformEval k x v)

/-- `jacobianImpl` of the unary operators, from the value and the operand. -/
noncomputable def jacUn (ε : ℝ) :
    {a b : Ty} → Un a b → b.Val → a.Val → Option (Matrix b.Idx a.Idx ℝ)
  | _, _, .minus k, _, _ => some (minusJac (n := k.Idx))
  | _, _, .sqNorm k, _, v => some (sqNormJac (n := k.Idx) v)
  | _, _, .norm k, val, v => normJac (n := k.Idx) (val (0 : Fin 1)) v
  | _, _, .normalize k, val, v => normalizeJac (n := k.Idx) val v
  | _, _, .acos, _, s => acosJac (s (0 : Fin 1))
  -- QuaternionRotation.hpp:71-77, MatrixRotation.hpp:64-69, AngleAxisRotation.hpp:69-75
  | _, _, .invRot k, val, _ => some (-(k.matrix val))
  | _, _, .invRigid k, val, _ => some (invRigidJac (k.rotMatrix val) (k.trans val))
  | _, _, .expRel, val, v => expRelJac ε (Quat.toMatrix val) v
  | _, _, .expTwist, val, v => expTwistJac ε (rotBlock val) v
  | _, _, .logRot, val, _ => logRotJac val
  | _, _, .logRigid _, val, _ => logRigidJac val
  | _, _, .getRot _, _, _ => some getRotJac
  | _, _, .getTrans _, val, _ => some (getTransJac val)
  -- TransformBase.hpp:47-55 with a rotation: `colsWrt<1>()` of a matrix with one column block does not
  -- compile (BlockMatrix.hpp:73-77, RotationBase.hpp:87)
  | _, _, .zeroTrans _, _, _ => none
  -- Convert.hpp:29-33: identity
  | _, _, .convRot _ _, _, _ => some (1 : Matrix (Fin 3) (Fin 3) ℝ)
  | _, _, .convRigid _ _, _, _ => some (1 : M6)
  -- frame_cast.hpp:108-110 (`Tag = leaf`: identity jacobianImpl)
  | _, _, .recast _, _, _ => some 1

/-- `leftJacobianImpl` of the binary operators. -/
noncomputable def jacL :
    {a b c : Ty} → Bin a b c → c.Val → a.Val → b.Val → Option (Matrix c.Idx a.Idx ℝ)
  | _, _, _, .sum k, _, _, _ => some (sumJac (n := k.Idx))
  | _, _, _, .sumPV, _, _, _ => some (sumJac (n := Fin 3))
  | _, _, _, .sumVP, _, _, _ => some (sumJac (n := Fin 3))
  | _, _, _, .sub k, _, _, _ => some (subJacL (n := k.Idx))
  | _, _, _, .subPP, _, _, _ => some (subJacL (n := Fin 3))
  | _, _, _, .subPV, _, _, _ => some (subJacL (n := Fin 3))
  | _, _, _, .scale k, _, _, v => some (scaleJacL (n := k.Idx) v)
  | _, _, _, .scaleR k, _, _, s => some (scaleRJacL (n := k.Idx) (s (0 : Fin 1)))
  | _, _, _, .scaleDiv k, _, _, s => scaleDivJacL (n := k.Idx) (s (0 : Fin 1))
  | _, _, _, .dot k, _, _, b => some (dotJacL (n := k.Idx) b)
  | _, _, _, .product, _, _, b => some (productJacL (b (0 : Fin 1)))
  | _, _, _, .divide, _, _, b => divideJacL (b (0 : Fin 1))
  -- Compose.hpp:57-63: identity
  | _, _, _, .composeQ, _, _, _ => some (1 : M3)
  | _, _, _, .composeM, _, _, _ => some (1 : M3)
  | _, _, _, .composeRigid _ _, _, _, _ => some (1 : M6)
  -- Compose.hpp:84-91: the right Jacobian of Compose with operands swapped
  | _, _, _, .flipQ, _, _, b => some (Quat.toMatrix b)
  | _, _, _, .flipM, _, _, (b : M3) => some b
  | _, _, _, .flipRigid _ b, _, _, y => some (composeRigidJacR (b.rotMatrix y) (b.trans y))
  -- Rotate.hpp:35-42
  | _, _, _, .rotateQ, (val : V3), _, _ => some (crossMatrix (-val))
  | _, _, _, .rotateM, (val : V3), _, _ => some (crossMatrix (-val))
  | _, _, _, .transform _, val, _, _ => some (transformJacL val)

/-- `rightJacobianImpl` of the binary operators. -/
noncomputable def jacR :
    {a b c : Ty} → Bin a b c → c.Val → a.Val → b.Val → Option (Matrix c.Idx b.Idx ℝ)
  | _, _, _, .sum k, _, _, _ => some (sumJac (n := k.Idx))
  | _, _, _, .sumPV, _, _, _ => some (sumJac (n := Fin 3))
  | _, _, _, .sumVP, _, _, _ => some (sumJac (n := Fin 3))
  | _, _, _, .sub k, _, _, _ => some (subJacR (n := k.Idx))
  | _, _, _, .subPP, _, _, _ => some (subJacR (n := Fin 3))
  | _, _, _, .subPV, _, _, _ => some (subJacR (n := Fin 3))
  | _, _, _, .scale k, _, s, _ => some (scaleJacR (n := k.Idx) (s (0 : Fin 1)))
  | _, _, _, .scaleR k, _, v, _ => some (scaleRJacR (n := k.Idx) v)
  | _, _, _, .scaleDiv k, _, v, s => scaleDivJacR (n := k.Idx) v (s (0 : Fin 1))
  | _, _, _, .dot k, _, a, _ => some (dotJacR (n := k.Idx) a)
  | _, _, _, .product, _, a, _ => some (productJacR (a (0 : Fin 1)))
  | _, _, _, .divide, _, a, b => divideJacR (a (0 : Fin 1)) (b (0 : Fin 1))
  -- QuaternionRotation.hpp:92-98, MatrixRotation.hpp:102-108
  | _, _, _, .composeQ, _, a, _ => some (Quat.toMatrix a)
  | _, _, _, .composeM, _, (a : M3), _ => some a
  | _, _, _, .composeRigid a _, _, x, _ => some (composeRigidJacR (a.rotMatrix x) (a.trans x))
  -- Compose.hpp:75-82: the left Jacobian of Compose with operands swapped
  | _, _, _, .flipQ, _, _, _ => some (1 : M3)
  | _, _, _, .flipM, _, _, _ => some (1 : M3)
  | _, _, _, .flipRigid _ _, _, _, _ => some (1 : M6)
  -- QuaternionRotation.hpp:110-118, MatrixRotation.hpp:119-126
  | _, _, _, .rotateQ, _, q, _ => some (Quat.toMatrix q)
  | _, _, _, .rotateM, _, (m : M3), _ => some m
  -- TransformBase.hpp:255-261
  | _, _, _, .transform k, _, x, _ => some (k.rotMatrix x)

end WG
