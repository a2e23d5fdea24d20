import Verif.Model.Expr
import Verif.Model.Ops
import Mathlib.Logic.Equiv.Fin.Basic

/-!
# The library's operator signature as a `Lib`
-/

namespace WG
open Matrix

/-- Position of a tangent coordinate.  A twist / rigid-transform tangent vector stores the rotation
block first (Twist.hpp:61-78, RigidTransformBase.hpp:86-105). -/
def Ty.enum : (τ : Ty) → τ.Idx ≃ Fin τ.dim
  | .vec .scalar => Equiv.refl _
  | .vec .trans => Equiv.refl _
  | .vec .relrot => Equiv.refl _
  | .vec .twist => finSumFinEquiv
  | .point => Equiv.refl _
  | .rot _ => Equiv.refl _
  | .rigid _ => finSumFinEquiv

/-- `value + tangent` for a leaf (NumericalJacobian.hpp:65-83), evaluated into the leaf's own class:
Sum for vectors and points, BoxPlus = ComposeFlipped(x, ExpMap d) with the conversions found by the
search for rotations (see Model/Surface.lean) and rigid transforms. -/
noncomputable def boxPlusVal (ε : ℝ) : (τ : Ty) → τ.Val → (τ.Idx → ℝ) → Option τ.Val
  | .vec k, v, d => evalBin (.sum k) v d
  | .point, p, d => evalBin .sumPV p d
  | .rot .quat, x, d => (evalUn ε .expRel d).bind fun q => evalBin .flipQ x q
  | .rot .mat, x, d => (evalUn ε .expRel d).bind fun q =>
      (evalUn ε (.convRot .quat .mat) q).bind fun m => evalBin .flipM x m
  | .rot .aa, x, d => (evalUn ε (.convRot .aa .quat) x).bind fun p =>
      (evalUn ε .expRel d).bind fun q => (evalBin .flipQ p q).bind fun r =>
        evalUn ε (.convRot .quat .aa) r
  | .rigid k, x, d => (evalUn ε .expTwist d).bind fun m => evalBin (.flipRigid k .mat) x m

/-- `x - y` for two values of one leaf class: Subtract, or BoxMinus = LogMap(Compose(x, Inverse y))
with the conversions found by the search. -/
noncomputable def boxMinusVal (ε : ℝ) : (τ : Ty) → τ.Val → τ.Val → Option (τ.Idx → ℝ)
  | .vec k, v, w => evalBin (.sub k) v w
  | .point, p, q => evalBin .subPP p q
  | .rot .quat, x, y => (evalUn ε (.invRot .quat) y).bind fun y' => (evalBin .composeQ x y').bind
      fun z => (evalUn ε (.convRot .quat .mat) z).bind fun m => evalUn ε .logRot m
  | .rot .mat, x, y => (evalUn ε (.invRot .mat) y).bind fun y' => (evalBin .composeM x y').bind
      fun z => evalUn ε .logRot z
  | .rot .aa, x, y => (evalUn ε (.convRot .aa .mat) x).bind fun x' =>
      (evalUn ε (.invRot .aa) y).bind fun y' => (evalUn ε (.convRot .aa .mat) y').bind fun y'' =>
        (evalBin .composeM x' y'').bind fun z => evalUn ε .logRot z
  | .rigid k, x, y => (evalUn ε (.invRigid k) y).bind fun y' =>
      (evalBin (.composeRigid k k) x y').bind fun z => evalUn ε (.logRigid k) z

/-- The C++ template of a unary operator (`get_expr_tag_t`); a conversion carries its destination. -/
def Un.tag : {a b : Ty} → Un a b → ℕ
  | _, _, .minus _ => 0
  | _, _, .sqNorm _ => 1
  | _, _, .norm _ => 2
  | _, _, .normalize _ => 3
  | _, _, .acos => 4
  | _, _, .invRot _ => 5
  | _, _, .invRigid _ => 5
  | _, _, .expRel => 6
  | _, _, .expTwist => 6
  | _, _, .logRot => 7
  | _, _, .logRigid _ => 7
  | _, _, .getRot _ => 8
  | _, _, .getTrans _ => 9
  | _, _, .zeroTrans _ => 9
  | _, _, .convRot _ _ => 10
  | _, _, .convRigid _ _ => 10
  | _, _, .recast _ => 11

/-- The C++ template of a binary operator. -/
def Bin.tag : {a b c : Ty} → Bin a b c → ℕ
  | _, _, _, .sum _ => 0
  | _, _, _, .sumPV => 0
  | _, _, _, .sumVP => 0
  | _, _, _, .sub _ => 1
  | _, _, _, .subPP => 1
  | _, _, _, .subPV => 1
  | _, _, _, .scale _ => 2
  | _, _, _, .scaleR _ => 3
  | _, _, _, .scaleDiv _ => 4
  | _, _, _, .dot _ => 5
  | _, _, _, .product => 6
  | _, _, _, .divide => 7
  | _, _, _, .composeQ => 8
  | _, _, _, .composeM => 8
  | _, _, _, .composeRigid _ _ => 8
  | _, _, _, .flipQ => 9
  | _, _, _, .flipM => 9
  | _, _, _, .flipRigid _ _ => 9
  | _, _, _, .rotateQ => 10
  | _, _, _, .rotateM => 10
  | _, _, _, .transform _ => 11

/-- The signature of wave_geometry.  `ε` is the machine epsilon used by the small-angle tests
(`Eigen::NumTraits<Scalar>::epsilon()`). -/
@[reducible] noncomputable def geoLib (ε : ℝ) : Lib where
  Ty := Ty
  Idx := Ty.Idx
  dim := Ty.dim
  enum := Ty.enum
  Val := Ty.Val
  Un := Un
  Bin := Bin
  unTag := Un.tag
  binTag := Bin.tag
  evalU := evalUn ε
  evalB := evalBin
  jacU := jacUn ε
  jacL := jacL
  jacR := jacR
  boxPlus := boxPlusVal ε
  boxMinus := boxMinusVal ε

end WG
