import Verif.Model.Rounding
import Verif.Spec.Meaning
import Verif.Spec.Fuzzy

/-!
# Specification: sizes of errors

How far a computed value may be from the exact one.  The bound of an expression is the product of one
factor per operation; the size is the sum of the lengths of the vectors it is made of.
-/

namespace WG.Spec
open Matrix

/-- Frobenius norm. -/
noncomputable def frob (A : M3) : ℝ := len fun p : Fin 3 × Fin 3 => A p.1 p.2

/-- The four coefficients of a quaternion. -/
def coeffs (q : Quat) : Fin 4 → ℝ := ![q.w, q.x, q.y, q.z]

/-- `z` is within `δ` of the stored value `x`: relative to the size `S` for vectors, absolutely for
rotations. -/
def Within : (τ : Ty) → (δ S : ℝ) → (x z : τ.Val) → Prop
  | .vec k, δ, S, x, z => len (n := k.Idx) (z - x) ≤ δ * S
  | .point, δ, S, x, z => len (n := Fin 3) (z - x) ≤ δ * S
  | .rot .quat, δ, _, x, z => len (coeffs z - coeffs x) ≤ δ
  | .rot .mat, δ, _, x, z => frob (z - x) ≤ δ
  | .rot .aa, _, _, x, z => z = x
  | .rigid .mat, δ, S, x, z =>
    frob (rotBlock z - rotBlock x) ≤ δ ∧ len (transBlock z - transBlock x) ≤ δ * S
  | .rigid .compact, δ, S, x, z => len (coeffs (QuatTrans.q z) - coeffs (QuatTrans.q x)) ≤ δ ∧
      len (QuatTrans.t z - QuatTrans.t x) ≤ δ * S

/-- Length of the vector in a stored value (of the translation part of a rigid transform). -/
noncomputable def size : (τ : Ty) → τ.Val → ℝ
  | .vec k, x => len (n := k.Idx) x
  | .point, x => len (n := Fin 3) x
  | .rot _, _ => 0
  | .rigid .mat, x => len (transBlock x)
  | .rigid .compact, x => len (QuatTrans.t x)

/-- Size of the result of a unary operation. -/
def ampUn : {a b : Ty} → Un a b → ℝ → ℝ
  | _, _, .sqNorm _, S => S * S
  | _, _, _, S => S

/-- Size of the result of a binary operation. -/
def ampBin : {a b c : Ty} → Bin a b c → ℝ → ℝ → ℝ
  | _, _, _, .scale _, S, T => S * T
  | _, _, _, .scaleR _, S, T => S * T
  | _, _, _, .dot _, S, T => S * T
  | _, _, _, .product, S, T => S * T
  | _, _, _, .rotateQ, _, T => T
  | _, _, _, .rotateM, _, T => T
  | _, _, _, _, S, T => S + T

/-- Size of an expression: the lengths of its vectors, added up over sums and multiplied over
products; rotating a vector does not change its size. -/
noncomputable def amp {ε : ℝ} (s : Store (geoLib ε)) : {τ : Ty} → Expr (geoLib ε) τ → ℝ
  | _, .leaf a _ τ => size τ (s a τ)
  | _, .un _ (op : Un _ _) e => ampUn op (amp s e)
  | _, .bin _ (op : Bin _ _ _) l r => ampBin op (amp s l) (amp s r)
  | _, .proxy _ e => amp s e

/-- `(1 + u) ^ n - 1`: relative error of a sum of `n` products. -/
def growth (u : ℝ) (n : ℕ) : ℝ := (1 + u) ^ n - 1

/-- Factor for rotating a vector. -/
def rotateFactor (u : ℝ) : RotK → ℝ → ℝ → ℝ
  | .quat, A, B => A ^ 6 * B * (1 + 7 * growth u 7)
  | .mat, A, B => A * B * (1 + 2 * growth u 3)
  | .aa, A, B => A * B

/-- Factor for composing rotations. -/
def composeFactor (u : ℝ) : RotK → ℝ → ℝ → ℝ
  | .quat, A, B => A * B * (1 + 2 * growth u 4)
  | .mat, A, B => A * B * (1 + 3 * growth u 3)
  | .aa, A, B => A * B

/-- Factor for converting a quaternion to a matrix. -/
def convFactor (u A : ℝ) : ℝ := A ^ 2 * (5 + 6 * growth u 4) - 4

/-- Factor for composing rigid transforms: the rotation part, or the translation part. -/
noncomputable def rigidFactor (u : ℝ) (k : RigK) (A B : ℝ) : ℝ :=
  max (composeFactor u k.rotK A B) (rotateFactor u k.rotK A B * (1 + u))

/-- Factor for composing a compact and a matrix transform. -/
noncomputable def mixedFactor (u A B : ℝ) : ℝ :=
  max (composeFactor u .mat (convFactor u A) B) (rotateFactor u .quat A B * (1 + u))

/-- Factor of a unary operation. -/
noncomputable def facUn (u : ℝ) : {a b : Ty} → Un a b → ℝ → ℝ
  | _, _, .sqNorm k, A => A * A * (1 + u) ^ Fintype.card k.Idx
  | _, _, .norm k, A => A * (1 + u) ^ (Fintype.card k.Idx + 1)
  | _, _, .invRigid k, A => rotateFactor u k.rotK A A
  | _, _, .convRot .quat .mat, A => convFactor u A
  | _, _, .convRigid .compact .mat, A => convFactor u A
  | _, _, _, A => A

/-- Factor of a binary operation. -/
noncomputable def facBin (u : ℝ) : {a b c : Ty} → Bin a b c → ℝ → ℝ → ℝ
  | _, _, _, .scale _, A, B => A * B * (1 + u)
  | _, _, _, .scaleR _, A, B => A * B * (1 + u)
  | _, _, _, .product, A, B => A * B * (1 + u)
  | _, _, _, .dot k, A, B => A * B * (1 + u) ^ Fintype.card k.Idx
  | _, _, _, .composeQ, A, B => composeFactor u .quat A B
  | _, _, _, .composeM, A, B => composeFactor u .mat A B
  | _, _, _, .flipQ, A, B => composeFactor u .quat A B
  | _, _, _, .flipM, A, B => composeFactor u .mat A B
  | _, _, _, .composeRigid .compact .mat, A, B => mixedFactor u A B
  | _, _, _, .composeRigid _ b, A, B => rigidFactor u b A B
  | _, _, _, .flipRigid .mat .compact, A, B => mixedFactor u B A
  | _, _, _, .flipRigid a _, A, B => rigidFactor u a B A
  | _, _, _, .rotateQ, A, B => rotateFactor u .quat A B
  | _, _, _, .rotateM, A, B => rotateFactor u .mat A B
  | _, _, _, .transform k, A, B => rotateFactor u k.rotK A B * (1 + u)
  | _, _, _, _, A, B => max A B * (1 + u)

/-- Error factor of an expression whose leaves are stored with relative error at most `η`. -/
noncomputable def factor (u η : ℝ) {ε : ℝ} : {τ : Ty} → Expr (geoLib ε) τ → ℝ
  | _, .leaf _ _ _ => 1 + η
  | _, .un _ (op : Un _ _) e => facUn u op (factor u η e)
  | _, .bin _ (op : Bin _ _ _) l r => facBin u op (factor u η l) (factor u η r)
  | _, .proxy _ e => factor u η e

/-- Unary operations without divisions or transcendental functions. -/
def CovUn : {a b : Ty} → Un a b → Prop
  | _, _, .normalize _ => False
  | _, _, .acos => False
  | _, _, .expRel => False
  | _, _, .expTwist => False
  | _, _, .logRot => False
  | _, _, .logRigid _ => False
  | _, _, .convRot a b => a ≠ .aa ∧ b ≠ .aa ∧ ¬(a = .mat ∧ b = .quat)
  | _, _, .convRigid a b => ¬(a = .mat ∧ b = .compact)
  | _, _, _ => True

/-- Binary operations without divisions and without conversions to quaternions. -/
def CovBin : {a b c : Ty} → Bin a b c → Prop
  | _, _, _, .scaleDiv _ => False
  | _, _, _, .divide => False
  | _, _, _, .composeRigid a b => ¬(a = .mat ∧ b = .compact)
  | _, _, _, .flipRigid a b => ¬(a = .compact ∧ b = .mat)
  | _, _, _, _ => True

/-- Expressions built from such operations. -/
def Covered {ε : ℝ} : {τ : Ty} → Expr (geoLib ε) τ → Prop
  | _, .leaf _ _ _ => True
  | _, .un _ (op : Un _ _) e => CovUn op ∧ Covered e
  | _, .bin _ (op : Bin _ _ _) l r => CovBin op ∧ Covered l ∧ Covered r
  | _, .proxy _ e => Covered e

/-- Operations that only move coefficients or change their signs. -/
def MovesUn : {a b : Ty} → Un a b → Prop
  | _, _, .minus _ => True
  | _, _, .invRot _ => True
  | _, _, .getRot _ => True
  | _, _, .getTrans _ => True
  | _, _, .zeroTrans _ => True
  | _, _, .recast _ => True
  | _, _, _ => False

/-- Expressions built from such operations. -/
def Moves {ε : ℝ} : {τ : Ty} → Expr (geoLib ε) τ → Prop
  | _, .leaf _ _ _ => True
  | _, .un _ (op : Un _ _) e => MovesUn op ∧ Moves e
  | _, .bin _ _ _ _ => False
  | _, .proxy _ e => Moves e

end WG.Spec
