import Verif.Spec.Meaning
import Verif.Model.Construct

/-!
# Specification: what Eigen arguments stand for, and which argument lists a leaf class documents

Only the arguments' own data are used here; overload resolution and the constructors' bodies are not.
-/

namespace WG.Spec
open Matrix

/-- The argument is a rotation `R`: a unit quaternion, an angle about a unit axis, or a proper
orthogonal 3x3 matrix. -/
def IsRot : EArg → M3 → Prop
  | .rot _ (.quat q), R => ValidRot .quat q ∧ rotDen .quat q = R
  | .rot _ (.aa a), R => ValidRot .aa a ∧ rotDen .aa a = R
  | .mat _ A, R => A.rows = 3 ∧ A.cols = 3 ∧ IsRotation R ∧ ∀ i j : Fin 3, A.coeff i j = R i j
  | .num _, _ => False

/-- The argument is the column of the `n` numbers `v`. -/
def IsCol {n : ℕ} : EArg → (Fin n → ℝ) → Prop
  | .mat _ A, v => A.rows = n ∧ A.cols = 1 ∧ ∀ i : Fin n, A.coeff i 0 = v i
  | _, _ => False

/-- The argument is the row of the `n` numbers `v`. -/
def IsRow {n : ℕ} : EArg → (Fin n → ℝ) → Prop
  | .mat _ A, v => A.rows = 1 ∧ A.cols = n ∧ ∀ i : Fin n, A.coeff 0 i = v i
  | _, _ => False

/-- The size of a matrix argument. -/
def SizeIs (m n : ℕ) : EArg → Prop
  | .mat _ A => A.rows = m ∧ A.cols = n
  | _ => False

/-- An Eigen rotation object. -/
def IsRotObj : EArg → Prop
  | .rot _ _ => True
  | _ => False

/-- A row or column of `n` numbers. -/
def VecArg (n : ℕ) (a : EArg) : Prop := SizeIs n 1 a ∨ SizeIs 1 n a

/-- An Eigen rotation object or a 3x3 matrix. -/
def RotArg (a : EArg) : Prop := IsRotObj a ∨ SizeIs 3 3 a

/-- A plain number. -/
def IsNum : EArg → Prop
  | .num _ => True
  | _ => False

/-- The argument is seen through a reference to its Eigen base class. -/
def ThroughBase : EArg → Prop
  | .rot s _ => s = .base
  | .mat s _ => s = .base
  | .num _ => False

/-- The argument lists a leaf class is documented to take. -/
def Documented : LCls → List EArg → Prop
  | .rot _, [a] => RotArg a
  | .relrot, [a] => VecArg 3 a
  | .trans, [a] => VecArg 3 a
  | .point, [a] => VecArg 3 a
  | .relrot, [a, b, c] => IsNum a ∧ IsNum b ∧ IsNum c
  | .trans, [a, b, c] => IsNum a ∧ IsNum b ∧ IsNum c
  | .point, [a, b, c] => IsNum a ∧ IsNum b ∧ IsNum c
  | .twist, [a] => VecArg 6 a
  | .twist, [a, b] => VecArg 3 a ∧ VecArg 3 b
  | .rigid .mat, [a] => SizeIs 4 4 a
  | .rigid _, [a, b] => RotArg a ∧ VecArg 3 b
  | _, _ => False

/-- The documented lists that are not served: a compact transform from a rotation object and a
vector that are both references to base classes. -/
def Circular : LCls → List EArg → Prop
  | .rigid .compact, [a, b] =>
    IsRotObj a ∧ ThroughBase a ∧ ThroughBase b ∧ VecArg 3 b
  | _, _ => False

/-- The documented lists whose construction writes outside the storage: a row vector where a column
is filled in with the comma initialiser. -/
def Overrun : LCls → List EArg → Prop
  | .twist, [a, b] => VecArg 3 a ∧ VecArg 3 b ∧ (SizeIs 1 3 a ∨ SizeIs 1 3 b)
  | .rigid .mat, [a, b] => RotArg a ∧ SizeIs 1 3 b
  | _, _ => False

end WG.Spec
