import Verif.Model.Num

/-!
# Specification: rotations, rigid motions

Independent of the model's helper functions: only Mathlib notions are used.
-/

namespace WG.Spec
open Matrix

/-- A proper rotation of three-dimensional space. -/
def IsRotation (R : M3) : Prop := R * Rᵀ = 1 ∧ R.det = 1

/-- The cross product as a matrix: `hat v *ᵥ w = v ⨯₃ w`. -/
def hat (v : V3) : M3 := Matrix.of fun i j => (v ⨯₃ (Pi.single j 1)) i

/-- Euclidean squared length. -/
def sqLen (v : V3) : ℝ := v ⬝ᵥ v

/-- The rigid motion `x ↦ R x + t`. -/
structure Rigid where
  R : M3
  t : V3

/-- The constant last row of a homogeneous matrix. -/
def BottomRow (m : M4) : Prop := m 3 0 = 0 ∧ m 3 1 = 0 ∧ m 3 2 = 0 ∧ m 3 3 = 1

/-- Action of a rigid motion on a point. -/
def Rigid.act (T : Rigid) (x : V3) : V3 := T.R *ᵥ x + T.t

end WG.Spec
