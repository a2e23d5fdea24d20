import Mathlib.Data.Matrix.Block
import Mathlib.Data.Real.Basic
import Mathlib.Logic.Equiv.Fin.Basic

/-! Specification for matrices filled block by block: a matrix with rows and columns numbered
`0, 1, ...`, cut after the third row and the third column. -/

namespace WG.Spec
open Matrix

/-- The position `i` of part `I` (0 or 1) of a list of two parts of three. -/
def inPart (I : Fin 2) (i : Fin 3) : Fin 6 := ⟨3 * I + i, by omega⟩

/-- A 6x6 matrix that consists of the four given 3x3 parts. -/
structure FourParts (M : Matrix (Fin 6) (Fin 6) ℝ) (A B C D : Matrix (Fin 3) (Fin 3) ℝ) : Prop where
  tl : ∀ i j, M (inPart 0 i) (inPart 0 j) = A i j
  tr : ∀ i j, M (inPart 0 i) (inPart 1 j) = B i j
  bl : ∀ i j, M (inPart 1 i) (inPart 0 j) = C i j
  br : ∀ i j, M (inPart 1 i) (inPart 1 j) = D i j

/-- A 3x6 matrix that consists of two 3x3 parts side by side. -/
structure TwoParts (M : Matrix (Fin 3) (Fin 6) ℝ) (A B : Matrix (Fin 3) (Fin 3) ℝ) : Prop where
  left : ∀ i j, M i (inPart 0 j) = A i j
  right : ∀ i j, M i (inPart 1 j) = B i j

/-- The flat matrix of a matrix whose rows and columns are numbered part by part. -/
def IsFlat6 (M : Matrix (Fin 6) (Fin 6) ℝ) (N : Matrix (Fin 3 ⊕ Fin 3) (Fin 3 ⊕ Fin 3) ℝ) : Prop :=
  ∀ i j, M (finSumFinEquiv i) (finSumFinEquiv j) = N i j

/-- See `IsFlat6`. -/
def IsFlat3 (M : Matrix (Fin 3) (Fin 6) ℝ) (N : Matrix (Fin 3) (Fin 3 ⊕ Fin 3) ℝ) : Prop :=
  ∀ i j, M i (finSumFinEquiv j) = N i j

/-- First position after the first `i` parts of the given sizes. -/
def startOf (sizes : List ℕ) (i : ℕ) : ℕ := (sizes.take i).sum

/-- Coefficient `(a, b)` of part `(I, J)` of a matrix cut by two lists of sizes is `x`. -/
def PartIs (ls rs : List ℕ) (f : ℕ → ℕ → Option ℝ) (I J a b : ℕ) (x : ℝ) : Prop :=
  f (startOf ls I + a) (startOf rs J + b) = some x

end WG.Spec
