import Verif.Spec.Meaning
import Mathlib.Analysis.Calculus.FDeriv.Basic

/-!
# Specification: differentials of families of stored objects

A family `c : E → Val` of stored objects, parametrised by a normed space `E`, moves at `x` with
velocity `A h` in the direction `h`: the coordinates of a vector change at rate `A h`; a rotation
turns with angular velocity `A h` (`dR(h) = [A h]× R`); a rigid motion turns with angular velocity
the first block of `A h` about the origin and moves with linear velocity the second block.
-/

namespace WG.Spec
open Matrix

variable {E : Type} [NormedAddCommGroup E] [NormedSpace ℝ E]

/-- `L` is the (Fréchet) differential at `x` of the real function `f`. -/
def Diff (f : E → ℝ) (x : E) (L : E → ℝ) : Prop :=
  ∃ L' : E →L[ℝ] ℝ, (∀ h, L' h = L h) ∧ HasFDerivAt f L' x

/-- Differential of a vector-valued function, coordinate by coordinate. -/
def DiffV {n : Type} (f : E → n → ℝ) (x : E) (L : E → n → ℝ) : Prop :=
  ∀ i, Diff (fun e => f e i) x fun h => L h i

/-- Differential of a matrix-valued function, entry by entry. -/
def DiffM {m n : Type} (f : E → Matrix m n ℝ) (x : E) (L : E → Matrix m n ℝ) : Prop :=
  ∀ i j, Diff (fun e => f e i j) x fun h => L h i j

/-- A family of stored rotations turns with angular velocity `A h` in the direction `h`.  For
angle-axis storage the axes are unit vectors near `x` (the representation has no meaning
otherwise). -/
def TurnsBy (k : RotK) (c : E → k.Val) (x : E) (A : E → V3) : Prop :=
  DiffM (fun e => rotDen k (c e)) x (fun h => hat (A h) * rotDen k (c x)) ∧
    (k = .aa → ∀ᶠ e in nhds x, ValidRot k (c e))

/-- A family of stored objects moves at `x` with velocity `A h` in the direction `h`. -/
def MovesBy : (τ : Ty) → (c : E → τ.Val) → (x : E) → (A : E → τ.Idx → ℝ) → Prop
  | .vec k, c, x, A => DiffV (n := k.Idx) c x A
  | .point, c, x, A => DiffV (n := Fin 3) c x A
  | .rot k, c, x, A => TurnsBy k c x A
  | .rigid k, c, x, (A : E → Fin 3 ⊕ Fin 3 → ℝ) =>
    DiffM (fun e => (rigidDen k (c e)).R) x
        (fun h => hat (fun i => A h (.inl i)) * (rigidDen k (c x)).R) ∧
      DiffV (fun e => (rigidDen k (c e)).t) x
        fun h => (fun i => A h (.inl i)) ⨯₃ (rigidDen k (c x)).t + fun i => A h (.inr i)

end WG.Spec
