import Verif.Spec.Rounding
import Verif.Spec.Affine
import Verif.Model.NumericalRounding

/-!
# Specification: accuracy of difference quotients computed in floating point
-/

namespace WG.Spec

/-- The value of a vector, scalar or point after a step. -/
def stepped : (τ : Ty) → τ.Val → (τ.Idx → ℝ) → τ.Val
  | .vec _, x, d => x + d
  | .point, x, d => fun i : Fin 3 => x i + d i
  | .rot _, x, _ => x
  | .rigid _, x, _ => x

/-- Memory after a step of one object. -/
noncomputable def stepStore {ε : ℝ} (s : Store (geoLib ε)) (t : Target (geoLib ε)) (d : t.ty.Idx → ℝ) :
    Store (geoLib ε) :=
  s.set t.addr t.ty (stepped t.ty (s t.addr t.ty) d)

/-- Bound on the error of the two evaluations, each relative to the size of the expression at its
point. -/
noncomputable def valueErrors (u : ℝ) {ε : ℝ} (s : Store (geoLib ε)) (t : Target (geoLib ε))
    (d : t.ty.Idx → ℝ) {τ : Ty} (e : Expr (geoLib ε) τ) : ℝ :=
  (factor u u e - 1) * amp (stepStore s t d) e + (factor u 0 e - 1) * amp s e

/-- Bound on the error of a difference quotient of length `C` with step `δ`: the errors of the two
evaluations are divided by the step, and the subtraction and the division round once each. -/
noncomputable def quotientError (u δ E C : ℝ) : ℝ := (1 + u) ^ 2 * E / |δ| + ((1 + u) ^ 2 - 1) * C

end WG.Spec
