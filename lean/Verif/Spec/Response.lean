import Verif.Spec.Regular
import Mathlib.Analysis.Calculus.FDeriv.Pi
import Mathlib.Topology.Algebra.Module.FiniteDimension
import Mathlib.LinearAlgebra.Matrix.ToLin

/-!
# Specification: the response of an expression to a perturbation of one object
-/

namespace WG.Spec
open Matrix Filter Topology

variable {ε : ℝ}

/-- A matrix as a continuous linear map. -/
noncomputable abbrev linMap {m n : Type} [Fintype n] [Fintype m] (J : Matrix m n ℝ) :
    (n → ℝ) →L[ℝ] (m → ℝ) := LinearMap.toContinuousLinearMap J.mulVecLin

/-- The difference (box-minus) between the values of an expression after and before the object `t`
is replaced by `t + d` (box-plus). -/
noncomputable def response (s : Store (geoLib ε)) (t : Target (geoLib ε)) {τ : Ty}
    (e : Expr (geoLib ε) τ) (d : t.ty.Idx → ℝ) : Option (τ.Idx → ℝ) :=
  (boxPlusVal ε t.ty (s t.addr t.ty) d).bind fun v =>
    (value (s.set t.addr t.ty v) e).bind fun y => (value s e).bind fun y₀ => boxMinusVal ε τ y y₀

/-- `J` is the derivative at zero of the response of `e` to perturbations of `t`, the response being
defined near zero. -/
def IsDerivative (s : Store (geoLib ε)) (t : Target (geoLib ε)) {τ : Ty} (e : Expr (geoLib ε) τ)
    (J : Matrix τ.Idx t.ty.Idx ℝ) : Prop :=
  ∃ F : (t.ty.Idx → ℝ) → τ.Idx → ℝ, (∀ᶠ d in 𝓝 0, response s t e d = some (F d)) ∧ F 0 = 0 ∧
    HasFDerivAt F (linMap J) 0

end WG.Spec
