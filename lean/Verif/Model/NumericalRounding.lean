import Verif.Model.Rounding

/-!
# The numerical Jacobian in floating-point arithmetic

`evaluateNumericalJacobian` (core/functions/NumericalJacobian.hpp) with rounded operations.  Covered:
targets and values that are vectors, scalars or points (rotations and rigid transforms need the
exponential and logarithm, which `Model/Rounding.lean` does not cover: no outcome).  As for
evaluation, the outcome is a relation; the two evaluations need not add in the same order.
-/

namespace WG

/-- `value + makeTangent(delta_vec)`: NumericalJacobian.hpp:74-79. -/
def FlPlus (F : Fl) : (τ : Ty) → τ.Val → (τ.Idx → ℝ) → τ.Val → Prop
  | .vec k, x, d, z => FlAdd F (n := k.Idx) x d z
  | .point, x, d, z => FlAdd F (n := Fin 3) x d z
  | _, _, _, _ => False

/-- `forward_value - value`: NumericalJacobian.hpp:245. -/
def FlMinus (F : Fl) : (τ : Ty) → τ.Val → τ.Val → (τ.Idx → ℝ) → Prop
  | .vec k, x, y, d => FlAdd F (n := k.Idx) x (-y) d
  | .point, x, y, d => FlAdd F (n := Fin 3) x (-y) d
  | _, _, _, _ => False

/-- `evaluateWithDeltaImpl`: NumericalJacobian.hpp:65-83. -/
def FlBump (F : Fl) (t : ℕ) (σ : Ty) (d : σ.Idx → ℝ) (a : ℕ) (τ : Ty) (x z : τ.Val) : Prop :=
  if a = t then (if h : σ = τ then FlPlus F τ x (h ▸ d) z else False) else z = x

/-- `EvaluatorWithDelta`: NumericalJacobian.hpp:94-170. -/
def ComputesDelta (F : Fl) {ε : ℝ} (s : Store (geoLib ε)) (t : ℕ) (σ : Ty) (d : σ.Idx → ℝ) :
    {τ : Ty} → Expr (geoLib ε) τ → τ.Val → Prop
  | _, .leaf a _ τ, z => FlBump F t σ d a τ (s a τ) z
  | β, .un a (op : Un _ _) e, z =>
    ∃ x y, ComputesDelta F s t σ d e x ∧ FlUn F op x y ∧ FlBump F t σ d a β y z
  | γ, .bin a (op : Bin _ _ _) l r, z =>
    ∃ x y w, ComputesDelta F s t σ d l x ∧ ComputesDelta F s t σ d r y ∧ FlBin F op x y w ∧
      FlBump F t σ d a γ w z
  | τ, .proxy a e, z => ∃ x, ComputesDelta F s t σ d e x ∧ FlBump F t σ d a τ x z

/-- One column of `evaluateNumericalJacobianImpl`: NumericalJacobian.hpp:238-248. -/
def FlNumColumn (F : Fl) {ε : ℝ} (s : Store (geoLib ε)) (t : ℕ) (σ : Ty) (δ : ℝ) {τ : Ty}
    (e : Expr (geoLib ε) τ) (j : σ.Idx) (z : τ.Idx → ℝ) : Prop :=
  ∃ fwdVal val diff, ComputesDelta F s t σ (coordStep j δ) e fwdVal ∧ Computes F s e val ∧
    FlMinus F τ fwdVal val diff ∧ δ ≠ 0 ∧ ∀ i, z i = F.rnd (diff i / δ)

end WG
