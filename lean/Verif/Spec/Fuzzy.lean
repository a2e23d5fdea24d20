import Mathlib.Analysis.Real.Sqrt
import Mathlib.Data.Matrix.Mul

/-!
# Specification: relative closeness of vectors
-/

namespace WG.Spec
open Matrix

/-- Euclidean length. -/
noncomputable def len {n : Type} [Fintype n] (x : n → ℝ) : ℝ := √(x ⬝ᵥ x)

/-- The difference is at most the fraction `prec` of the shorter of the two. -/
noncomputable def RelClose {n : Type} [Fintype n] (prec : ℝ) (x y : n → ℝ) : Prop :=
  len (x - y) ≤ prec * min (len x) (len y)

end WG.Spec
