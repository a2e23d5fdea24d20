import Verif.Model.FactorVariable
import Verif.Spec.Response

/-!
# Specification: steps taken through the array of a variable
-/

namespace WG.Spec

variable {ε : ℝ}

/-- `s'` is `s` except that the array of the variable `(a, τ)`, of `n` elements, now contains `d`. -/
def Overwritten (s s' : Store (geoLib ε)) (a : ℕ) (τ : Ty) {n : ℕ} (d : Fin n → ℝ) : Prop :=
  (∀ i : Fin n, dataRead s' a τ i = some (d i)) ∧
    ∀ b σ, ¬(b = a ∧ σ = τ) → s' b σ = s b σ

/-- The array of the variable `(a, τ)` contains `d`. -/
def Contains (s : Store (geoLib ε)) (a : ℕ) (τ : Ty) {n : ℕ} (d : Fin n → ℝ) : Prop :=
  ∀ i : Fin n, dataRead s a τ i = some (d i)

end WG.Spec
