import Verif.Spec.Expression

/-!
# Specification: effect of a write on memory
-/

namespace WG.Spec
open Matrix

/-- Nothing but the object of class `τ` at address `a` differs between the two memories. -/
def OnlyChanges (a : ℕ) (τ : Ty) (s s' : Memory) : Prop :=
  ∀ b σ, ¬ (b = a ∧ τ = σ) → s' b σ = s b σ

end WG.Spec
