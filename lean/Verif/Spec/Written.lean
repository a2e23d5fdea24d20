import Verif.Model.Syntax
import Verif.Model.Geo

/-!
# Specification: what the user wrote
-/

namespace WG.Spec

/-- The objects written in a user expression, in reading order. -/
def written (ε : ℝ) : SExpr → List (Target (geoLib ε))
  | .leaf a c τ => [⟨a, c, τ⟩]
  | .un _ e => written ε e
  | .bin _ l r => written ε l ++ written ε r
  | .dynamic _ e => written ε e

/-- No dynamic (proxy) handle in the expression. -/
def NoDynamic : SExpr → Prop
  | .leaf _ _ _ => True
  | .un _ e => NoDynamic e
  | .bin _ l r => NoDynamic l ∧ NoDynamic r
  | .dynamic _ _ => False

/-- Addresses of the dynamic nodes of the expression. -/
def dynamicNodes : SExpr → List ℕ
  | .leaf _ _ _ => []
  | .un _ e => dynamicNodes e
  | .bin _ l r => dynamicNodes l ++ dynamicNodes r
  | .dynamic a e => a :: dynamicNodes e

end WG.Spec
