import Verif.Spec.Expression
import Verif.Spec.Written

/-!
# Specification: the points at which an expression has no finite Jacobian

Stated on expressions as written and on the objects their parts stand for.
-/

namespace WG.Spec
open Matrix

/-- The derivative of the operation is not defined, or is computed as 0/0, at the operand (or, for
`translation()` of a rotation, cannot be compiled). -/
def SingularUn : UOp → Obj → Prop
  | .norm, .vec _ x => x = 0
  | .normalized, .vec _ x => x = 0
  | .acos, .vec .scalar x => x (0 : Fin 1) = 1 ∨ x (0 : Fin 1) = -1
  | .exp, .vec .twist ξ => angular ξ = 0
  | .log, .rot R => R = 1
  | .log, .motion T => T.R = 1
  | .translation, .rot _ => True
  | _, _ => False

/-- The same for an operation with two operands, for the derivatives with respect to either. -/
def SingularBin : BOp → Obj → Obj → Prop
  | .sub, .rot R, .rot S => R = S
  | .sub, .motion T, .motion S => T.R = S.R
  | _, _, _ => False

/-- The same, for the derivative with respect to the right operand only. -/
def SingularRight : BOp → Obj → Obj → Prop
  | .add, .motion _, .vec .twist ξ => angular ξ = 0
  | _, _, _ => False

/-- Some operation with the object `t` in an operand is at a singular point of that operand. -/
def SingularFor (ε : ℝ) (s : Memory) (t : Target (geoLib ε)) : SExpr → Prop
  | .leaf _ _ _ => False
  | .un op e => SingularFor ε s t e ∨ t ∈ written ε e ∧ ∃ o, Means ε s e o ∧ SingularUn op o
  | .bin op l r => SingularFor ε s t l ∨ SingularFor ε s t r ∨
      ∃ a b, Means ε s l a ∧ Means ε s r b ∧
        ((t ∈ written ε l ∨ t ∈ written ε r) ∧ SingularBin op a b ∨
          t ∈ written ε r ∧ SingularRight op a b)
  | .dynamic _ e => SingularFor ε s t e

end WG.Spec
