import Verif.Spec.Occurrence
import Verif.Spec.Meaning
import Verif.Model.Geo

/-!
# Specification: regular points of an expression
-/

namespace WG.Spec
open Matrix

/-- The expression `e` is at a regular point in the memory `s`: the stored leaf values are valid and
every operator in it is applied to operands at which it is exact and defined. -/
def RegularAt (ε : ℝ) (s : Store (geoLib ε)) : {τ : Ty} → Expr (geoLib ε) τ → Prop
  | _, .leaf a _ τ => Valid τ (s a τ)
  | _, .un _ (op : Un _ _) e => RegularAt ε s e ∧
      ∀ x, value s e = some x → RegularUn ε op (den _ x)
  | _, .bin _ (op : Bin _ _ _) l r => RegularAt ε s l ∧ RegularAt ε s r ∧
      ∀ x y, value s l = some x → value s r = some y → RegularBin op (den _ x) (den _ y)
  | _, .proxy _ e => RegularAt ε s e

/-- Arguments, among the regular ones, at which a unary operator is differentiable in the ordinary
sense *and* away from the identity for the exponential and logarithm maps of rigid motions and the
logarithm of rotations.  (`translation()` of a rotation cannot be differentiated at all.) -/
def AwayFromSingular : {a b : Ty} → Un a b → Den a → Prop
  | _, _, .norm k, (x : k.Idx → ℝ) => x ≠ 0
  | _, _, .normalize k, (x : k.Idx → ℝ) => x ≠ 0
  | _, _, .acos, (x : Fin 1 → ℝ) => x 0 ≠ 1 ∧ x 0 ≠ -1
  | _, _, .expTwist, (x : Fin 3 ⊕ Fin 3 → ℝ) => (fun i => x (.inl i)) ≠ (0 : V3)
  | _, _, .logRot, (x : M3) => x ≠ 1
  | _, _, .logRigid _, (x : Rigid) => x.R ≠ 1
  | _, _, .zeroTrans _, _ => False
  | _, _, _, _ => True

/-- No node of the expression is at one of the listed singular arguments. -/
def NonsingularAt (ε : ℝ) (s : Store (geoLib ε)) : {τ : Ty} → Expr (geoLib ε) τ → Prop
  | _, .leaf _ _ _ => True
  | _, .un _ (op : Un _ _) e => NonsingularAt ε s e ∧
      ∀ x, value s e = some x → AwayFromSingular op (den _ x)
  | _, .bin _ _ l r => NonsingularAt ε s l ∧ NonsingularAt ε s r
  | _, .proxy _ e => NonsingularAt ε s e

end WG.Spec
