import Verif.Spec.Response

/-!
# Specification: expressions affine in one object
-/

namespace WG.Spec

/-- How a binary operation may depend on its operands for the result to stay affine: on both at once
(sums), on one of the two (products), only on the left, only on the right, on none. -/
inductive Dep
  | both | one | left | right | never

/-- Sums and differences are jointly affine, products are affine in each factor, quotients in the
numerator, the action of a rotation or rigid motion in the vector acted on. -/
def depBin : {a b c : Ty} → Bin a b c → Dep
  | _, _, _, .sum _ => .both
  | _, _, _, .sumPV => .both
  | _, _, _, .sumVP => .both
  | _, _, _, .sub _ => .both
  | _, _, _, .subPP => .both
  | _, _, _, .subPV => .both
  | _, _, _, .scale _ => .one
  | _, _, _, .scaleR _ => .one
  | _, _, _, .dot _ => .one
  | _, _, _, .product => .one
  | _, _, _, .scaleDiv _ => .left
  | _, _, _, .divide => .left
  | _, _, _, .rotateQ => .right
  | _, _, _, .rotateM => .right
  | _, _, _, .transform _ => .right
  | _, _, _, _ => .never

/-- Negation is linear and a frame cast is the identity. -/
def depUn : {a b : Ty} → Un a b → Bool
  | _, _, .minus _ => true
  | _, _, .recast _ => true
  | _, _, _ => false

/-- The expression is built from the object `t` by affine operations only. -/
def AffineIn {ε : ℝ} (t : Target (geoLib ε)) : {τ : Ty} → Expr (geoLib ε) τ → Prop
  | _, .leaf _ _ _ => True
  | _, .un _ (op : Un _ _) e => match depUn op with
    | true => AffineIn t e
    | false => t ∉ objects e
  | _, .bin _ (op : Bin _ _ _) l r => match depBin op with
    | .both => AffineIn t l ∧ AffineIn t r
    | .one => (AffineIn t l ∧ t ∉ objects r) ∨ (t ∉ objects l ∧ AffineIn t r)
    | .left => AffineIn t l ∧ t ∉ objects r
    | .right => t ∉ objects l ∧ AffineIn t r
    | .never => t ∉ objects l ∧ t ∉ objects r
  | _, .proxy _ e => AffineIn t e

/-- The classes whose values form a linear or affine space. -/
def IsFlat : Ty → Prop
  | .vec _ => True
  | .point => True
  | _ => False

/-- Every node and leaf with address `t` is of class `σ`. -/
def OneClass {L : Lib} (t : ℕ) (σ : L.Ty) : {τ : L.Ty} → Expr L τ → Prop
  | τ, .leaf a _ _ => a = t → τ = σ
  | τ, .un a _ e => (a = t → τ = σ) ∧ OneClass t σ e
  | τ, .bin a _ l r => (a = t → τ = σ) ∧ OneClass t σ l ∧ OneClass t σ r
  | τ, .proxy a e => (a = t → τ = σ) ∧ OneClass t σ e

end WG.Spec
