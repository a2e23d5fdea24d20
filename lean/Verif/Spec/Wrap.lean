import Verif.Model.Syntax

/-!
# Specification: kinds of expressions, and which can be wrapped in a dynamic node
-/

namespace WG

/-- Kinds of objects. -/
inductive Kind | vec (k : VK) | point | rot | motion
  deriving DecidableEq

/-- The kind of object stored in a class. -/
def Kind.ofTy : Ty → Kind
  | .vec k => .vec k
  | .point => .point
  | .rot _ => .rot
  | .rigid _ => .motion

namespace Spec

/-- Kind of a unary operation's result; `none` where the operation does not exist. -/
def kindUn : UOp → Kind → Option Kind
  | .neg, .vec k => some (.vec k)
  | .squaredNorm, .vec k => if k = .scalar then none else some (.vec .scalar)
  | .norm, .vec k => if k = .scalar then none else some (.vec .scalar)
  | .normalized, .vec k => if k = .scalar then none else some (.vec k)
  | .acos, .vec .scalar => some (.vec .scalar)
  | .inverse, .rot => some .rot
  | .inverse, .motion => some .motion
  | .exp, .vec .relrot => some .rot
  | .exp, .vec .twist => some .motion
  | .log, .rot => some (.vec .relrot)
  | .log, .motion => some (.vec .twist)
  | .rotation, .rot => some .rot
  | .rotation, .motion => some .rot
  | .translation, .rot => some (.vec .trans)
  | .translation, .motion => some (.vec .trans)
  | .to τ, κ => if κ = .ofTy τ then some κ else none
  | _, _ => none

/-- Kind of a binary operation's result; `none` where the operation does not exist. -/
def kindBin : BOp → Kind → Kind → Option Kind
  | .add, .vec k, .vec l => if k = l then some (.vec k) else none
  | .add, .point, .vec .trans => some .point
  | .add, .vec .trans, .point => some .point
  | .add, .rot, .vec .relrot => some .rot
  | .add, .motion, .vec .twist => some .motion
  | .sub, .vec k, .vec l => if k = l then some (.vec k) else none
  | .sub, .point, .point => some (.vec .trans)
  | .sub, .point, .vec .trans => some .point
  | .sub, .rot, .rot => some (.vec .relrot)
  | .sub, .motion, .motion => some (.vec .twist)
  | .mul, .vec .scalar, .vec k => some (.vec k)
  | .mul, .vec k, .vec .scalar => some (.vec k)
  | .mul, .rot, .rot => some .rot
  | .mul, .motion, .motion => some .motion
  | .mul, .rot, .vec .trans => some (.vec .trans)
  | .mul, .motion, .vec .trans => some (.vec .trans)
  | .div, .vec k, .vec .scalar => some (.vec k)
  | .dot, .vec k, .vec l => if k = l ∧ k ≠ .scalar then some (.vec .scalar) else none
  | _, _, _ => none

/-- Kind of an expression. -/
def kind : SExpr → Option Kind
  | .leaf _ _ τ => some (.ofTy τ)
  | .un op e => (kind e).bind (kindUn op)
  | .bin op l r => (kind l).bind fun x => (kind r).bind fun y => kindBin op x y
  | .dynamic _ e => kind e

/-- A vector or a point. -/
def Flat : Option Kind → Bool
  | some (.vec _) => true
  | some .point => true
  | _ => false

/-- The derivative with respect to some dynamic handle is the identity by construction: the handle
itself, evaluated into another class, a summand, the minuend of a difference of vectors or points, the
left factor of a composition of rotations or of rigid motions, and these repeated. -/
def exposed : SExpr → Bool
  | .leaf _ _ _ => false
  | .dynamic _ _ => true
  | .un (.to _) e => exposed e
  | .un .rotation e => kind e == some .rot && exposed e
  | .un _ _ => false
  | .bin .add l r => Flat (kind l) && (exposed l || exposed r)
  | .bin .sub l _ => Flat (kind l) && exposed l
  | .bin .mul l r => exposed l &&
      (kind l == some .rot && kind r == some .rot || kind l == some .motion && kind r == some .motion)
  | .bin _ _ _ => false

/-- No `translation()` of a rotation outside the dynamic handles. -/
def differentiable : SExpr → Bool
  | .leaf _ _ _ => true
  | .dynamic _ _ => true
  | .un .translation e => kind e != some .rot && differentiable e
  | .un _ e => differentiable e
  | .bin _ l r => differentiable l && differentiable r

/-- Can the expression be wrapped in a dynamic node? -/
def wrappable (e : SExpr) : Bool := !exposed e && differentiable e

/-- Every dynamic node in the expression is made from an expression that can be wrapped. -/
def handlesOk : SExpr → Bool
  | .leaf _ _ _ => true
  | .un _ e => handlesOk e
  | .bin _ l r => handlesOk l && handlesOk r
  | .dynamic _ e => handlesOk e && wrappable e

end Spec
end WG
