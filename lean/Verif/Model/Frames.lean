import Verif.Model.Surface

/-!
# Frame labels

Frame descriptors of the classes, the static checks of the operators and the labels of their
results, and user expressions whose leaves carry labels.
-/

namespace WG

/-- A frame descriptor type; `none` is `NoFrame` (frame_traits.hpp:12-24). -/
abbrev Frame := Option ℕ

/-- The descriptors of a type: two decorators (`LeftFrame`, `RightFrame`) or three (`LeftFrame`,
`MiddleFrame`, `RightFrame`): frame_traits.hpp:12-42. -/
inductive Labels
  | two (l r : Frame)
  | three (l m r : Frame)
  deriving DecidableEq

namespace Labels

/-- `LeftFrameOf`: frame_traits.hpp:208-210. -/
def left : Labels → Frame
  | .two l _ => l
  | .three l _ _ => l

/-- `MiddleFrameOf`: frame_traits.hpp:184-202, 212-215; the left frame if there are two. -/
def middle : Labels → Frame
  | .two l _ => l
  | .three _ m _ => m

/-- `RightFrameOf`: frame_traits.hpp:217-220. -/
def right : Labels → Frame
  | .two _ r => r
  | .three _ _ r => r

/-- Number identifying a framed type among the types over one class (`std::is_same` on
`Framed<Leaf, Frames...>`). -/
def code : Labels → ℕ
  | .two l r => 2 * Nat.pair (fr l) (fr r)
  | .three l m r => 2 * Nat.pair (fr l) (Nat.pair (fr m) (fr r)) + 1
where
  /-- Number of a descriptor. -/
  fr : Frame → ℕ
    | none => 0
    | some n => n + 1

end Labels

/-- `has_three_decorators` of the leaf classes: vectors and scalars `frameable_vector_traits`
(VectorBase.hpp:80-82, Scalar.hpp:85-86), points, rotations and rigid transforms
`frameable_transform_traits` (VectorBase.hpp:86-88, RotationBase.hpp:73-74,
RigidTransformBase.hpp:41-42, CompactRigidTransform.hpp:94-97). -/
def Ty.three : Ty → Bool
  | .vec _ => true
  | _ => false

/-- The labels of the bare class: all `NoFrame` (frame_traits.hpp:12-24). -/
def bare (τ : Ty) : Labels := if τ.three then .three none none none else .two none none

/-- `Framed<Leaf, Frames...>` has traits (Framed.hpp:185-203); the number of frames must be that of
the class for the expression to be usable. -/
def Labels.fits (τ : Ty) : Labels → Bool
  | .two _ _ => !τ.three
  | .three _ _ _ => τ.three

/-- `WrapWithFrames<FL, FR>`: frame_traits.hpp:125-132, 157-159.  Only used by operators giving
rotations and rigid transforms. -/
def wrap2 (τ : Ty) (l r : Frame) : Option Labels := if τ.three then none else some (.two l r)

/-- `WrapWithFrames<FL, FM, FR>`: frame_traits.hpp:134-155, 161-163.  `none`: no matching overload. -/
def wrap3 (τ : Ty) (l m r : Frame) : Option Labels :=
  if τ.three then some (.three l m r) else if l = m then some (.two l r) else none

/-- Labels of `Sum<L, R>`: Sum.hpp:28-32, 70-97. -/
def sumLabels (τ : Ty) (f g : Labels) : Option Labels :=
  if f.left = g.left ∧ (f.middle = g.right ∨ f.right = g.middle) then
    if f.right = g.middle then wrap3 τ f.left f.middle g.right
    else wrap3 τ g.left g.middle f.right
  else none

/-- Labels of `Subtract<L, R>`: Subtract.hpp:30-34, 74-103. -/
def subLabels (τ : Ty) (f g : Labels) : Option Labels :=
  if f.left = g.left ∧ (f.right = g.right ∨ f.middle = g.middle) then
    if f.right = g.right then wrap3 τ f.left f.middle g.middle
    else wrap3 τ f.left g.right f.right
  else none

/-- Labels of `Minus<R>`: Minus.hpp:24-30 (traits exist for three decorators only). -/
def minusLabels (τ : Ty) : Labels → Option Labels
  | .three l m r => wrap3 τ l r m
  | .two _ _ => none

/-- Labels of `Compose<L, R>`: Compose.hpp:22-23, 46-49. -/
def composeLabels (τ : Ty) (f g : Labels) : Option Labels :=
  if f.right = g.left then wrap2 τ f.left g.right else none

/-- Labels of `Rotate<L, R>`: Rotate.hpp:22-32. -/
def rotateLabels (τ : Ty) (f g : Labels) : Option Labels :=
  if f.right = g.left then wrap3 τ f.left g.middle g.right else none

/-- Labels of `Transform<L, R>`: Transform.hpp:22-33. -/
def transformLabels (τ : Ty) (f g : Labels) : Option Labels :=
  if f.right = g.left then wrap3 τ f.left f.left g.right else none

/-- Labels of `Inverse<R>`: Inverse.hpp:24-27. -/
def inverseLabels (τ : Ty) (f : Labels) : Option Labels := wrap2 τ f.right f.left

/-- Labels of `ExpMap<R>`: ExpMap.hpp:28-31. -/
def expLabels (τ : Ty) (f : Labels) : Option Labels := wrap2 τ f.left f.left

/-- Labels of `LogMap<ExtraFrame, R>`: LogMap.hpp:28-32. -/
def logLabels (τ : Ty) (x : Frame) (f : Labels) : Option Labels := wrap3 τ f.left f.left x

/-- Labels of `BoxPlus<L, R>`: BoxPlus.hpp:37-39 and traits (those of
`ComposeFlipped<L, ExpMap<R>>`, Compose.hpp:40-41, 51-54). -/
def boxPlusLabels (τ : Ty) (f g : Labels) : Option Labels :=
  if f.left = g.left ∧ f.left = g.middle ∧ f.right = g.right then
    (expLabels τ g).bind fun h => if h.right = f.left then wrap2 τ h.left f.right else none
  else none

/-- Labels of `BoxMinus<L, R>`: BoxMinus.hpp:30-31 and traits (those of
`LogMap<RightFrameOf<R>, Compose<L, Inverse<R>>>`); `ρ` is the class of the composition. -/
def boxMinusLabels (τ ρ : Ty) (f g : Labels) : Option Labels :=
  if f.left = g.left ∧ f.right = g.right then
    ((inverseLabels ρ g).bind (composeLabels ρ f)).bind (logLabels τ g.right)
  else none

/-- Labels of a unary operation with operand labels `f` and result class `τ`.  `x.norm()`,
`x.squaredNorm()`, `x.normalized()` and `acos` have the default `IdentityFunctor` (macros.hpp:131-163,
traits_bases.hpp:141): bare.  `rotation()` / `translation()`: TransformBase.hpp:17, 39-40.
`log(x)` passes the right frame as extra frame (TransformBase.hpp:155-163). -/
def labelUn (op : UOp) (f : Labels) (τ : Ty) : Option Labels :=
  match op with
  | .neg => minusLabels τ f
  | .squaredNorm | .norm | .normalized | .acos => some (bare τ)
  | .inverse => inverseLabels τ f
  | .exp => expLabels τ f
  | .log => logLabels τ f.right f
  | .rotation => wrap2 τ f.left f.right
  | .translation => wrap3 τ f.left f.left f.right
  | .to _ => none  -- see `FExpr.store`

/-- Labels of a binary operation with operands of classes `α`, `β` labelled `f`, `g` and result
class `τ` (the template chosen is the one of `elabBin`).  Scale: labels of the right operand
(Scale.hpp:49-51); ScaleR, ScaleDiv, Product, Divide: of the left one (Scale.hpp:58-69,
Product.hpp:27-29, Divide.hpp:27-29); Dot: bare (CommonExpressions.hpp). -/
def labelBin (op : BOp) (α β : Ty) (f g : Labels) (τ : Ty) : Option Labels :=
  match op, α, β with
  | .add, .rot _, _ => boxPlusLabels τ f g
  | .add, .rigid _, _ => boxPlusLabels τ f g
  | .add, _, _ => sumLabels τ f g
  | .sub, .rot k, _ => boxMinusLabels τ (.rot k) f g
  | .sub, .rigid k, _ => boxMinusLabels τ (.rigid k) f g
  | .sub, _, _ => subLabels τ f g
  | .mul, .vec .scalar, .vec .scalar => wrap3 τ f.left f.middle f.right
  | .mul, .vec .scalar, .vec _ => wrap3 τ g.left g.middle g.right
  | .mul, .vec _, _ => wrap3 τ f.left f.middle f.right
  | .mul, .rot _, .rot _ => composeLabels τ f g
  | .mul, .rigid _, .rigid _ => composeLabels τ f g
  | .mul, .rot _, .vec _ => rotateLabels τ f g
  | .mul, .rigid _, .vec _ => transformLabels τ f g
  | .mul, _, _ => none
  | .div, _, _ => wrap3 τ f.left f.middle f.right
  | .dot, _, _ => some (bare τ)

/-- User expressions with frame labels.  `leaf a τ f` is an object of class `τ` framed by `f` (the
bare class if `f` is all `NoFrame`); `logFramed x e` is `logFramed<x>(e)` (TransformBase.hpp:166-180);
`store τ f e` is construction of, or assignment to, an object of class `τ` framed by `f` from `e`
(Framed.hpp:58-116, LeafStorage.hpp:42-55); `cast f e` is `frame_cast<f...>(e)` or
`unframed_cast(e)` (frame_cast.hpp:42-86, 133-143). -/
inductive FExpr
  | leaf (a : ℕ) (τ : Ty) (f : Labels)
  | un (op : UOp) (e : FExpr)
  | logFramed (x : Frame) (e : FExpr)
  | bin (op : BOp) (l r : FExpr)
  | store (τ : Ty) (f : Labels) (e : FExpr)
  | cast (f : Labels) (e : FExpr)
  | dynamic (a : ℕ) (e : FExpr)

instance : Add FExpr := ⟨.bin .add⟩
instance : Sub FExpr := ⟨.bin .sub⟩
instance : Mul FExpr := ⟨.bin .mul⟩
instance : Div FExpr := ⟨.bin .div⟩
instance : Neg FExpr := ⟨.un .neg⟩
instance : Inv FExpr := ⟨.un .inverse⟩

/-- The evaluable tree and the labels of the result; `none` is a compile error.  A framed leaf is
evaluated through `evalImpl(expr<Framed>)`, which returns the wrapped leaf (Framed.hpp:150-161); a
dynamic handle has the labels of the expression it was made from (Proxy.hpp). -/
noncomputable def FExpr.build (ε : ℝ) : FExpr → Option (Tree ε × Labels)
  | .leaf a τ f => if f.fits τ then some (⟨τ, Expr.leaf (L := geoLib ε) a f.code τ⟩, f) else none
  | .un op e => (e.build ε).bind fun x => (elabUn op x.1).bind fun y =>
      (labelUn op x.2 y.1).map fun f => (y, f)
  | .logFramed k e => (e.build ε).bind fun x => (elabUn .log x.1).bind fun y =>
      (logLabels y.1 k x.2).map fun f => (y, f)
  | .bin op l r => (l.build ε).bind fun x => (r.build ε).bind fun y => (elabBin op x.1 y.1).bind fun z =>
      (labelBin op x.1.1 y.1.1 x.2 y.2 z.1).map fun f => (z, f)
  | .store τ f e => (e.build ε).bind fun x =>
      if x.2 = f then (elabTo τ x.1).map fun y => (y, f) else none
  | .cast f e => (e.build ε).bind fun x =>
      if f.fits x.1.1 then some (⟨x.1.1, Expr.un (L := geoLib ε) 0 (.recast x.1.1) x.1.2⟩, f) else none
  | .dynamic a e => (e.build ε).bind fun x => (wrapDynamic a x.1).map fun y => (y, x.2)

end WG
