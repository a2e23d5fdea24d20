import Verif.Model.Surface

/-!
# `Identity<Leaf>` and `Zero<Leaf>`, and overload resolution among the `evalImpl` functions

`Identity` and `Zero` (geometry/leaf/Identity.hpp, Zero.hpp) are leaf expressions with no data.  They
have `evalImpl` overloads of their own, which compete with the overloads for base classes; which of
them is chosen, or whether the call is ambiguous (and the search for conversions goes on), follows
from the C++ rules.  This file models the classes, the list of overloads, the choice among them, the
search, and the operators obtained, as a second signature `xLib` for the trees of Model/Expr.lean.

Not modelled: frames (Identity/Zero of a `Framed` leaf), `Zero<Twist>::rotation()/translation()`,
dynamic nodes wrapping an expression that evaluates to an Identity or Zero (rejected here), and the
numerical Jacobian with respect to an Identity or Zero.
-/

namespace WG
open Matrix

/-- Classes of evaluated operands: a leaf class, or `Identity`/`Zero` of one. -/
inductive XTy
  | plain (τ : Ty) | idRot (k : RotK) | idRigid (k : RigK) | zeroVec (k : VK) | zeroPoint
  deriving DecidableEq

/-- The wrapped leaf class (template argument of `Identity`/`Zero`). -/
@[reducible] def XTy.leaf : XTy → Ty
  | .plain τ => τ
  | .idRot k => .rot k
  | .idRigid k => .rigid k
  | .zeroVec k => .vec k
  | .zeroPoint => .point

/-- Stored data: none for `Identity` and `Zero`. -/
@[reducible] def XTy.Val : XTy → Type
  | .plain τ => τ.Val
  | _ => Unit

/-- The value an `Identity<τ>` or `Zero<τ>` is converted to: RotationBase.hpp:99-103
(`ImplType::Identity()`; Eigen's `AngleAxis::Identity()` is angle 0 about the x axis),
MatrixRigidTransform.hpp:120-128, Zero.hpp:32-34, 63-66. -/
def neutralVal : (τ : Ty) → τ.Val
  | .vec k => (0 : k.Idx → ℝ)
  | .point => (0 : V3)
  | .rot .quat => Quat.one
  | .rot .mat => (1 : M3)
  | .rot .aa => ⟨0, ![1, 0, 0]⟩
  | .rigid .mat => mk4 1 0
  | .rigid .compact => ⟨Quat.one, 0⟩

/-- `value()`: the stored value of a leaf, the neutral element for `Identity` (Identity.hpp:33-36)
and `Zero` (Zero.hpp:31-34). -/
def XTy.content : (a : XTy) → a.Val → a.leaf.Val
  | .plain _, v => v
  | .idRot k, _ => neutralVal (.rot k)
  | .idRigid k, _ => neutralVal (.rigid k)
  | .zeroVec k, _ => neutralVal (.vec k)
  | .zeroPoint, _ => neutralVal .point

/-- Unary operators: the body of the chosen overload. -/
inductive XUn : XTy → XTy → Type
  /-- an overload reading `rhs.value()` -/
  | value {a : XTy} {b : Ty} (op : Un a.leaf b) : XUn a (.plain b)
  /-- `Convert<Leaf, Identity<Leaf>>`, `Convert<Leaf, Zero<Leaf>>` -/
  | conv (a : XTy) : XUn a (.plain a.leaf)
  /-- `Inverse` of an Identity: Identity.hpp:67-70 -/
  | invId (a : XTy) : XUn a a
  /-- `Minus` of a Zero: Zero.hpp:83-86 -/
  | minusZero (a : XTy) : XUn a a
  /-- `ExpMap` of a zero relative rotation, Zero.hpp:88-91 with `ExpType` of RelativeRotation.hpp -/
  | expZeroRot : XUn (.zeroVec .relrot) (.idRot .mat)
  /-- `ExpMap` of a zero twist -/
  | expZeroTwist : XUn (.zeroVec .twist) (.idRigid .mat)
  /-- `LogMap` of an identity rotation: Identity.hpp:105-108 -/
  | logIdRot (k : RotK) : XUn (.idRot k) (.zeroVec .relrot)
  /-- `LogMap` of an identity rigid transform -/
  | logIdRigid (k : RigK) : XUn (.idRigid k) (.zeroVec .twist)

/-- Binary operators: the body of the chosen overload. -/
inductive XBin : XTy → XTy → XTy → Type
  /-- an overload reading `lhs.value()` and `rhs.value()` -/
  | value {a b : XTy} {c : Ty} (op : Bin a.leaf b.leaf c) : XBin a b (.plain c)
  /-- an overload returning an Eigen expression over the temporary returned by `Zero::value()`,
  which is gone when the expression is read: undefined behaviour -/
  | dangling {a b : XTy} {c : Ty} (op : Bin a.leaf b.leaf c) : XBin a b (.plain c)
  /-- an overload returning `lhs` -/
  | keepL (t : Tag2) (a b : XTy) : XBin a b a
  /-- an overload returning `rhs` -/
  | keepR (t : Tag2) (a b : XTy) : XBin a b b

variable (ε : ℝ)

/-- Values of the unary operators. -/
noncomputable def evalXUn : {a b : XTy} → XUn a b → a.Val → Option b.Val
  | a, _, .value op, x => evalUn ε op (a.content x)
  | _, _, .conv a, x => some (a.content x)
  | _, _, .invId _, x => some x
  | _, _, .minusZero _, x => some x
  | _, _, .expZeroRot, _ => some ()
  | _, _, .expZeroTwist, _ => some ()
  | _, _, .logIdRot _, _ => some ()
  | _, _, .logIdRigid _, _ => some ()

/-- Values of the binary operators; `none` for undefined behaviour. -/
noncomputable def evalXBin : {a b c : XTy} → XBin a b c → a.Val → b.Val → Option c.Val
  | a, b, _, .value op, x, y => evalBin op (a.content x) (b.content y)
  | _, _, _, .dangling _, _, _ => none
  | _, _, _, .keepL _ _ _, x, _ => some x
  | _, _, _, .keepR _ _ _, _, y => some y

/-- An identity block between two tangent spaces of equal dimension (`identity_t`). -/
def sameJac (a b : Ty) : Matrix a.Idx b.Idx ℝ := fun i j =>
  if (a.enum i).val = (b.enum j).val then 1 else 0

/-- `jacobianImpl`; `none` also where no overload compiles: `Inverse` of an Identity has none
(QuaternionRotation.hpp:71-77 etc. take leaf classes; RigidTransformBase.hpp uses
`rotationBlock()`, which Identity lacks), nor has `LogMap` (MatrixRotation.hpp and
RigidTransformBase.hpp take a `RelativeRotation`/`Twist` leaf as value). -/
noncomputable def jacXUn : {a b : XTy} → XUn a b → b.Val → a.Val →
    Option (Matrix b.leaf.Idx a.leaf.Idx ℝ)
  | a, _, .value op, y, x => jacUn ε op y (a.content x)
  -- Convert.hpp:29-33
  | _, _, .conv _, _, _ => some 1
  | _, _, .invId _, _, _ => none
  -- Minus.hpp:32-37
  | _, _, .minusZero _, _, _ => some (-1)
  -- Zero.hpp:93-97
  | _, _, .expZeroRot, _, _ => some (1 : M3)
  | _, _, .expZeroTwist, _, _ => some (1 : M6)
  | _, _, .logIdRot _, _, _ => none
  | _, _, .logIdRigid _, _, _ => none

/-- The rotation matrix of an operand that is a rotation or the identity rotation. -/
noncomputable def rotOf : (a : XTy) → a.Val → Option M3
  | .plain (.rot k), x => some (k.matrix x)
  | .idRot k, _ => some (k.matrix (neutralVal (.rot k)))
  | _, _ => none

/-- A 3x3 block as a Jacobian between classes with three tangent coordinates. -/
def block3 (a b : Ty) (M : M3) : Option (Matrix a.Idx b.Idx ℝ) :=
  match a, b with
  | .rot _, .rot _ => some M
  | .vec .trans, .rot _ => some M
  | _, _ => none

/-- `leftJacobianImpl` of the overloads returning one operand. -/
noncomputable def keepJacL (t : Tag2) (a b c : XTy) (val : c.Val) (y : b.Val) :
    Option (Matrix c.leaf.Idx a.leaf.Idx ℝ) :=
  match t with
  -- Sum.hpp:97-101, Compose.hpp:56-63: identity
  | .sum => some (sameJac _ _)
  | .compose => some (sameJac _ _)
  -- Compose.hpp:83-91: the right Jacobian of Compose with operands swapped (`rotationBlock()` of
  -- an Identity rigid transform does not exist; of a rotation it is the rotation itself,
  -- RotationBase.hpp:34-45)
  | .composeFlipped => (rotOf b y).bind (block3 _ _)
  -- Rotate.hpp:34-42: only if the value is a `Translation`
  | .rotate => match c, a, val with
    | .plain (.vec .trans), .idRot _, (v : V3) => some (crossMatrix (-v))
    | _, _, _ => none
  -- TransformBase.hpp:240-252
  | .transform => match c, a, val with
    | .plain (.vec .trans), .idRigid _, (v : V3) => some (transformJacL v)
    | .zeroVec .trans, .idRigid _, _ => some (transformJacL 0)
    | _, _, _ => none
  | _ => none

/-- `rightJacobianImpl` of the overloads returning one operand. -/
noncomputable def keepJacR (t : Tag2) (a b c : XTy) (x : a.Val) :
    Option (Matrix c.leaf.Idx b.leaf.Idx ℝ) :=
  match t with
  -- Sum.hpp:103-107
  | .sum => some (sameJac _ _)
  -- TransformBase.hpp:204-227 (of a rotation: the four corner blocks of the 3x3 matrix coincide, the
  -- last assignment wins), QuaternionRotation.hpp:91-98, MatrixRotation.hpp:99-108;
  -- `rotationBlock()` of an Identity rigid transform does not exist
  | .compose => (rotOf a x).bind (block3 _ _)
  -- Compose.hpp:74-81
  | .composeFlipped => some (sameJac _ _)
  -- Rotate: overloads exist for quaternions and matrices only (QuaternionRotation.hpp:110-118,
  -- MatrixRotation.hpp:116-126).  Transform: TransformBase.hpp:254-261 needs `rotationBlock()`.
  | _ => none

/-- `leftJacobianImpl`. -/
noncomputable def jacXL : {a b c : XTy} → XBin a b c → c.Val → a.Val → b.Val →
    Option (Matrix c.leaf.Idx a.leaf.Idx ℝ)
  | a, b, _, .value op, v, x, y => jacL op v (a.content x) (b.content y)
  | _, _, _, .dangling _, _, _, _ => none
  | _, _, _, .keepL t a b, v, _, y => keepJacL t a b a v y
  | _, _, _, .keepR t a b, v, _, y => keepJacL t a b b v y

/-- `rightJacobianImpl`. -/
noncomputable def jacXR : {a b c : XTy} → XBin a b c → c.Val → a.Val → b.Val →
    Option (Matrix c.leaf.Idx b.leaf.Idx ℝ)
  | a, b, _, .value op, v, x, y => jacR op v (a.content x) (b.content y)
  | _, _, _, .dangling _, _, _, _ => none
  | _, _, _, .keepL t a b, _, x, _ => keepJacR t a b a x
  | _, _, _, .keepR t a b, _, x, _ => keepJacR t a b b x

/-- The C++ template of a unary operator. -/
def XUn.tag : {a b : XTy} → XUn a b → ℕ
  | _, _, .value op => op.tag
  | _, _, .conv _ => 10
  | _, _, .invId _ => 5
  | _, _, .minusZero _ => 0
  | _, _, .expZeroRot => 6
  | _, _, .expZeroTwist => 6
  | _, _, .logIdRot _ => 7
  | _, _, .logIdRigid _ => 7

/-- Number of a binary template, as in `Bin.tag`. -/
def Tag2.num : Tag2 → ℕ
  | .sum => 0 | .subtract => 1 | .scale => 2 | .scaleR => 3 | .scaleDiv => 4 | .dot => 5
  | .product => 6 | .divide => 7 | .compose => 8 | .composeFlipped => 9 | .rotate => 10
  | .transform => 11

/-- The C++ template of a binary operator. -/
def XBin.tag : {a b c : XTy} → XBin a b c → ℕ
  | _, _, _, .value op => op.tag
  | _, _, _, .dangling op => op.tag
  | _, _, _, .keepL t _ _ => t.num
  | _, _, _, .keepR t _ _ => t.num

/-- The signature of the library with `Identity` and `Zero`. -/
@[reducible] noncomputable def xLib : Lib where
  Ty := XTy
  Idx a := a.leaf.Idx
  dim a := a.leaf.dim
  enum a := a.leaf.enum
  Val := XTy.Val
  Un := XUn
  Bin := XBin
  unTag := XUn.tag
  binTag := XBin.tag
  evalU := evalXUn ε
  evalB := evalXBin
  jacU := jacXUn ε
  jacL := jacXL
  jacR := jacXR
  boxPlus a := match a with
    | .plain τ => boxPlusVal ε τ
    | _ => fun _ _ => none
  boxMinus a := match a with
    | .plain τ => boxMinusVal ε τ
    | _ => fun _ _ => none

/-- Return type of `jacobianImpl`, as for `Un.jacKind`; Zero.hpp:93-97 returns `identity_t`. -/
def XUn.jacKind : {a b : XTy} → XUn a b → Option JacKind
  | _, _, .value op => op.jacKind
  | _, _, .conv _ => some .identity
  | _, _, .invId _ => none
  | _, _, .minusZero _ => some .fixed
  | _, _, .expZeroRot => some .identity
  | _, _, .expZeroTwist => some .identity
  | _, _, .logIdRot _ => none
  | _, _, .logIdRigid _ => none

/-- An operand that is a rotation or the identity rotation, with a Jacobian of three columns (see
`rotOf`, `block3`). -/
def rotKind (a b c : XTy) : Option JacKind :=
  match a, b.leaf, c.leaf with
  | .plain (.rot _), .rot _, .rot _ => some .fixed
  | .plain (.rot _), .vec .trans, .rot _ => some .fixed
  | .idRot _, .rot _, .rot _ => some .fixed
  | .idRot _, .vec .trans, .rot _ => some .fixed
  | _, _, _ => none

/-- Return type of the `leftJacobianImpl` chosen in `keepJacL`. -/
def keepKindL (t : Tag2) (a b c : XTy) : Option JacKind :=
  match t with
  | .sum => some .identity
  | .compose => some .identity
  | .composeFlipped => rotKind b c a
  | .rotate => match c, a with
    | .plain (.vec .trans), .idRot _ => some .fixed
    | _, _ => none
  | .transform => match c, a with
    | .plain (.vec .trans), .idRigid _ => some .fixed
    | .zeroVec .trans, .idRigid _ => some .fixed
    | _, _ => none
  | _ => none

/-- Return type of the `rightJacobianImpl` chosen in `keepJacR`. -/
def keepKindR (t : Tag2) (a b c : XTy) : Option JacKind :=
  match t with
  | .sum => some .identity
  | .compose => rotKind a c b
  | .composeFlipped => some .identity
  | _ => none

/-- Return type of `leftJacobianImpl`. -/
def XBin.jacKindL : {a b c : XTy} → XBin a b c → Option JacKind
  | _, _, _, .value op => some op.jacKindL
  | _, _, _, .dangling op => some op.jacKindL
  | _, _, _, .keepL t a b => keepKindL t a b a
  | _, _, _, .keepR t a b => keepKindL t a b b

/-- Return type of `rightJacobianImpl`. -/
def XBin.jacKindR : {a b c : XTy} → XBin a b c → Option JacKind
  | _, _, _, .value op => some op.jacKindR
  | _, _, _, .dangling op => some op.jacKindR
  | _, _, _, .keepL t a b => keepKindR t a b a
  | _, _, _, .keepR t a b => keepKindR t a b b

/-- The types of the local Jacobians. -/
@[reducible] def xKinds : JacKinds (xLib ε) where
  un op := XUn.jacKind op
  left op := XBin.jacKindL op
  right op := XBin.jacKindR op

/-! ## Overload resolution -/

/-- Parameter types of `evalImpl` overloads: base class templates and leaf class templates. -/
inductive Pat
  | transformB | rotationB | rigidB | affineB | vectorB | scalarB | translationB | relrotB | twistB
  | pointB
  | quatT | matT | aaT | rigidMatT | compactT | scalarT | translationT | relrotT | twistT | pointT
  | identityT | zeroT
  deriving DecidableEq

/-- A class and its base classes, most derived first: geometry/base/*.hpp (`RotationBase` and
`RigidTransformBase` derive from `TransformBase`; `TranslationBase`, `RelativeRotationBase`,
`TwistBase`, `ScalarBase` from `VectorBase`, itself from `AffineBase`; `PointBase` from `AffineBase`);
`Identity<Leaf>` and `Zero<Leaf>` derive from the base of `Leaf` (Identity.hpp:14, Zero.hpp:14). -/
def bases : XTy → List Pat
  | .plain (.vec .scalar) => [.scalarT, .scalarB, .vectorB, .affineB]
  | .plain (.vec .trans) => [.translationT, .translationB, .vectorB, .affineB]
  | .plain (.vec .relrot) => [.relrotT, .relrotB, .vectorB, .affineB]
  | .plain (.vec .twist) => [.twistT, .twistB, .vectorB, .affineB]
  | .plain .point => [.pointT, .pointB, .affineB]
  | .plain (.rot .quat) => [.quatT, .rotationB, .transformB]
  | .plain (.rot .mat) => [.matT, .rotationB, .transformB]
  | .plain (.rot .aa) => [.aaT, .rotationB, .transformB]
  | .plain (.rigid .mat) => [.rigidMatT, .rigidB, .transformB]
  | .plain (.rigid .compact) => [.compactT, .rigidB, .transformB]
  | .idRot _ => [.identityT, .rotationB, .transformB]
  | .idRigid _ => [.identityT, .rigidB, .transformB]
  | .zeroVec .scalar => [.zeroT, .scalarB, .vectorB, .affineB]
  | .zeroVec .trans => [.zeroT, .translationB, .vectorB, .affineB]
  | .zeroVec .relrot => [.zeroT, .relrotB, .vectorB, .affineB]
  | .zeroVec .twist => [.zeroT, .twistB, .vectorB, .affineB]
  | .zeroPoint => [.zeroT, .pointB, .affineB]

/-- How far a parameter type is from the class of the argument; `none` if it does not accept it.
Conversions to a nearer base are better (C++ [over.ics.rank]). -/
def rank (p : Pat) (a : XTy) : Option ℕ := (bases a).findIdx? (· == p)

/-- What a chosen overload gives: an operator, or an error inside its body or the class template
(`some none`); `none` is "no such operation" (not directly evaluable, so the search goes on). -/
abbrev Outcome (X : Type) := Option (Option X)

/-- An `evalImpl` overload with one operand. -/
structure Ov1 where
  p : Pat
  body : (a : XTy) → Outcome ((b : XTy) × XUn a b)

/-- An `evalImpl` overload with two operands. -/
structure Ov2 where
  l : Pat
  r : Pat
  body : (a b : XTy) → Outcome ((c : XTy) × XBin a b c)

/-- The viable overload that is a better match than every other, if there is one; otherwise the call
is ill-formed (none viable, or ambiguous). -/
def resolve1 (os : List Ov1) (a : XTy) : Outcome ((b : XTy) × XUn a b) :=
  let viable := os.filter fun o => (rank o.p a).isSome
  match viable.filter fun o => viable.all fun o' =>
      o.p == o'.p || decide ((rank o.p a).getD 0 < (rank o'.p a).getD 0) with
  | [o] => o.body a
  | _ => none

/-- `o` is a better match than `o'`: not worse in either argument and better in one. -/
def Ov2.better (a b : XTy) (o o' : Ov2) : Bool :=
  let la := (rank o.l a).getD 0
  let la' := (rank o'.l a).getD 0
  let rb := (rank o.r b).getD 0
  let rb' := (rank o'.r b).getD 0
  decide (la ≤ la') && decide (rb ≤ rb') && (decide (la < la') || decide (rb < rb'))

/-- As `resolve1`, for two operands. -/
def resolve2 (os : List Ov2) (a b : XTy) : Outcome ((c : XTy) × XBin a b c) :=
  let viable := os.filter fun o => (rank o.l a).isSome && (rank o.r b).isSome
  match viable.filter fun o => viable.all fun o' =>
      (o.l == o'.l && o.r == o'.r) || o.better a b o' with
  | [o] => o.body a b
  | _ => none

/-- Is the class `Zero<Scalar>`?  Its `value()` is a 1x1 matrix (Zero.hpp:16, 32-34, Scalar.hpp:94),
not a `double`. -/
def XTy.zeroScalar : XTy → Bool
  | .zeroVec .scalar => true
  | _ => false

/-- A body computing from `rhs.value()` what the overload for leaves computes.  On the 1x1 matrix of a
`Zero<Scalar>` these are errors (`acos` of a matrix; `normalized()` is a matrix, of which there is no
`Scalar`, Scalar.hpp:19) except for the two norms, see `ovs1`. -/
def val1 (t : Tag1) (a : XTy) : Outcome ((b : XTy) × XUn a b) :=
  if a.zeroScalar then some none else
    (direct1 t a.leaf).map fun r => some ⟨.plain r.1, .value r.2⟩

/-- A body computing from `lhs.value()` and `rhs.value()` what the overload for leaves computes.
(`none` where `direct2` has none: see there for the `static_assert`s.)  With the 1x1 matrix of a
`Zero<Scalar>` these are errors (a matrix plus a number, a `Scalar` of a matrix expression). -/
def val2 (t : Tag2) (a b : XTy) : Outcome ((c : XTy) × XBin a b c) :=
  if a.zeroScalar || b.zeroScalar then some none else
    (direct2 t a.leaf b.leaf).map fun r => some ⟨.plain r.1, .value r.2⟩

/-- The squared norm or norm of `rhs.value()`, which exists for the matrix of a `Zero<Scalar>` too. -/
def normOf (t : Tag1) (op : Un (.vec .scalar) (.vec .scalar)) (a : XTy) :
    Outcome ((b : XTy) × XUn a b) :=
  match a with
  | .zeroVec .scalar => some (some ⟨_, .value op⟩)
  | a => val1 t a

/-- The inner product, which exists for two `Zero<Scalar>` (two matrices) too. -/
def dotOf (a b : XTy) : Outcome ((c : XTy) × XBin a b c) :=
  match a, b with
  | .zeroVec .scalar, .zeroVec .scalar => some (some ⟨_, .value (.dot .scalar)⟩)
  | a, b => val2 .dot a b

/-- `Sum` with a Zero returns the other operand (Zero.hpp:68-81), provided the `static_assert` on the
difference types holds (Sum.hpp:16-19). -/
def sumKeep (left : Bool) (a b : XTy) : Outcome ((c : XTy) × XBin a b c) :=
  if (direct2 .sum a.leaf b.leaf).isSome then
    some (some (if left then ⟨a, .keepL .sum a b⟩ else ⟨b, .keepR .sum a b⟩))
  else some none

/-- Is the class an `Identity` or a `Zero`? -/
def XTy.wrapper : XTy → Bool
  | .plain _ => false
  | _ => true

/-- `makeVectorLike<...>(lhs.value() * rhs.value())`: the leaf stores the Eigen expression, which
refers to the operands by reference; `Zero::value()` is a temporary (VectorBase.hpp:97-100, 189-198,
236-238).  With a `Zero<Scalar>` only `vector * scalar` is a well-formed matrix product. -/
def scaled (t : Tag2) (a b : XTy) : Outcome ((c : XTy) × XBin a b c) :=
  if a.zeroScalar || (b.zeroScalar && t != .scaleR) then some none else
    (direct2 t a.leaf b.leaf).map fun r =>
      some ⟨.plain r.1, if a.wrapper || b.wrapper then .dangling r.2 else .value r.2⟩

/-- A member access: `rotationBlock()`/`translationBlock()` do not exist in `Identity`
(TransformBase.hpp:14-55, 70-95; the return type is `auto`, so this is an error and not a failed
substitution). -/
def rigidPart (t : Tag1) (a : XTy) : Outcome ((b : XTy) × XUn a b) :=
  match a with
  | .idRigid _ => some none
  | a => val1 t a

/-- The unary overloads. -/
def ovs1 : Tag1 → List Ov1
  -- VectorBase.hpp:120-125, Zero.hpp:83-86
  | .minus => [⟨.vectorB, val1 .minus⟩, ⟨.zeroT, fun a => some (some ⟨a, .minusZero a⟩)⟩]
  -- VectorBase.hpp:143-187
  | .sqNorm => [⟨.vectorB, normOf .sqNorm (.sqNorm .scalar)⟩]
  | .norm => [⟨.vectorB, normOf .norm (.norm .scalar)⟩]
  | .normalize => [⟨.vectorB, val1 .normalize⟩]
  -- ScalarBase.hpp
  | .acos => [⟨.scalarB, val1 .acos⟩]
  -- QuaternionRotation.hpp:65-69, MatrixRotation.hpp:57-61, AngleAxisRotation.hpp:63-67,
  -- RigidTransformBase.hpp:77-82, Identity.hpp:67-70
  | .inverse => [⟨.quatT, val1 .inverse⟩, ⟨.matT, val1 .inverse⟩, ⟨.aaT, val1 .inverse⟩,
      ⟨.rigidB, val1 .inverse⟩, ⟨.identityT, fun a => some (some ⟨a, .invId a⟩)⟩]
  -- RelativeRotation.hpp, Twist.hpp, Zero.hpp:88-91 (a Zero without `ExpType`: error in the body)
  | .expMap => [⟨.relrotT, val1 .expMap⟩, ⟨.twistT, val1 .expMap⟩,
      ⟨.zeroT, fun a => match a with
        | .zeroVec .relrot => some (some ⟨_, .expZeroRot⟩)
        | .zeroVec .twist => some (some ⟨_, .expZeroTwist⟩)
        | _ => some none⟩]
  -- MatrixRotation.hpp:71-75, RigidTransformBase.hpp:121-160, Identity.hpp:105-108
  | .logMap => [⟨.matT, val1 .logMap⟩, ⟨.rigidB, val1 .logMap⟩,
      ⟨.identityT, fun a => match a with
        | .idRot k => some (some ⟨_, .logIdRot k⟩)
        | .idRigid k => some (some ⟨_, .logIdRigid k⟩)
        | _ => some none⟩]
  | .rotation => [⟨.rigidB, rigidPart .rotation⟩]
  -- of a rotation: RotationBase.hpp:48-50, also for an Identity
  | .translation => [⟨.rigidB, rigidPart .translation⟩, ⟨.rotationB, val1 .translation⟩]

/-- The binary overloads. -/
def ovs2 : Tag2 → List Ov2
  -- VectorBase.hpp:102-118, AffineBase.hpp:67-93; Zero.hpp:68-81
  | .sum => [⟨.vectorB, .vectorB, val2 .sum⟩, ⟨.affineB, .vectorB, val2 .sum⟩,
      ⟨.vectorB, .affineB, val2 .sum⟩,
      ⟨.affineB, .zeroT, sumKeep true⟩, ⟨.zeroT, .affineB, sumKeep false⟩,
      ⟨.zeroT, .zeroT, sumKeep true⟩]
  | .subtract => [⟨.affineB, .vectorB, val2 .subtract⟩, ⟨.affineB, .affineB, val2 .subtract⟩]
  -- VectorBase.hpp:189-240
  | .scale => [⟨.scalarB, .vectorB, scaled .scale⟩]
  | .scaleR => [⟨.vectorB, .scalarB, scaled .scaleR⟩]
  | .scaleDiv => [⟨.vectorB, .scalarB, scaled .scaleDiv⟩]
  | .dot => [⟨.vectorB, .vectorB, dotOf⟩]
  | .product => [⟨.scalarB, .scalarB, val2 .product⟩]
  | .divide => [⟨.scalarB, .scalarB, val2 .divide⟩]
  -- QuaternionRotation.hpp:82-89, MatrixRotation.hpp:91-97, RigidTransformBase.hpp:108-118,
  -- Identity.hpp:72-89
  | .compose => [⟨.quatT, .quatT, val2 .compose⟩, ⟨.matT, .matT, val2 .compose⟩,
      ⟨.rigidB, .rigidB, val2 .compose⟩,
      ⟨.transformB, .identityT, fun a b => some (some ⟨a, .keepL .compose a b⟩)⟩,
      ⟨.identityT, .transformB, fun a b => some (some ⟨b, .keepR .compose a b⟩)⟩,
      ⟨.identityT, .identityT, fun a b => some (some ⟨a, .keepL .compose a b⟩)⟩]
  -- Compose.hpp:65-72: `Compose` with the operands swapped, viable when that call is well-formed
  | .composeFlipped => [⟨.quatT, .quatT, val2 .composeFlipped⟩, ⟨.matT, .matT, val2 .composeFlipped⟩,
      ⟨.rigidB, .rigidB, val2 .composeFlipped⟩,
      ⟨.identityT, .transformB, fun a b => some (some ⟨b, .keepR .composeFlipped a b⟩)⟩,
      ⟨.transformB, .identityT, fun a b => some (some ⟨a, .keepL .composeFlipped a b⟩)⟩,
      ⟨.identityT, .identityT, fun a b => some (some ⟨b, .keepR .composeFlipped a b⟩)⟩]
  -- QuaternionRotation.hpp:100-108, MatrixRotation.hpp:110-114, Identity.hpp:91-96
  | .rotate => [⟨.quatT, .translationT, val2 .rotate⟩, ⟨.matT, .translationT, val2 .rotate⟩,
      ⟨.identityT, .translationB, fun a b => some (some ⟨b, .keepR .rotate a b⟩)⟩]
  -- TransformBase.hpp:229-238, Identity.hpp:98-103
  | .transform => [⟨.transformB, .translationB, val2 .transform⟩,
      ⟨.identityT, .translationB, fun a b => some (some ⟨b, .keepR .transform a b⟩)⟩]

/-- `is_directly_evaluable_unary<expr<Convert, B>, A>`, for leaves as `conv1`; an Identity or Zero
converts to its own leaf class only (RotationBase.hpp:99-103, MatrixRigidTransform.hpp:120-128,
Zero.hpp:63-66).  `Zero<Scalar>` is declared convertible, but the body is an error (a `Scalar` from a
matrix expression); nothing else could be chosen in its place, so it is left out. -/
def convX (a : XTy) (b : Ty) : Option (XUn a (.plain b)) :=
  match a with
  | .plain τ => (conv1 τ b).map fun op => .value (a := .plain τ) op
  | a => if a.zeroScalar then none else if h : b = a.leaf then some (h ▸ .conv a) else none

/-- `traits<A>::ConvertTo`: Identity.hpp:51-52, Zero.hpp:49-50; otherwise `convTo`. -/
def convToX : XTy → List Ty
  | .plain τ => convTo τ
  | a => [a.leaf]

/-- What the search does with one operand. -/
inductive XSide (a : XTy) : Type
  | stay : XSide a
  | via (b : Ty) (op : XUn a (.plain b)) : XSide a

/-- Class of the operand afterwards. -/
def XSide.ty {a : XTy} : XSide a → XTy
  | .stay => a
  | .via b _ => .plain b

/-- The entries of `ConvertTo` that are directly evaluable, in order. -/
def xsides (a : XTy) : List (XSide a) := (convToX a).filterMap fun b => (convX a b).map (.via b)

variable {ε}

/-- Wrap an operand as decided. -/
def XSide.apply {a : XTy} (e : Expr (xLib ε) a) : (s : XSide a) → Expr (xLib ε) s.ty
  | .stay => e
  | .via _ op => .un (L := xLib ε) 0 op e

/-- A tree with its class. -/
abbrev XTree (ε : ℝ) := (a : XTy) × Expr (xLib ε) a

/-- Preparation of a unary node: as `elab1`, with overload resolution. -/
def xelab1 (t : Tag1) (x : XTree ε) : Option (XTree ε) :=
  (firstConv1 (fun s : XSide x.1 => (resolve1 (ovs1 t) s.ty).map fun r => r.map fun r =>
    (⟨r.1, .un (L := xLib ε) 0 r.2 (s.apply x.2)⟩ : XTree ε)) .stay (xsides x.1)).join

/-- Preparation of a binary node: as `elab2`, with overload resolution. -/
def xelab2 (t : Tag2) (x y : XTree ε) : Option (XTree ε) :=
  (firstConv2 (fun (s : XSide x.1) (u : XSide y.1) =>
    (resolve2 (ovs2 t) s.ty u.ty).map fun r => r.map fun r =>
      (⟨r.1, .bin (L := xLib ε) 0 r.2 (s.apply x.2) (u.apply y.2)⟩ : XTree ε))
    .stay .stay (xsides x.1) (xsides y.1)).join

/-- Conversion of the root to the requested class (PrepareOutput.hpp:28-71): a `Convert` node, itself
prepared by the search over `ConvertTo` (traits_bases.hpp:219-225). -/
def xelabTo (τ : Ty) (x : XTree ε) : Option (XTree ε) :=
  if h : x.1 = .plain τ then some ⟨.plain τ, h ▸ x.2⟩ else
    (firstConv1 (fun s : XSide x.1 => (convX s.ty τ).map fun op =>
      (⟨.plain τ, .un (L := xLib ε) 0 op (s.apply x.2)⟩ : XTree ε)) .stay
      (xsides x.1))

/-- Unary operations. -/
def xelabUn : UOp → XTree ε → Option (XTree ε)
  | .neg => xelab1 .minus
  | .squaredNorm => xelab1 .sqNorm
  | .norm => xelab1 .norm
  | .normalized => xelab1 .normalize
  | .acos => xelab1 .acos
  | .inverse => xelab1 .inverse
  | .exp => xelab1 .expMap
  | .log => xelab1 .logMap
  | .rotation => fun x => if x.1.leaf.isRot then some x else xelab1 .rotation x
  | .translation => xelab1 .translation
  | .to τ => xelabTo τ

/-- Binary operations: the template is chosen by the base classes, as in `elabBin`. -/
def xelabBin (op : BOp) (x y : XTree ε) : Option (XTree ε) :=
  match op, x.1.leaf, y.1.leaf with
  | .add, .vec _, .vec _ => xelab2 .sum x y
  | .add, .point, .vec _ => xelab2 .sum x y
  | .add, .vec _, .point => xelab2 .sum x y
  | .add, .rot _, .vec .relrot => (xelab1 .expMap y).bind (xelab2 .composeFlipped x)
  | .add, .rigid _, .vec .twist => (xelab1 .expMap y).bind (xelab2 .composeFlipped x)
  | .sub, .vec _, .vec _ => xelab2 .subtract x y
  | .sub, .point, .vec _ => xelab2 .subtract x y
  | .sub, .point, .point => xelab2 .subtract x y
  | .sub, .rot _, .rot _ => ((xelab1 .inverse y).bind (xelab2 .compose x)).bind (xelab1 .logMap)
  | .sub, .rigid _, .rigid _ => ((xelab1 .inverse y).bind (xelab2 .compose x)).bind (xelab1 .logMap)
  | .mul, .vec .scalar, .vec .scalar => xelab2 .product x y
  | .mul, .vec .scalar, .vec _ => xelab2 .scale x y
  | .mul, .vec _, .vec .scalar => xelab2 .scaleR x y
  | .mul, .rot _, .rot _ => xelab2 .compose x y
  | .mul, .rigid _, .rigid _ => xelab2 .compose x y
  | .mul, .rot _, .vec .trans => xelab2 .rotate x y
  | .mul, .rigid _, .vec .trans => xelab2 .transform x y
  | .div, .vec .scalar, .vec .scalar => xelab2 .divide x y
  | .div, .vec _, .vec .scalar => xelab2 .scaleDiv x y
  | .dot, .vec _, .vec _ => xelab2 .dot x y
  | _, _, _ => none

/-- User expressions that may mention `Identity<τ>` or `Zero<τ>` objects (`neutral a c τ`: the object
at address `a` with static type number `c`). -/
inductive NExpr
  | leaf (a cls : ℕ) (τ : Ty)
  | neutral (a cls : ℕ) (τ : Ty)
  | un (op : UOp) (e : NExpr)
  | bin (op : BOp) (l r : NExpr)
  | dynamic (a : ℕ) (e : NExpr)

/-- The class of `Identity<τ>` / `Zero<τ>`. -/
def neutralClass : Ty → XTy
  | .vec k => .zeroVec k
  | .point => .zeroPoint
  | .rot k => .idRot k
  | .rigid k => .idRigid k

/-- The evaluable tree built for a user expression; `none` is a compile error.  `rotation()` and
`translation()` of an `Identity` object are its own member functions and return another Identity, of
a quaternion, or a Zero translation (Identity.hpp:18-31). -/
noncomputable def NExpr.elab (ε : ℝ) : NExpr → Option (XTree ε)
  | .leaf a c τ => some ⟨.plain τ, Expr.leaf (L := xLib ε) a c (.plain τ)⟩
  | .neutral a c τ => some ⟨neutralClass τ, Expr.leaf (L := xLib ε) a c (neutralClass τ)⟩
  | .un .rotation (.neutral _ _ (.rigid _)) =>
    some ⟨.idRot .quat, Expr.leaf (L := xLib ε) 0 0 (.idRot .quat)⟩
  | .un .translation (.neutral _ _ (.rigid _)) =>
    some ⟨.zeroVec .trans, Expr.leaf (L := xLib ε) 0 0 (.zeroVec .trans)⟩
  | .un .rotation (.neutral _ _ (.rot _)) =>
    some ⟨.idRot .quat, Expr.leaf (L := xLib ε) 0 0 (.idRot .quat)⟩
  | .un .translation (.neutral _ _ (.rot _)) =>
    some ⟨.zeroVec .trans, Expr.leaf (L := xLib ε) 0 0 (.zeroVec .trans)⟩
  | .un op e => (e.elab ε).bind (xelabUn op)
  | .bin op l r => (l.elab ε).bind fun x => (r.elab ε).bind fun y => xelabBin op x y
  | .dynamic a e => (e.elab ε).bind fun x =>
    if x.1.wrapper then none
    else if dynamicCompiles (xKinds ε) x.2 then some ⟨x.1, .proxy (L := xLib ε) a x.2⟩ else none

/-- Memory for expressions with Identity and Zero, which store nothing. -/
def xmem (ε : ℝ) (s : ℕ → (τ : Ty) → τ.Val) : Store (xLib ε) := fun n a =>
  match a with
  | .plain τ => s n τ
  | .idRot _ => ()
  | .idRigid _ => ()
  | .zeroVec _ => ()
  | .zeroPoint => ()

end WG
