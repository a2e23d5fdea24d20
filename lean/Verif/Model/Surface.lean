import Verif.Model.DynCompile
import Verif.Model.Syntax

/-!
# From user expressions to evaluable trees

Overload resolution, the search for conversions, and `prepareExpr`.
-/

namespace WG

/-- Tags of the unary `evalImpl` overloads. -/
inductive Tag1
  | minus | sqNorm | norm | normalize | acos | inverse | expMap | logMap | rotation | translation
  deriving DecidableEq

/-- Tags of the binary `evalImpl` overloads. -/
inductive Tag2
  | sum | subtract | scale | scaleR | scaleDiv | dot | product | divide | compose | composeFlipped
  | rotate | transform
  deriving DecidableEq

/-- `is_directly_evaluable_unary<Tag, A>` and its result class: which `evalImpl` overloads exist
(files and lines as for the corresponding case of `evalUn`).  SquaredNorm, Norm and Normalize of a
`Scalar` are left out: the overloads (VectorBase.hpp:129-132, 143-146, 158-161) accept it, but their
bodies call `.norm()` etc. on a `double` (Scalar.hpp:38-50), which is an error whether or not the
search would go on. -/
def direct1 : Tag1 → (a : Ty) → Option ((b : Ty) × Un a b)
  | .minus, .vec k => some ⟨_, .minus k⟩
  | .sqNorm, .vec .trans => some ⟨_, .sqNorm .trans⟩
  | .sqNorm, .vec .relrot => some ⟨_, .sqNorm .relrot⟩
  | .sqNorm, .vec .twist => some ⟨_, .sqNorm .twist⟩
  | .norm, .vec .trans => some ⟨_, .norm .trans⟩
  | .norm, .vec .relrot => some ⟨_, .norm .relrot⟩
  | .norm, .vec .twist => some ⟨_, .norm .twist⟩
  | .normalize, .vec .trans => some ⟨_, .normalize .trans⟩
  | .normalize, .vec .relrot => some ⟨_, .normalize .relrot⟩
  | .normalize, .vec .twist => some ⟨_, .normalize .twist⟩
  | .acos, .vec .scalar => some ⟨_, .acos⟩
  | .inverse, .rot k => some ⟨_, .invRot k⟩
  | .inverse, .rigid k => some ⟨_, .invRigid k⟩
  | .expMap, .vec .relrot => some ⟨_, .expRel⟩
  | .expMap, .vec .twist => some ⟨_, .expTwist⟩
  | .logMap, .rot .mat => some ⟨_, .logRot⟩
  | .logMap, .rigid k => some ⟨_, .logRigid k⟩
  | .rotation, .rigid k => some ⟨_, .getRot k⟩
  | .translation, .rigid k => some ⟨_, .getTrans k⟩
  | .translation, .rot k => some ⟨_, .zeroTrans k⟩
  | _, _ => none

/-- `is_directly_evaluable_binary<Tag, A, B>` and its result class.  Sum and Subtract of two vectors
of different classes are left out: the `evalImpl` overload (VectorBase.hpp:106-118) exists, but the
expression is rejected earlier by `static_assert(same_base_tmpl<TangentType, TangentType>)`
(Sum.hpp:16-19, Subtract.hpp:18-21).  Dot of two `Scalar`s is left out as the norms are
(VectorBase.hpp:244-247 calls `.dot()` on a `double`). -/
def direct2 : Tag2 → (a b : Ty) → Option ((c : Ty) × Bin a b c)
  | .sum, .vec .scalar, .vec .scalar => some ⟨_, .sum .scalar⟩
  | .sum, .vec .trans, .vec .trans => some ⟨_, .sum .trans⟩
  | .sum, .vec .relrot, .vec .relrot => some ⟨_, .sum .relrot⟩
  | .sum, .vec .twist, .vec .twist => some ⟨_, .sum .twist⟩
  | .sum, .point, .vec .trans => some ⟨_, .sumPV⟩
  | .sum, .vec .trans, .point => some ⟨_, .sumVP⟩
  | .subtract, .vec .scalar, .vec .scalar => some ⟨_, .sub .scalar⟩
  | .subtract, .vec .trans, .vec .trans => some ⟨_, .sub .trans⟩
  | .subtract, .vec .relrot, .vec .relrot => some ⟨_, .sub .relrot⟩
  | .subtract, .vec .twist, .vec .twist => some ⟨_, .sub .twist⟩
  | .subtract, .point, .point => some ⟨_, .subPP⟩
  | .subtract, .point, .vec .trans => some ⟨_, .subPV⟩
  | .scale, .vec .scalar, .vec k => some ⟨_, .scale k⟩
  | .scaleR, .vec k, .vec .scalar => some ⟨_, .scaleR k⟩
  | .scaleDiv, .vec k, .vec .scalar => some ⟨_, .scaleDiv k⟩
  | .dot, .vec .trans, .vec .trans => some ⟨_, .dot .trans⟩
  | .dot, .vec .relrot, .vec .relrot => some ⟨_, .dot .relrot⟩
  | .dot, .vec .twist, .vec .twist => some ⟨_, .dot .twist⟩
  | .product, .vec .scalar, .vec .scalar => some ⟨_, .product⟩
  | .divide, .vec .scalar, .vec .scalar => some ⟨_, .divide⟩
  | .compose, .rot .quat, .rot .quat => some ⟨_, .composeQ⟩
  | .compose, .rot .mat, .rot .mat => some ⟨_, .composeM⟩
  | .compose, .rigid a, .rigid b => some ⟨_, .composeRigid a b⟩
  | .composeFlipped, .rot .quat, .rot .quat => some ⟨_, .flipQ⟩
  | .composeFlipped, .rot .mat, .rot .mat => some ⟨_, .flipM⟩
  | .composeFlipped, .rigid a, .rigid b => some ⟨_, .flipRigid a b⟩
  | .rotate, .rot .quat, .vec .trans => some ⟨_, .rotateQ⟩
  | .rotate, .rot .mat, .vec .trans => some ⟨_, .rotateM⟩
  | .transform, .rigid k, .vec .trans => some ⟨_, .transform k⟩
  | _, _, _ => none

/-- `is_directly_evaluable_unary<expr<Convert, B>, A>`: QuaternionRotation.hpp:125-147,
MatrixRotation.hpp:134-138, AngleAxisRotation.hpp:83-128, MatrixRigidTransform.hpp:135-139,
CompactRigidTransform.hpp:109-133. -/
def conv1 : (a b : Ty) → Option (Un a b)
  | .rot a, .rot b => some (.convRot a b)
  | .rigid a, .rigid b => some (.convRigid a b)
  | _, _ => none

/-- `traits<A>::ConvertTo`: QuaternionRotation.hpp:59, AngleAxisRotation.hpp:57-58; empty for every
other class (traits_bases.hpp). -/
def convTo : Ty → List Ty
  | .rot .quat => [.rot .mat]
  | .rot .aa => [.rot .mat, .rot .quat]
  | _ => []

/-- What the search does with one operand: leave it, or wrap it in `Convert<b, ·>`. -/
inductive Side (a : Ty) : Type
  | stay : Side a
  | via (b : Ty) (op : Un a b) : Side a

/-- Class of the operand afterwards. -/
def Side.ty {a : Ty} : Side a → Ty
  | .stay => a
  | .via b _ => b

/-- The entries of `ConvertTo` that are directly evaluable, in order. -/
def sides (a : Ty) : List (Side a) := (convTo a).filterMap fun b => (conv1 a b).map (.via b)

/-- `first_directly_evaluable_conversion_unary`: AddConversions.hpp:36-71. -/
def firstConv1 {A B : Type} (f : A → Option B) (stay : A) (vias : List A) : Option B :=
  (stay :: vias).findSome? f

/-- `first_directly_evaluable_conversion_binary`: AddConversions.hpp:161-168. -/
def firstConv2 {A B C : Type} (f : A → B → Option C) (stayL : A) (stayR : B) (viasL : List A)
    (viasR : List B) : Option C :=
  ((stayL, stayR) :: viasR.map (stayL, ·) ++ viasL.map (·, stayR) ++
    viasL.flatMap fun l => viasR.map (l, ·)).findSome? fun p => f p.1 p.2

variable {ε : ℝ}

/-- Wrap an operand as decided (`Rebind<Convert<T, Rhs> &&>`); a conversion node is a temporary with
no user-visible address (0). -/
def Side.apply {a : Ty} (e : Expr (geoLib ε) a) : (s : Side a) → Expr (geoLib ε) s.ty
  | .stay => e
  | .via _ op => .un 0 op e

/-- A tree with its class. -/
abbrev Tree (ε : ℝ) := (τ : Ty) × Expr (geoLib ε) τ

/-- Preparation of a unary node (traits_bases.hpp:175-180, PrepareExpr.hpp:24-28). -/
def elab1 (t : Tag1) (x : Tree ε) : Option (Tree ε) :=
  firstConv1 (fun s : Side x.1 => (direct1 t s.ty).map fun r => ⟨r.1, .un 0 r.2 (s.apply x.2)⟩)
    .stay (sides x.1)

/-- Preparation of a binary node (traits_bases.hpp:121-128, PrepareExpr.hpp:30-34). -/
def elab2 (t : Tag2) (x y : Tree ε) : Option (Tree ε) :=
  firstConv2 (fun (s : Side x.1) (u : Side y.1) =>
    (direct2 t s.ty u.ty).map fun r => ⟨r.1, .bin 0 r.2 (s.apply x.2) (u.apply y.2)⟩)
    .stay .stay (sides x.1) (sides y.1)

/-- Conversion of the root to the requested class: PrepareOutput.hpp:28-71. -/
def elabTo (τ : Ty) (x : Tree ε) : Option (Tree ε) :=
  if h : x.1 = τ then some ⟨τ, h ▸ x.2⟩ else (conv1 x.1 τ).map fun op => ⟨τ, .un 0 op x.2⟩

/-- Does the class derive from `RotationBase`? -/
def Ty.isRot : Ty → Bool
  | .rot _ => true
  | _ => false

/-- Unary operations: which expression template the function builds. -/
def elabUn : UOp → Tree ε → Option (Tree ε)
  | .neg => elab1 .minus
  | .squaredNorm => elab1 .sqNorm
  | .norm => elab1 .norm
  | .normalized => elab1 .normalize
  | .acos => elab1 .acos
  | .inverse => elab1 .inverse
  | .exp => elab1 .expMap
  | .log => elab1 .logMap
  -- a rotation is its own `rotation()` (RotationBase.hpp:21-32)
  | .rotation => fun x => if x.1.isRot then some x else elab1 .rotation x
  | .translation => elab1 .translation
  | .to τ => elabTo τ

/-- Binary operations: overload resolution on the base classes of the operands.
`+`: Sum (VectorBase.hpp / AffineBase.hpp) or BoxPlus (TransformBase.hpp, BoxPlus.hpp:34-40:
ComposeFlipped(L, ExpMap R), only for the tangent class of `L`); `-`: Subtract or BoxMinus
(BoxMinus.hpp: LogMap(Compose(L, Inverse R))); `*`: Scale, ScaleR, Product, Compose, Rotate,
Transform; `/`: ScaleDiv, Divide. -/
def elabBin (op : BOp) (x y : Tree ε) : Option (Tree ε) :=
  match op, x.1, y.1 with
  | .add, .vec _, .vec _ => elab2 .sum x y
  | .add, .point, .vec _ => elab2 .sum x y
  | .add, .vec _, .point => elab2 .sum x y
  | .add, .rot _, .vec .relrot => (elab1 .expMap y).bind (elab2 .composeFlipped x)
  | .add, .rigid _, .vec .twist => (elab1 .expMap y).bind (elab2 .composeFlipped x)
  | .sub, .vec _, .vec _ => elab2 .subtract x y
  | .sub, .point, .vec _ => elab2 .subtract x y
  | .sub, .point, .point => elab2 .subtract x y
  | .sub, .rot _, .rot _ => ((elab1 .inverse y).bind (elab2 .compose x)).bind (elab1 .logMap)
  | .sub, .rigid _, .rigid _ => ((elab1 .inverse y).bind (elab2 .compose x)).bind (elab1 .logMap)
  | .mul, .vec .scalar, .vec .scalar => elab2 .product x y
  | .mul, .vec .scalar, .vec _ => elab2 .scale x y
  | .mul, .vec _, .vec .scalar => elab2 .scaleR x y
  | .mul, .rot _, .rot _ => elab2 .compose x y
  | .mul, .rigid _, .rigid _ => elab2 .compose x y
  | .mul, .rot _, .vec .trans => elab2 .rotate x y
  | .mul, .rigid _, .vec .trans => elab2 .transform x y
  | .div, .vec .scalar, .vec .scalar => elab2 .divide x y
  | .div, .vec _, .vec .scalar => elab2 .scaleDiv x y
  | .dot, .vec _, .vec _ => elab2 .dot x y
  | _, _, _ => none

/-- A handle to a new dynamic node: `makeProxy(e)`, `Proxy<Leaf>{e}`, `makeDynamic(e)`
(Proxy.hpp:40-44, 62-71, Dynamic.hpp:122-132); the virtual functions of `Dynamic<E>` must compile. -/
noncomputable def wrapDynamic (a : ℕ) (x : Tree ε) : Option (Tree ε) :=
  if dynamicCompiles (geoKinds ε) x.2 then some ⟨x.1, .proxy a x.2⟩ else none

/-- The evaluable tree built for a user expression; `none` is a compile error. -/
noncomputable def SExpr.elab (ε : ℝ) : SExpr → Option (Tree ε)
  | .leaf a c τ => some ⟨τ, Expr.leaf (L := geoLib ε) a c τ⟩
  | .un op e => (e.elab ε).bind (elabUn op)
  | .bin op l r => (l.elab ε).bind fun x => (r.elab ε).bind fun y => elabBin op x y
  | .dynamic a e => (e.elab ε).bind (wrapDynamic a)

/-- The class and stored value of `eval(e)`: `none` if the expression does not compile or some
operation has no finite result. -/
noncomputable def SExpr.value (ε : ℝ) (s : ℕ → (τ : Ty) → τ.Val) (e : SExpr) :
    Option ((τ : Ty) × τ.Val) :=
  (e.elab ε).bind fun x => (x.2.eval (L := geoLib ε) s).map fun v => ⟨x.1, v⟩

end WG
