import Verif.Model.Expr

/-!
# C++ types of expressions, `isSame`, and derivatives with respect to sub-expressions

`Expr` (Model/Expr.lean) forgets how operands were passed to the operators.  The C++ type of an
expression records it, in the template arguments: `Minus<const Translationd &>` for a named leaf,
`Minus<Translationd &&>` for a temporary one.  `isSame` and the Jacobian evaluators compare such
types.  `expr.evalWithJacobians(x...)` accepts any objects `x` (ExpressionBase.hpp:74-78), leaves or
not, so a derivative with respect to a whole sub-expression can be asked for.

Not modelled: a `Scalar<double &>` is a unary operation on a plain number (Scalar.hpp:63-106), to
which everything here applies (`Form.ref`) with the signature `numLib` of `PlainNumber` for `geoLib`.
N-ary expressions (compounds) as targets.
-/

namespace WG

/-- The form of a template argument: `const T &`, `T &`, `T &&` or `T` (RefSelector.hpp:82-129). -/
inductive Form
  | cref
  | ref
  | rref
  | value
  deriving DecidableEq

/-- A C++ expression type: the class of a leaf; or a template, its auxiliary arguments (such as the
frames of a `FrameCast`, or the extra frame of a `LogMap`; a number stands for them), the class of its
result, and its operands with the form in which they are given. -/
inductive CType (T : Type)
  | leaf (τ : T) (cls : ℕ)
  | un (tag aux : ℕ) (τ : T) (q : Form) (r : CType T)
  | bin (tag aux : ℕ) (τ : T) (q : Form) (l : CType T) (q' : Form) (r : CType T)
  | proxy (τ : T)
  deriving DecidableEq

variable {L : Lib}

/-- A C++ expression object, with the forms of its template arguments. -/
inductive CExpr (L : Lib) : L.Ty → Type
  | leaf (a cls : ℕ) (τ : L.Ty) : CExpr L τ
  | un {α β : L.Ty} (op : L.Un α β) (aux : ℕ) (q : Form) (e : CExpr L α) : CExpr L β
  | bin {α β γ : L.Ty} (op : L.Bin α β γ) (aux : ℕ) (q : Form) (l : CExpr L α) (q' : Form)
      (r : CExpr L β) : CExpr L γ
  | proxy {τ : L.Ty} (a : ℕ) (e : Expr L τ) : CExpr L τ

namespace CExpr

/-- The type of an expression object. -/
def ctype : {τ : L.Ty} → CExpr L τ → CType L.Ty
  | _, .leaf _ c τ => .leaf τ c
  | β, .un op x q e => .un (L.unTag op) x β q e.ctype
  | γ, .bin op x q l q' r => .bin (L.binTag op) x γ q l.ctype q' r.ctype
  | τ, .proxy _ _ => .proxy τ

/-- The tree of operations, without the forms.  The nodes of an expression that is evaluated are
copies made by `prepareExpr` (PrepareExpr.hpp:16-45), at addresses no user object has: 0. -/
def expr : {τ : L.Ty} → CExpr L τ → Expr L τ
  | _, .leaf a c τ => .leaf a c τ
  | _, .un op _ _ e => .un 0 op e.expr
  | _, .bin op _ _ l _ r => .bin 0 op l.expr r.expr
  | _, .proxy a e => .proxy a e

/-- Has the tree no dynamic handle? -/
def noProxy {τ : L.Ty} (e : CExpr L τ) : Bool := e.expr.noProxy

/-- `isSame` (IsSame.hpp:23-67, Proxy.hpp:259-264): false when the types differ, else operand by
operand, down to the addresses of leaves and of dynamic nodes. -/
def isSame : {τ σ : L.Ty} → CExpr L τ → CExpr L σ → Bool
  | _, _, .leaf a c τ, .leaf b d σ => (τ = σ && c = d) && a = b
  | _, _, e@(.un _ _ _ x), f@(.un _ _ _ y) => decide (e.ctype = f.ctype) && x.isSame y
  | _, _, e@(.bin _ _ _ x₁ _ x₂), f@(.bin _ _ _ y₁ _ y₂) =>
    decide (e.ctype = f.ctype) && (x₁.isSame y₁ && x₂.isSame y₂)
  | τ, σ, .proxy a _, .proxy b _ => decide (τ = σ) && a = b
  | _, _, _, _ => false

/-- What an operand is, for the choice of its form. -/
inductive Kind
  | leaf
  | operation
  | proxy

/-- The kind of an expression. -/
def kind : {τ : L.Ty} → CExpr L τ → Kind
  | _, .leaf _ _ _ => .leaf
  | _, .un _ _ _ _ => .operation
  | _, .bin _ _ _ _ _ _ => .operation
  | _, .proxy _ _ => .proxy

/-- How an operand is passed to an operator: as a named object through a `const &` parameter, as a
named object that is not constant through a forwarding parameter (`Scalar<arg_t<L>>`,
macros.hpp:94; `MemberAccess<Aux, arg_t<Derived>>`, MemberAccess.hpp:119), or as a temporary. -/
inductive Passed
  | named
  | forwarded
  | temporary
  deriving DecidableEq

/-- `arg_t`, `cr_arg_t` (RefSelector.hpp:111-129, Proxy.hpp:228-233: proxies are always stored by
value). -/
def argForm : Passed → Kind → Form
  | _, .proxy => .value
  | .named, _ => .cref
  | .forwarded, _ => .ref
  | .temporary, .leaf => .rref
  | .temporary, .operation => .value

/-- An expression as the user writes it: every operand has a form that `arg_t` gives. -/
def Written : {τ : L.Ty} → CExpr L τ → Prop
  | _, .leaf _ _ _ => True
  | _, .un _ _ q e => (∃ m, q = argForm m e.kind) ∧ e.Written
  | _, .bin _ _ q l q' r =>
    (∃ m, q = argForm m l.kind) ∧ (∃ m, q' = argForm m r.kind) ∧ l.Written ∧ r.Written
  | _, .proxy _ _ => True

/-- The form of an operand after `prepareExpr`: its `PreparedType`, which is `const T &` for leaves
and proxies (traits_bases.hpp:53, Proxy.hpp:218) and `T &&` for operations, conversions included
(traits_bases.hpp:135, 186, 231; AddConversions.hpp:57, 135, 142, 150). -/
def preparedForm : Kind → Form
  | .leaf => .cref
  | .operation => .rref
  | .proxy => .cref

/-- `prepareExpr` (PrepareExpr.hpp:16-45): a copy of the tree in which every operand is given in its
`PreparedType`.  The conversions it inserts (AddConversions.hpp) are taken to be in the tree. -/
def prepare : {τ : L.Ty} → CExpr L τ → CExpr L τ
  | _, .leaf a c τ => .leaf a c τ
  | _, .un op x _ e => .un op x (preparedForm e.kind) e.prepare
  | _, .bin op x _ l _ r => .bin op x (preparedForm l.kind) l.prepare (preparedForm r.kind) r.prepare
  | _, .proxy a e => .proxy a e

/-- `contains_same_type<A, B>` (IsSameType.hpp:44-59) for any target type.  Not defined for proxies. -/
def hasNode (T : CType L.Ty) : {τ : L.Ty} → CExpr L τ → Bool
  | _, e@(.leaf _ _ _) => e.ctype = T
  | _, e@(.un _ _ _ x) => e.ctype = T || x.hasNode T
  | _, e@(.bin _ _ _ l _ r) => e.ctype = T || (l.hasNode T || r.hasNode T)
  | _, .proxy _ _ => false

/-- `JacobianEvaluator<Derived, Derived>` (JacobianEvaluator.hpp:35-64): identity if the node is the
target, by `isSame`. -/
def selfBlock {τ σ : L.Ty} (e : CExpr L τ) (q : CExpr L σ) : Option (OMat (L.Idx τ) (L.Idx σ)) :=
  if h : τ = σ then (if e.isSame q then some (idBlock h) else none) else none

/-- `JacobianEvaluator` for a target of any type (JacobianEvaluator.hpp:35-248).  The values are
those of the evaluators built beforehand.  A dynamic node compares the address of the target with
those it knows, and the target is not one of its objects (Proxy.hpp:140-168).  Outer `none` is
`boost::none`. -/
def fwdNode (s : Store L) {σ : L.Ty} (q : CExpr L σ) :
    {τ : L.Ty} → CExpr L τ → Option (OMat (L.Idx τ) (L.Idx σ))
  | _, e@(.leaf _ _ _) => if e.ctype = q.ctype then selfBlock e q else none
  | _, e@(.un op _ _ x) =>
    if e.ctype = q.ctype then selfBlock e q
    else match fwdNode s q x with
      | some J => some ((nodeJac op (e.expr.eval s) (x.expr.eval s)).mul J)
      | none => none
  | _, e@(.bin op _ _ l _ r) =>
    let A := nodeJacL op (e.expr.eval s) (l.expr.eval s) (r.expr.eval s)
    let B := nodeJacR op (e.expr.eval s) (l.expr.eval s) (r.expr.eval s)
    if e.ctype = q.ctype then selfBlock e q
    else if l.hasNode q.ctype && r.hasNode q.ctype then
      match fwdNode s q l, fwdNode s q r with
      | some J, some K => some (A.mul J + B.mul K)
      | some J, none => some (A.mul J)
      | none, some K => some (B.mul K)
      | none, none => none
    else if l.hasNode q.ctype then
      match fwdNode s q l with
      | some J => some (A.mul J)
      | none => none
    else if r.hasNode q.ctype then
      match fwdNode s q r with
      | some K => some (B.mul K)
      | none => none
    else none  -- no specialisation: rejected by the compiler, see `fwdCompiles`
  | _, .proxy _ _ => none

/-- Does `JacobianEvaluator<Derived, Target>` compile? -/
def fwdCompiles (T : CType L.Ty) : {τ : L.Ty} → CExpr L τ → Bool
  | _, .leaf _ _ _ => true
  | _, e@(.un _ _ _ x) => e.ctype = T || x.fwdCompiles T
  | _, e@(.bin _ _ _ l _ r) =>
    e.ctype = T || (l.noProxy && r.noProxy && (l.hasNode T || r.hasNode T))
  | _, .proxy _ _ => true

/-- `TypedJacobianEvaluator` for a target of any type (TypedJacobianEvaluator.hpp:18-247): the node
of the target's type is taken to be the target.  Only instantiated on trees that contain the type;
other cases return the value the model needs to be total. -/
def typedNode (s : Store L) {σ : L.Ty} (q : CExpr L σ) :
    {τ : L.Ty} → CExpr L τ → OMat (L.Idx τ) (L.Idx σ)
  | τ, e@(.leaf _ _ _) =>
    if h : e.ctype = q.ctype ∧ τ = σ then idBlock h.2 else 0
  | β, e@(.un op _ _ x) =>
    if h : e.ctype = q.ctype ∧ β = σ then idBlock h.2
    else (nodeJac op (e.expr.eval s) (x.expr.eval s)).mul (typedNode s q x)
  | γ, e@(.bin op _ _ l _ r) =>
    let A := nodeJacL op (e.expr.eval s) (l.expr.eval s) (r.expr.eval s)
    let B := nodeJacR op (e.expr.eval s) (l.expr.eval s) (r.expr.eval s)
    if h : e.ctype = q.ctype ∧ γ = σ then idBlock h.2
    else if l.hasNode q.ctype && r.hasNode q.ctype then
      A.mul (typedNode s q l) + B.mul (typedNode s q r)
    else if l.hasNode q.ctype then A.mul (typedNode s q l)
    else if r.hasNode q.ctype then B.mul (typedNode s q r)
    else 0
  | _, .proxy _ _ => 0

/-- The Jacobian with respect to `q` among the results of `expr.evalWithJacobians(..., q, ...)`
(ExpressionBase.hpp:74-78; TypedJacobianEvaluator.hpp:333-351, 281-301; JacobianEvaluator.hpp:365-374).
`none` is a compile error.  The choice between the two evaluators is made on the type of `expr`
(TypedJacobianEvaluator.hpp:333-351), which has the same leaves as the prepared tree. -/
def jacobianNode (s : Store L) {τ σ : L.Ty} (e : CExpr L τ) (q : CExpr L σ) :
    Option (OMat (L.Idx τ) (L.Idx σ)) :=
  let p := e.prepare
  if p.expr.uniqueLeaves then
    if p.hasNode q.ctype then some (typedNode s q p) else none
  else
    if p.fwdCompiles q.ctype then some (orZero (fwdNode s q p)) else none

/-- `expr.jacobian(q)`: only accepted for leaves (`TICK_REQUIRES(is_leaf_expression)`,
ExpressionBase.hpp:55-60). -/
def jacobianMethodAccepts {σ : L.Ty} (q : CExpr L σ) : Bool :=
  match q with
  | .leaf _ _ _ => true
  | _ => false

end CExpr

end WG
