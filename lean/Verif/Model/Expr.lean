import Mathlib.Data.Matrix.Mul
import Mathlib.Data.Real.Basic
import Mathlib.Data.Fintype.Sum

/-!
# Expression trees and evaluator trees over an arbitrary operator signature

The tree, evaluator and Jacobian-evaluator templates of `core/` never look inside an operator: they
call `evalImpl`, `jacobianImpl`, `leftJacobianImpl`, `rightJacobianImpl`.  `Lib` is such a signature;
`geoLib` (Verif/Model/Geo.lean) is the one of the library.
-/

namespace WG
open Matrix

/-- An operator signature: leaf classes, their tangent coordinates, and the operators with
their `evalImpl` / `jacobianImpl` overloads.  `none` is a non-finite result. -/
structure Lib where
  /-- leaf classes -/
  Ty : Type
  [decTy : DecidableEq Ty]
  /-- tangent coordinates -/
  Idx : Ty → Type
  [finIdx : ∀ t, Fintype (Idx t)]
  [decIdx : ∀ t, DecidableEq (Idx t)]
  /-- `TangentSize` -/
  dim : Ty → ℕ
  /-- position of a coordinate in the tangent vector -/
  enum : ∀ t, Idx t ≃ Fin (dim t)
  /-- stored values -/
  Val : Ty → Type
  /-- unary operators -/
  Un : Ty → Ty → Type
  /-- binary operators -/
  Bin : Ty → Ty → Ty → Type
  /-- the C++ template of a unary operator -/
  unTag : ∀ {a b}, Un a b → ℕ
  /-- the C++ template of a binary operator -/
  binTag : ∀ {a b c}, Bin a b c → ℕ
  evalU : ∀ {a b}, Un a b → Val a → Option (Val b)
  evalB : ∀ {a b c}, Bin a b c → Val a → Val b → Option (Val c)
  jacU : ∀ {a b}, Un a b → Val b → Val a → Option (Matrix (Idx b) (Idx a) ℝ)
  jacL : ∀ {a b c}, Bin a b c → Val c → Val a → Val b → Option (Matrix (Idx c) (Idx a) ℝ)
  jacR : ∀ {a b c}, Bin a b c → Val c → Val a → Val b → Option (Matrix (Idx c) (Idx b) ℝ)
  /-- `x + d` (box-plus on the manifold of the leaf class) -/
  boxPlus : ∀ t, Val t → (Idx t → ℝ) → Option (Val t)
  /-- `x - y` (box-minus) as a tangent vector -/
  boxMinus : ∀ t, Val t → Val t → Option (Idx t → ℝ)

attribute [instance] Lib.decTy Lib.finIdx Lib.decIdx

/-- A Jacobian block that may be non-finite (`none`). -/
def OMat (m n : Type) := Option (Matrix m n ℝ)

namespace OMat
variable {m n p : Type}

/-- Sum of blocks; non-finite entries propagate. -/
def add : OMat m n → OMat m n → OMat m n
  | some a, some b => some (a + b)
  | _, _ => none

/-- The zero block. -/
def zero : OMat m n := some 0

/-- Product of blocks; non-finite entries propagate. -/
def mul [Fintype n] : OMat m n → OMat n p → OMat m p
  | some a, some b => some (a * b)
  | _, _ => none

instance : Add (OMat m n) := ⟨add⟩
instance : Zero (OMat m n) := ⟨zero⟩

instance : AddCommMonoid (OMat m n) where
  add_assoc a b c := by
    rcases a with _ | a <;> rcases b with _ | b <;> rcases c with _ | c <;> first | rfl | skip
    exact congrArg some (add_assoc a b c)
  zero_add a := by
    rcases a with _ | a
    · rfl
    · exact congrArg some (zero_add a)
  add_zero a := by
    rcases a with _ | a
    · rfl
    · exact congrArg some (add_zero a)
  add_comm a b := by
    rcases a with _ | a <;> rcases b with _ | b <;> first | rfl | skip
    exact congrArg some (add_comm a b)
  nsmul := nsmulRec

end OMat

variable {L : Lib}

/-- Expression objects.  Every object has an address.  A leaf also has a static C++ type: its
class `τ` and `cls` (which distinguishes, e.g., framed types over the same class).  `proxy` is a
`Proxy`/`RefProxy` handle: `a` is the address of the `Dynamic` node it points to and `e` the
expression wrapped by that node (dynamic/Proxy.hpp, Dynamic.hpp). -/
inductive Expr (L : Lib) : L.Ty → Type
  | leaf (a cls : ℕ) (τ : L.Ty) : Expr L τ
  | un {α β : L.Ty} (a : ℕ) (op : L.Un α β) (e : Expr L α) : Expr L β
  | bin {α β γ : L.Ty} (a : ℕ) (op : L.Bin α β γ) (l : Expr L α) (r : Expr L β) : Expr L γ
  | proxy {τ : L.Ty} (a : ℕ) (e : Expr L τ) : Expr L τ

/-- Contents of memory: the value stored at an address, for each leaf class. -/
def Store (L : Lib) := ℕ → (τ : L.Ty) → L.Val τ

/-- Assign to the object of class `τ` at address `a`. -/
def Store.set (s : Store L) (a : ℕ) (τ : L.Ty) (v : L.Val τ) : Store L := fun b σ =>
  if h : b = a ∧ τ = σ then h.2 ▸ v else s b σ

/-- The object a derivative is taken with respect to: a leaf object with its static type. -/
structure Target (L : Lib) where
  addr : ℕ
  cls : ℕ
  ty : L.Ty

/-- The `Evaluator` objects of core/functions/Evaluator.hpp: one per node, holding the value
computed by its constructor (leaf 28-43, unary 60-79, binary 82-105; for a proxy: Proxy.hpp:95-110
and the evaluator cached by the `Dynamic` node, Dynamic.hpp:39-62). -/
inductive ETree (L : Lib) : L.Ty → Type
  | leaf (a cls : ℕ) (τ : L.Ty) (v : L.Val τ) : ETree L τ
  | un {α β : L.Ty} (a : ℕ) (op : L.Un α β) (e : ETree L α) (v : Option (L.Val β)) : ETree L β
  | bin {α β γ : L.Ty} (a : ℕ) (op : L.Bin α β γ) (l : ETree L α) (r : ETree L β)
      (v : Option (L.Val γ)) : ETree L γ
  | proxy {τ : L.Ty} (a : ℕ) (e : ETree L τ) : ETree L τ

/-- `evaluator()`: the cached result (Evaluator.hpp:36-38, 71-73, 96-98). -/
def ETree.val : {τ : L.Ty} → ETree L τ → Option (L.Val τ)
  | _, .leaf _ _ _ v => some v
  | _, .un _ _ _ v => v
  | _, .bin _ _ _ _ v => v
  | _, .proxy _ e => e.val

/-- Construction of the evaluator tree (the forward sweep): Evaluator.hpp:33-34, 66-69, 89-94. -/
def ETree.mk (s : Store L) : {τ : L.Ty} → Expr L τ → ETree L τ
  | _, .leaf a c τ => .leaf a c τ (s a τ)
  | _, .un a op e =>
    let c := ETree.mk s e
    .un a op c (c.val.bind (L.evalU op))
  | _, .bin a op l r =>
    let cl := ETree.mk s l
    let cr := ETree.mk s r
    .bin a op cl cr (cl.val.bind fun x => cr.val.bind fun y => L.evalB op x y)
  | _, .proxy a e => .proxy a (ETree.mk s e)

/-- `eval()`: PrepareOutput.hpp:92-99, ExpressionBase.hpp:42-52. -/
def Expr.eval (s : Store L) {τ : L.Ty} (e : Expr L τ) : Option (L.Val τ) := (ETree.mk s e).val

/-- Local Jacobian of a unary node from the cached values. -/
def nodeJac {α β : L.Ty} (op : L.Un α β) (v : Option (L.Val β)) (x : Option (L.Val α)) :
    OMat (L.Idx β) (L.Idx α) :=
  v.bind fun v => x.bind fun x => L.jacU op v x
/-- Left local Jacobian of a binary node from the cached values. -/
def nodeJacL {α β γ : L.Ty} (op : L.Bin α β γ) (v : Option (L.Val γ)) (x : Option (L.Val α))
    (y : Option (L.Val β)) : OMat (L.Idx γ) (L.Idx α) :=
  v.bind fun v => x.bind fun x => y.bind fun y => L.jacL op v x y
/-- Right local Jacobian of a binary node from the cached values. -/
def nodeJacR {α β γ : L.Ty} (op : L.Bin α β γ) (v : Option (L.Val γ)) (x : Option (L.Val α))
    (y : Option (L.Val β)) : OMat (L.Idx γ) (L.Idx β) :=
  v.bind fun v => x.bind fun x => y.bind fun y => L.jacR op v x y

/-- `identity_t<Derived>` seen as a block towards an equal type. -/
def idBlock {τ σ : L.Ty} (h : τ = σ) : OMat (L.Idx τ) (L.Idx σ) :=
  some (h ▸ (1 : Matrix (L.Idx τ) (L.Idx τ) ℝ))

/-- `contains_same_type<A, B>` for a leaf target (IsSameType.hpp:47-59).  Not specialised for
proxies: see `Expr.fwdCompiles`. -/
def ETree.hasType (t : Target L) : {τ : L.Ty} → ETree L τ → Bool
  | _, .leaf _ c τ _ => τ = t.ty && c = t.cls
  | _, .un _ _ e _ => e.hasType t
  | _, .bin _ _ l r _ => l.hasType t || r.hasType t
  | _, .proxy _ _ => false

/-- `contains_same_type` on the expression. -/
def Expr.hasType (t : Target L) : {τ : L.Ty} → Expr L τ → Bool
  | _, .leaf _ c τ => τ = t.ty && c = t.cls
  | _, .un _ _ e => e.hasType t
  | _, .bin _ _ l r => l.hasType t || r.hasType t
  | _, .proxy _ _ => false

/-- `DynamicJacobianEvaluator` (DynamicJacobianEvaluator.hpp): targets known by address only; leaf
22-50, unary 53-95, binary 98-171; proxies Proxy.hpp:112-137.  Outer `none` is the size-0 matrix
(zero).  A node whose address matches gives an identity; if its tangent size is not that of the
target the later fixed-size conversion fails, modelled as a non-finite block. -/
def ETree.dyn (t : ℕ) (σ : L.Ty) :
    {τ : L.Ty} → ETree L τ → Option (OMat (L.Idx τ) (L.Idx σ))
  | _, .leaf a _ τ _ => if a = t then (if h : τ = σ then some (idBlock h) else some none) else none
  | β, .un a op e v =>
    if a = t then (if h : β = σ then some (idBlock h) else some none)
    else match e.dyn t σ with
      | some J => some ((nodeJac op v e.val).mul J)
      | none => none
  | γ, .bin a op l r v =>
    if a = t then (if h : γ = σ then some (idBlock h) else some none)
    else match l.dyn t σ, r.dyn t σ with
      | some J, some K =>
        some ((nodeJacL op v l.val r.val).mul J + (nodeJacR op v l.val r.val).mul K)
      | some J, none => some ((nodeJacL op v l.val r.val).mul J)
      | none, some K => some ((nodeJacR op v l.val r.val).mul K)
      | none, none => none
  | τ, .proxy a e =>
    if a = t then (if h : τ = σ then some (idBlock h) else some none) else e.dyn t σ

/-- `JacobianEvaluator` (JacobianEvaluator.hpp): leaf of the target's type 35-64 (identity iff
same object), other leaf 67-81, unary 85-115, binary with both / left / right side containing the
type 118-248; a proxy asks the dynamic node (Proxy.hpp:140-168).  Outer `none` is `boost::none`. -/
def ETree.fwd (t : Target L) : {τ : L.Ty} → ETree L τ → Option (OMat (L.Idx τ) (L.Idx t.ty))
  | _, .leaf a c τ _ =>
    if h : τ = t.ty ∧ c = t.cls then (if a = t.addr then some (idBlock h.1) else none) else none
  | _, .un _ op e v =>
    match e.fwd t with
    | some J => some ((nodeJac op v e.val).mul J)
    | none => none
  | _, .bin _ op l r v =>
    if l.hasType t && r.hasType t then
      match l.fwd t, r.fwd t with
      | some J, some K =>
        some ((nodeJacL op v l.val r.val).mul J + (nodeJacR op v l.val r.val).mul K)
      | some J, none => some ((nodeJacL op v l.val r.val).mul J)
      | none, some K => some ((nodeJacR op v l.val r.val).mul K)
      | none, none => none
    else if l.hasType t then
      match l.fwd t with
      | some J => some ((nodeJacL op v l.val r.val).mul J)
      | none => none
    else if r.hasType t then
      match r.fwd t with
      | some K => some ((nodeJacR op v l.val r.val).mul K)
      | none => none
    else none  -- no specialisation: rejected by the compiler, see `Expr.fwdCompiles`
  | τ, .proxy a e =>
    if a = t.addr then (if h : τ = t.ty then some (idBlock h) else some none)
    else e.dyn t.addr t.ty

/-- Does `JacobianEvaluator<Expr, Target>` compile: every binary node reached must have the target
type on some side, and `contains_same_type` must be defined for its operands (it is not for
proxies). -/
def Expr.noProxy : {τ : L.Ty} → Expr L τ → Bool
  | _, .leaf _ _ _ => true
  | _, .un _ _ e => e.noProxy
  | _, .bin _ _ l r => l.noProxy && r.noProxy
  | _, .proxy _ _ => false

/-- See `Expr.noProxy`. -/
def Expr.fwdCompiles (t : Target L) : {τ : L.Ty} → Expr L τ → Bool
  | _, .leaf _ _ _ => true
  | _, .un _ _ e => e.fwdCompiles t
  | _, .bin _ _ l r => l.noProxy && r.noProxy && (l.hasType t || r.hasType t)
  | _, .proxy _ _ => true

/-- The zero fixed-size matrix returned for `boost::none` (JacobianEvaluator.hpp:333-343,
DynamicJacobianEvaluator.hpp:262-276). -/
def orZero {m n : Type} (o : Option (OMat m n)) : OMat m n := o.getD 0

/-- `evaluateOneJacobian`: JacobianEvaluator.hpp:333-343. -/
def ETree.jacobian (t : Target L) {τ : L.Ty} (v : ETree L τ) : OMat (L.Idx τ) (L.Idx t.ty) :=
  orZero (v.fwd t)

/-- `evaluateJacobian`: JacobianEvaluator.hpp:350-357. -/
def Expr.jacobian (s : Store L) (t : Target L) {τ : L.Ty} (e : Expr L τ) :
    OMat (L.Idx τ) (L.Idx t.ty) := (ETree.mk s e).jacobian t

/-- `evaluateDynamicJacobian`: DynamicJacobianEvaluator.hpp:262-290. -/
def Expr.dynJacobian (s : Store L) (a : ℕ) (σ : L.Ty) {τ : L.Ty} (e : Expr L τ) :
    OMat (L.Idx τ) (L.Idx σ) := orZero ((ETree.mk s e).dyn a σ)

/-- `TypedJacobianEvaluator` (TypedJacobianEvaluator.hpp): same type 19-39, unary 42-83, binary
with both / left / right side containing the type 86-247.  Only instantiated on trees containing
the target type; other cases return the value the model needs to be total. -/
def ETree.typed (t : Target L) : {τ : L.Ty} → ETree L τ → OMat (L.Idx τ) (L.Idx t.ty)
  | _, .leaf _ c τ _ => if h : τ = t.ty ∧ c = t.cls then idBlock h.1 else 0
  | _, .un _ op e v => (nodeJac op v e.val).mul (e.typed t)
  | _, .bin _ op l r v =>
    if l.hasType t && r.hasType t then
      (nodeJacL op v l.val r.val).mul (l.typed t) + (nodeJacR op v l.val r.val).mul (r.typed t)
    else if l.hasType t then (nodeJacL op v l.val r.val).mul (l.typed t)
    else if r.hasType t then (nodeJacR op v l.val r.val).mul (r.typed t)
    else 0
  | _, .proxy _ _ => 0

/-- `evaluateTypedJacobian` in a release build (the assertion of line 260 is compiled out):
TypedJacobianEvaluator.hpp:254-278. -/
def Expr.typedJacobian (s : Store L) (t : Target L) {τ : L.Ty} (e : Expr L τ) :
    OMat (L.Idx τ) (L.Idx t.ty) :=
  if e.hasType t then (ETree.mk s e).typed t else 0

/-- `tmp::find` (type_list.hpp:171-193): first index of a type in a list, -1 if absent. -/
def tfind {T : Type} [DecidableEq T] : List T → T → ℤ → ℤ
  | [], _, _ => -1
  | x :: xs, y, i => if x = y then i else tfind xs y (i + 1)

/-- `tmp::concat_if_unique` (type_list.hpp:201-213); `none` is `false_type`. -/
def concatIfUnique {T : Type} [DecidableEq T] (as : List T) : List T → Option (List T)
  | [] => some as
  | b :: bs => if tfind as b 0 ≥ 0 then none else concatIfUnique (as ++ [b]) bs

/-- The `UniqueLeaves` trait (type_traits.hpp:407-434; proxies: Proxy.hpp:216-226): the list of leaf
types, or `none` for `false_type`. -/
def Expr.uniqueList : {τ : L.Ty} → Expr L τ → Option (List (L.Ty × ℕ))
  | _, .leaf _ c τ => some [(τ, c)]
  | _, .un _ _ e => e.uniqueList
  | _, .bin _ _ l r =>
    match l.uniqueList, r.uniqueList with
    | some a, some b => concatIfUnique a b
    | _, _ => none
  | _, .proxy _ _ => none

/-- `unique_leaves_t<Expr>::value`. -/
def Expr.uniqueLeaves {τ : L.Ty} (e : Expr L τ) : Bool := e.uniqueList.isSome

/-- `tmp::concat_if_unique_many` (type_list.hpp:228-249) for one or more elements, given their
`UniqueLeaves` (`none` is `false_type`).  The outer `none` is a compile error: with a third list
following, `concat_if_unique<typename U1::type, typename U2::type>` is instantiated without first
looking at `U1::value && U2::value`, and has no definition for `false_type`. -/
def concatMany {T : Type} [DecidableEq T] :
    Option (List T) → List (Option (List T)) → Option (Option (List T))
  | u, [] => some u
  | some a, [some b] => some (concatIfUnique a b)
  | _, [_] => some none
  | some a, some b :: v :: us =>
    match concatIfUnique a b with
    | some ab => concatMany (some ab) (v :: us)
    | none => some none
  | _, _ :: _ :: _ => none

/-- The leaf objects in reading order, following proxies: `getLeaves`
(DynamicReverseJacobianEvaluator.hpp:31-45, Proxy.hpp:240-255). -/
def Expr.leaves : {τ : L.Ty} → Expr L τ → List (Target L)
  | _, .leaf a c τ => [⟨a, c, τ⟩]
  | _, .un _ _ e => e.leaves
  | _, .bin _ _ l r => l.leaves ++ r.leaves
  | _, .proxy _ e => e.leaves

/-- A Jacobian block together with the class of its column space. -/
abbrev Block (L : Lib) (ρ : L.Ty) := (σ : L.Ty) × OMat (L.Idx ρ) (L.Idx σ)

/-- `ReverseJacobianEvaluator` (ReverseJacobianEvaluator.hpp): leaf 26-42, unary 45-82, binary
85-143.  Not available for proxies (the tree must have unique leaf types). -/
def ETree.rev {ρ : L.Ty} : {τ : L.Ty} → ETree L τ → OMat (L.Idx ρ) (L.Idx τ) → List (Block L ρ)
  | τ, .leaf _ _ _ _, adj => [⟨τ, adj⟩]
  | _, .un _ op e v, adj => e.rev (adj.mul (nodeJac op v e.val))
  | _, .bin _ op l r v, adj =>
    l.rev (adj.mul (nodeJacL op v l.val r.val)) ++ r.rev (adj.mul (nodeJacR op v l.val r.val))
  | _, .proxy _ e, adj => e.rev adj

/-- `evaluateWithReverseJacobians`: ReverseJacobianEvaluator.hpp:200-247. -/
def Expr.reverse (s : Store L) {τ : L.Ty} (e : Expr L τ) :
    Option (L.Val τ) × List (Block L τ) :=
  let v := ETree.mk s e
  (v.val, v.rev (idBlock rfl))

/-- `DynamicReverseJacobianEvaluator` (DynamicReverseJacobianEvaluator.hpp:73-195, Proxy.hpp:171-180):
the sequence of `jac_map[address] += adjoint` operations it performs, in order. -/
def ETree.dynRev {ρ : L.Ty} :
    {τ : L.Ty} → ETree L τ → OMat (L.Idx ρ) (L.Idx τ) → List (ℕ × Block L ρ)
  | τ, .leaf a _ _ _, adj => [(a, ⟨τ, adj⟩)]
  | _, .un _ op e v, adj => e.dynRev (adj.mul (nodeJac op v e.val))
  | _, .bin _ op l r v, adj =>
    l.dynRev (adj.mul (nodeJacL op v l.val r.val)) ++
      r.dynRev (adj.mul (nodeJacR op v l.val r.val))
  | _, .proxy _ e, adj => e.dynRev adj

/-- `expr.jacobian(x)`: ExpressionBase.hpp:55-60 → TypedJacobianEvaluator.hpp:310-328. -/
def Expr.jacobianAuto (s : Store L) (t : Target L) {τ : L.Ty} (e : Expr L τ) :
    OMat (L.Idx τ) (L.Idx t.ty) :=
  if e.uniqueLeaves then e.typedJacobian s t else e.jacobian s t

/-- `containsSame(expr, leaf)` (IsSame.hpp:86-110): a leaf of the target's type is compared by
address, other leaves are skipped.  Not defined for proxies. -/
def Expr.containsSame (t : Target L) : {τ : L.Ty} → Expr L τ → Bool
  | _, .leaf a c τ => if τ = t.ty ∧ c = t.cls then a = t.addr else false
  | _, .un _ _ e => e.containsSame t
  | _, .bin _ _ l r => l.containsSame t || r.containsSame t
  | _, .proxy _ _ => false

/-- `expr.jacobian(x)` in a debug build; `none` is the failed assertion
`assert(containsSame(expr, target))` (TypedJacobianEvaluator.hpp:260), which is only reached when
the target's type occurs in a tree with unique leaf types. -/
def Expr.jacobianDebug (s : Store L) (t : Target L) {τ : L.Ty} (e : Expr L τ) :
    Option (OMat (L.Idx τ) (L.Idx t.ty)) :=
  if e.uniqueLeaves && e.hasType t && !e.containsSame t then none else some (e.jacobianAuto s t)

/-- `ETree.mk` with a log of the operator applications (`evalImpl` calls) made by the constructors,
in order, each recorded by the address of its expression node. -/
def ETree.mkLog (s : Store L) : {τ : L.Ty} → Expr L τ → ETree L τ × List ℕ
  | _, .leaf a c τ => (.leaf a c τ (s a τ), [])
  | _, .un a op e =>
    let (c, log) := ETree.mkLog s e
    (.un a op c (c.val.bind (L.evalU op)), log ++ [a])
  | _, .bin a op l r =>
    let (cl, logl) := ETree.mkLog s l
    let (cr, logr) := ETree.mkLog s r
    (.bin a op cl cr (cl.val.bind fun x => cr.val.bind fun y => L.evalB op x y), logl ++ logr ++ [a])
  | _, .proxy a e =>
    let (c, log) := ETree.mkLog s e
    (.proxy a c, log)

/-- `expr.evalWithJacobians(x...)`, with the log of `evalImpl` calls: ExpressionBase.hpp:74-78 →
TypedJacobianEvaluator.hpp:281-301 (no assertion; rejected when a target's type does not occur) or
JacobianEvaluator.hpp:365-374.  One evaluator tree is built and shared by all Jacobian evaluators.
`none` is a compile error. -/
def Expr.evalWithJacobiansLog (s : Store L) {τ : L.Ty} (e : Expr L τ) (ts : List (Target L)) :
    Option ((Option (L.Val τ) × List (Block L τ)) × List ℕ) :=
  let (v, log) := ETree.mkLog s e
  if e.uniqueLeaves then
    if ts.all fun t => e.hasType t then
      some ((v.val, ts.map fun t => ⟨t.ty, v.typed t⟩), log) else none
  else
    if ts.all fun t => e.fwdCompiles t then
      some ((v.val, ts.map fun t => ⟨t.ty, v.jacobian t⟩), log) else none

/-- The results of `expr.evalWithJacobians(x...)`. -/
def Expr.evalWithJacobians (s : Store L) {τ : L.Ty} (e : Expr L τ) (ts : List (Target L)) :
    Option (Option (L.Val τ) × List (Block L τ)) := (e.evalWithJacobiansLog s ts).map (·.1)

/-- `EvaluatorWithDelta` (NumericalJacobian.hpp:65-83, 99-172; Proxy.hpp:183-212): evaluate, adding
`d` to the value of every node whose address is the target's.  For a proxy the test compares the
address of the `Dynamic` node it points to, after the inner evaluation has applied the offset. -/
def Expr.evalDelta (s : Store L) (t : ℕ) (σ : L.Ty) (d : L.Idx σ → ℝ) :
    {τ : L.Ty} → Expr L τ → Option (L.Val τ)
  | _, .leaf a _ τ => bump a τ (some (s a τ))
  | β, .un a op e => bump a β ((e.evalDelta s t σ d).bind (L.evalU op))
  | γ, .bin a op l r => bump a γ ((l.evalDelta s t σ d).bind fun x =>
      (r.evalDelta s t σ d).bind fun y => L.evalB op x y)
  | τ, .proxy a e => bump a τ (e.evalDelta s t σ d)
where
  /-- `evaluateWithDeltaImpl`: NumericalJacobian.hpp:65-83. -/
  bump (a : ℕ) (τ : L.Ty) (v : Option (L.Val τ)) : Option (L.Val τ) :=
    if a = t then (if h : σ = τ then v.bind fun x => L.boxPlus τ x (h ▸ d) else none) else v

/-- The unit offset of one coordinate. -/
def coordStep {I : Type} [DecidableEq I] (j : I) (δ : ℝ) : I → ℝ := fun i => if i = j then δ else 0

/-- One column of `evaluateNumericalJacobian`: NumericalJacobian.hpp:238-248. -/
noncomputable def Expr.numColumn (s : Store L) (t : ℕ) (σ : L.Ty) (δ : ℝ) {τ : L.Ty} (e : Expr L τ)
    (j : L.Idx σ) : Option (L.Idx τ → ℝ) :=
  (e.evalDelta s t σ (coordStep j δ)).bind fun fwdVal => (e.eval s).bind fun val =>
    (L.boxMinus τ fwdVal val).bind fun diff => if δ = 0 then none else some fun i => diff i / δ

end WG
