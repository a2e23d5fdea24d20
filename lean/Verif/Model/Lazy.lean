import Verif.Model.Compound
import Verif.Model.Geo

/-!
# Unevaluated Eigen expressions held by evaluators

Some `evalImpl` overloads do not compute their result: they return a leaf wrapping an Eigen
expression, which refers to the operand's storage inside the evaluator tree.  Eigen nests a plain
matrix in an expression by reference, and an expression (or a scalar) by value.  This file adds to
the evaluators of Model/Expr.lean the place where each result is stored and the references held by
such expressions, so that reading through a reference to a destroyed object is a distinct outcome.
-/

namespace WG
open Matrix

/-- How the result of a unary `evalImpl` is stored. -/
inductive UnMode
  /-- computed -/
  | eager
  /-- an Eigen expression over the operand -/
  | nest
  /-- a copy of the operand's result object (`Tag = leaf`) -/
  | pass
  deriving DecidableEq

/-- How the result of a binary `evalImpl` is stored. -/
inductive BinMode
  /-- computed -/
  | eager
  /-- an Eigen expression over the left operand and a copy of the (scalar) right one -/
  | left
  /-- an Eigen expression over a copy of the (scalar) left operand and the right one -/
  | right
  deriving DecidableEq

/-- What the overloads of a signature return and read: for each operator the mode of `evalImpl`, and
which of (result, operand) `jacobianImpl`, resp. of (result, left, right) `leftJacobianImpl` and
`rightJacobianImpl`, read. -/
structure Laziness (L : Lib) where
  un : ∀ {a b : L.Ty}, L.Un a b → UnMode
  bin : ∀ {a b c : L.Ty}, L.Bin a b c → BinMode
  readU : ∀ {a b : L.Ty}, L.Un a b → Bool × Bool
  readL : ∀ {a b c : L.Ty}, L.Bin a b c → Bool × Bool × Bool
  readR : ∀ {a b c : L.Ty}, L.Bin a b c → Bool × Bool × Bool

/-- The place of a result: `obj` numbers the evaluator objects made, `path` leads from the root of
that object to the member, `heap` tells the evaluators cached by the `Dynamic` nodes (which outlive
the call) from the automatic ones.  Simplification: one cached evaluator per proxy occurrence (the
sharing is the subject of Model/DynCache.lean). -/
structure Loc where
  heap : Bool
  obj : ℕ
  path : List ℕ
  deriving DecidableEq

variable {L : Lib}

/-- The plain matrices alive, by place; `none`: there is none at that place. -/
abbrev EMem (L : Lib) := Loc → Option ((τ : L.Ty) × Option (L.Val τ))

/-- An Eigen expression. -/
inductive Lz (L : Lib) : L.Ty → Type
  /-- a plain matrix, nested by reference -/
  | ref {τ : L.Ty} (l : Loc) : Lz L τ
  /-- a scalar, nested by value -/
  | copy {τ : L.Ty} (v : Option (L.Val τ)) : Lz L τ
  | un {α β : L.Ty} (op : L.Un α β) (x : Lz L α) : Lz L β
  | bin {α β γ : L.Ty} (op : L.Bin α β γ) (x : Lz L α) (y : Lz L β) : Lz L γ

/-- Compute the coefficients of an Eigen expression.  `none`: undefined behaviour, a reference to an
object that is not alive. -/
def Lz.force (m : EMem L) : {τ : L.Ty} → Lz L τ → Option (Option (L.Val τ))
  | τ, .ref l =>
    match m l with
    | some ⟨σ, v⟩ => if h : σ = τ then some (h ▸ v) else none
    | none => none
  | _, .copy v => some v
  | _, .un op x =>
    match x.force m with
    | some v => some (v.bind (L.evalU op))
    | none => none
  | _, .bin op x y =>
    match x.force m, y.force m with
    | some v, some w => some (v.bind fun v => w.bind fun w => L.evalB op v w)
    | _, _ => none

/-- The member `result` of an evaluator: Evaluator.hpp:41-42, 78, 103. -/
inductive Slot (L : Lib) (τ : L.Ty)
  | plain (v : Option (L.Val τ))
  | expr (z : Lz L τ)

/-- Read the coefficients of a result. -/
def Slot.force (m : EMem L) {τ : L.Ty} : Slot L τ → Option (Option (L.Val τ))
  | .plain v => some v
  | .expr z => z.force m

/-- The operand as nested in a new Eigen expression (Eigen's `ref_selector`), `l` being the place
where it is stored. -/
def Slot.nested {τ : L.Ty} (l : Loc) : Slot L τ → Lz L τ
  | .plain _ => .ref l
  | .expr z => z

/-- The member `result` being constructed at `l`. -/
def EMem.put (m : EMem L) (l : Loc) {τ : L.Ty} (r : Slot L τ) : EMem L := fun l' =>
  if l' = l then
    match r with
    | .plain v => some ⟨τ, v⟩
    | .expr _ => none
  else m l'

/-- Destruction of the automatic evaluator object `n`. -/
def EMem.kill (m : EMem L) (n : ℕ) : EMem L := fun l =>
  if l.heap = false ∧ l.obj = n then none else m l

/-- `evalImpl` of a unary operator on the operand result `x` stored at `l`: VectorBase.hpp:96-125,
MatrixRotation.hpp:58-61, LeafStorage.hpp:80-84, frame_cast.hpp:107-112.  `none`: undefined
behaviour. -/
def unRes (Z : Laziness L) (m : EMem L) (l : Loc) {α β : L.Ty} (op : L.Un α β) (x : Slot L α) :
    Option (Slot L β) :=
  match Z.un op, x with
  | .eager, x =>
    match x.force m with
    | some v => some (.plain (v.bind (L.evalU op)))
    | none => none
  | .nest, x => some (.expr (.un op (x.nested l)))
  | .pass, .plain v => some (.plain (v.bind (L.evalU op)))
  | .pass, .expr z => some (.expr (.un op z))

/-- `evalImpl` of a binary operator: VectorBase.hpp:188-198, 235-238. -/
def binRes (Z : Laziness L) (m : EMem L) (lx ly : Loc) {α β γ : L.Ty} (op : L.Bin α β γ)
    (x : Slot L α) (y : Slot L β) : Option (Slot L γ) :=
  match Z.bin op with
  | .eager =>
    match x.force m, y.force m with
    | some v, some w => some (.plain (v.bind fun v => w.bind fun w => L.evalB op v w))
    | _, _ => none
  | .left =>
    match y.force m with
    | some w => some (.expr (.bin op (x.nested lx) (.copy w)))
    | none => none
  | .right =>
    match x.force m with
    | some v => some (.expr (.bin op (.copy v) (y.nested ly)))
    | none => none

/-- Evaluator objects with their `result` members.  The last component of a node (`den`) is not part
of the object: it is the value that the result stands for at the time of construction, used below
for the arguments a Jacobian overload does not read. -/
inductive LTree (L : Lib) : L.Ty → Type
  | leaf (a cls : ℕ) (τ : L.Ty) (v : L.Val τ) : LTree L τ
  | un {α β : L.Ty} (a : ℕ) (op : L.Un α β) (e : LTree L α) (r : Slot L β) (den : Option (L.Val β)) :
      LTree L β
  | bin {α β γ : L.Ty} (a : ℕ) (op : L.Bin α β γ) (l : LTree L α) (r : LTree L β) (res : Slot L γ)
      (den : Option (L.Val γ)) : LTree L γ
  | proxy {τ : L.Ty} (a : ℕ) (e : LTree L τ) (v : Option (L.Val τ)) : LTree L τ

/-- `evaluator()`. -/
def LTree.res : {τ : L.Ty} → LTree L τ → Slot L τ
  | _, .leaf _ _ _ v => .plain (some v)
  | _, .un _ _ _ r _ => r
  | _, .bin _ _ _ _ r _ => r
  | _, .proxy _ _ v => .plain v

/-- See `LTree`. -/
def LTree.den : {τ : L.Ty} → LTree L τ → Option (L.Val τ)
  | _, .leaf _ _ _ v => some v
  | _, .un _ _ _ _ d => d
  | _, .bin _ _ _ _ _ d => d
  | _, .proxy _ _ v => v

/-- Construction of the evaluator of `e` in place, as the member at path `p` of object `n`:
Evaluator.hpp:33-34, 66-69, 89-94.  The child evaluators are members constructed in place.  A proxy
makes the dynamic node construct its own cached evaluator and keeps the returned plain value
(Dynamic.hpp:44-62, Proxy.hpp:95-110).  `none`: undefined behaviour. -/
def LTree.build (Z : Laziness L) (s : Store L) :
    {τ : L.Ty} → (h : Bool) → (n : ℕ) → (p : List ℕ) → Expr L τ → EMem L → Option (LTree L τ × EMem L)
  | _, h, n, p, .leaf a c τ, m =>
    some (.leaf a c τ (s a τ), m.put ⟨h, n, p⟩ (.plain (some (s a τ)) : Slot L τ))
  | _, h, n, p, .un a op e, m =>
    match LTree.build Z s h n (0 :: p) e m with
    | none => none
    | some (x, m) =>
      match unRes Z m ⟨h, n, 0 :: p⟩ op x.res with
      | none => none
      | some r => some (.un a op x r (x.den.bind (L.evalU op)), m.put ⟨h, n, p⟩ r)
  | _, h, n, p, .bin a op l r, m =>
    match LTree.build Z s h n (0 :: p) l m with
    | none => none
    | some (x, m) =>
      match LTree.build Z s h n (1 :: p) r m with
      | none => none
      | some (y, m) =>
        match binRes Z m ⟨h, n, 0 :: p⟩ ⟨h, n, 1 :: p⟩ op x.res y.res with
        | none => none
        | some res => some (.bin a op x y res (x.den.bind fun v => y.den.bind fun w => L.evalB op v w),
            m.put ⟨h, n, p⟩ res)
  | τ, h, n, p, .proxy a e, m =>
    match LTree.build Z s true n (2 :: p) e m with
    | none => none
    | some (x, m) =>
      match x.res.force m with
      | none => none
      | some v => some (.proxy a x v, m.put ⟨h, n, p⟩ (.plain v : Slot L τ))

/-- The evaluator without the places: as in Model/Expr.lean. -/
def LTree.erase : {τ : L.Ty} → LTree L τ → ETree L τ
  | _, .leaf a c τ v => .leaf a c τ v
  | _, .un a op e _ d => .un a op e.erase d
  | _, .bin a op l r _ d => .bin a op l.erase r.erase d
  | _, .proxy a e _ => .proxy a e.erase

/-- All results read in the memory `m`; `none`: undefined behaviour. -/
def LTree.observe (m : EMem L) : {τ : L.Ty} → LTree L τ → Option (ETree L τ)
  | _, .leaf a c τ v => some (.leaf a c τ v)
  | _, .un a op e r _ =>
    match e.observe m, r.force m with
    | some e, some v => some (.un a op e v)
    | _, _ => none
  | _, .bin a op l r res _ =>
    match l.observe m, r.observe m, res.force m with
    | some l, some r, some v => some (.bin a op l r v)
    | _, _, _ => none
  | _, .proxy a e _ =>
    match e.observe m with
    | some e => some (.proxy a e)
    | none => none

/-- An argument of a Jacobian overload: read if the overload reads it. -/
def argument (m : EMem L) (reads : Bool) {τ : L.Ty} (r : Slot L τ) (den : Option (L.Val τ)) :
    Option (Option (L.Val τ)) :=
  if reads then r.force m else some den

/-- `jacobianImpl(tag, evaluator(), evaluator.rhs_eval())`; `none`: undefined behaviour. -/
def unJac (Z : Laziness L) (m : EMem L) {α β : L.Ty} (op : L.Un α β) (e : LTree L α) (r : Slot L β)
    (den : Option (L.Val β)) : Option (OMat (L.Idx β) (L.Idx α)) :=
  match argument m (Z.readU op).1 r den, argument m (Z.readU op).2 e.res e.den with
  | some v, some x => some (nodeJac op v x)
  | _, _ => none

/-- `leftJacobianImpl(tag, evaluator(), evaluator.lhs_eval(), evaluator.rhs_eval())`. -/
def binJacL (Z : Laziness L) (m : EMem L) {α β γ : L.Ty} (op : L.Bin α β γ) (l : LTree L α)
    (r : LTree L β) (res : Slot L γ) (den : Option (L.Val γ)) : Option (OMat (L.Idx γ) (L.Idx α)) :=
  match argument m (Z.readL op).1 res den, argument m (Z.readL op).2.1 l.res l.den,
    argument m (Z.readL op).2.2 r.res r.den with
  | some v, some x, some y => some (nodeJacL op v x y)
  | _, _, _ => none

/-- `rightJacobianImpl(tag, evaluator(), evaluator.lhs_eval(), evaluator.rhs_eval())`. -/
def binJacR (Z : Laziness L) (m : EMem L) {α β γ : L.Ty} (op : L.Bin α β γ) (l : LTree L α)
    (r : LTree L β) (res : Slot L γ) (den : Option (L.Val γ)) : Option (OMat (L.Idx γ) (L.Idx β)) :=
  match argument m (Z.readR op).1 res den, argument m (Z.readR op).2.1 l.res l.den,
    argument m (Z.readR op).2.2 r.res r.den with
  | some v, some x, some y => some (nodeJacR op v x y)
  | _, _, _ => none

/-- A term of the chain rule: the node's Jacobian `J` is computed if the operand has a Jacobian `K`.
(outer `none`: undefined behaviour). -/
def chainTerm {m n p : Type} [Fintype n] (J : Option (OMat m n)) :
    Option (Option (OMat n p)) → Option (Option (OMat m p))
  | none => none
  | some none => some none
  | some (some K) =>
    match J with
    | some J => some (some (J.mul K))
    | none => none

/-- Sum of the terms of the two operands. -/
def sumTerms {m n : Type} :
    Option (Option (OMat m n)) → Option (Option (OMat m n)) → Option (Option (OMat m n))
  | some (some J), some (some K) => some (some (J + K))
  | some (some J), some none => some (some J)
  | some none, some (some K) => some (some K)
  | some none, some none => some none
  | _, _ => none

/-- `DynamicJacobianEvaluator` reading the results in the memory `m` (compare `ETree.dyn`).  The
outer `none`: undefined behaviour. -/
def LTree.dyn (Z : Laziness L) (m : EMem L) (t : ℕ) (σ : L.Ty) :
    {τ : L.Ty} → LTree L τ → Option (Option (OMat (L.Idx τ) (L.Idx σ)))
  | _, .leaf a c τ v => some ((ETree.leaf a c τ v).dyn t σ)
  | β, .un a op e r d =>
    if a = t then some (if h : β = σ then some (idBlock h) else some none)
    else chainTerm (unJac Z m op e r d) (e.dyn Z m t σ)
  | γ, .bin a op l r res d =>
    if a = t then some (if h : γ = σ then some (idBlock h) else some none)
    else sumTerms (chainTerm (binJacL Z m op l r res d) (l.dyn Z m t σ))
      (chainTerm (binJacR Z m op l r res d) (r.dyn Z m t σ))
  | τ, .proxy a e _ =>
    if a = t then some (if h : τ = σ then some (idBlock h) else some none) else e.dyn Z m t σ

/-- `JacobianEvaluator` reading the results in the memory `m` (compare `ETree.fwd`).  The outer
`none`: undefined behaviour. -/
def LTree.fwd (Z : Laziness L) (m : EMem L) (t : Target L) :
    {τ : L.Ty} → LTree L τ → Option (Option (OMat (L.Idx τ) (L.Idx t.ty)))
  | _, .leaf a c τ v => some ((ETree.leaf a c τ v).fwd t)
  | _, .un _ op e r d => chainTerm (unJac Z m op e r d) (e.fwd Z m t)
  | _, .bin _ op l r res d =>
    if l.erase.hasType t && r.erase.hasType t then
      sumTerms (chainTerm (binJacL Z m op l r res d) (l.fwd Z m t))
        (chainTerm (binJacR Z m op l r res d) (r.fwd Z m t))
    else if l.erase.hasType t then chainTerm (binJacL Z m op l r res d) (l.fwd Z m t)
    else if r.erase.hasType t then chainTerm (binJacR Z m op l r res d) (r.fwd Z m t)
    else some none
  | τ, .proxy a e _ =>
    if a = t.addr then some (if h : τ = t.ty then some (idBlock h) else some none)
    else e.dyn Z m t.addr t.ty

/-- Outcome of a library call. -/
inductive Run (α : Type)
  /-- it returns -/
  | ok (a : α)
  /-- the compiler rejects it -/
  | rejected
  /-- undefined behaviour -/
  | ub

/-! ## Evaluators of other expressions

The evaluator is the automatic variable `v_eval` of the calls below.  It is returned by
`prepareEvaluator` as a temporary (PrepareOutput.hpp:16-29, 43-49, 60-77); as all compilers do, these
temporaries are taken to be constructed in the variable (copy elision, which C++14 permits but does
not require). -/

/-- `eval()`: PrepareOutput.hpp:92-99.  The coefficients are copied into the plain result. -/
def Expr.evalRun (Z : Laziness L) (s : Store L) {τ : L.Ty} (e : Expr L τ) : Run (Option (L.Val τ)) :=
  match LTree.build Z s false 0 [] e fun _ => none with
  | none => .ub
  | some (x, m) =>
    match x.res.force m with
    | some v => .ok v
    | none => .ub

/-- `evaluateOneJacobian` on the evaluator of `e` (JacobianEvaluator.hpp:333-357), where it compiles. -/
def Expr.fwdRun (Z : Laziness L) (s : Store L) (t : Target L) {τ : L.Ty} (e : Expr L τ) :
    Run (Option (OMat (L.Idx τ) (L.Idx t.ty))) :=
  match LTree.build Z s false 0 [] e fun _ => none with
  | none => .ub
  | some (x, m) =>
    match x.fwd Z m t with
    | some J => .ok J
    | none => .ub

/-- `evaluateOneDynamicJacobianRaw` on the evaluator of `e` (DynamicJacobianEvaluator.hpp:250-290). -/
def Expr.dynRun (Z : Laziness L) (s : Store L) (t : ℕ) (σ : L.Ty) {τ : L.Ty} (e : Expr L τ) :
    Run (Option (OMat (L.Idx τ) (L.Idx σ))) :=
  match LTree.build Z s false 0 [] e fun _ => none with
  | none => .ub
  | some (x, m) =>
    match x.dyn Z m t σ with
    | some J => .ok J
    | none => .ub

/-! ## Evaluators of compounds -/

/-- The temporaries `Evaluator<...>{nary.get<Is>()}...` of `expandToChildEvalTuple`
(Evaluator.hpp:115-123), one automatic object per element, numbered from `n`. -/
def buildAll (Z : Laziness L) (s : Store L) :
    ℕ → Compound L → EMem L → Option (List ((τ : L.Ty) × LTree L τ) × EMem L)
  | _, [], m => some ([], m)
  | n, e :: es, m =>
    match LTree.build Z s false n [] e.2 m with
    | none => none
    | some (x, m) =>
      match buildAll Z s (n + 1) es m with
      | none => none
      | some (xs, m) => some (⟨e.1, x⟩ :: xs, m)

/-- Destruction of the temporaries numbered from `n`. -/
def killAll : ℕ → List ((τ : L.Ty) × LTree L τ) → EMem L → EMem L
  | _, [], m => m
  | n, _ :: xs, m => killAll (n + 1) xs (m.kill n)

/-- The children of an n-ary evaluator after its construction (Evaluator.hpp:115-123, 130-133): the
temporaries are copied into the tuple, member by member (an Eigen expression is copied with the
references it holds; nothing refers to the new place), and destroyed at the end of the statement. -/
def Compound.children (Z : Laziness L) (s : Store L) (c : Compound L) :
    Option (List ((τ : L.Ty) × LTree L τ) × EMem L) :=
  match buildAll Z s 0 c fun _ => none with
  | none => none
  | some (xs, m) => some (xs, killAll 0 xs m)

/-- The evaluated class of an expression wraps an Eigen expression instead of a plain matrix
(`traits<Expr>::EvalType`, traits_bases.hpp:135-142, 186-190; frame_cast.hpp:113). -/
def Expr.evalTypeLazy (Z : Laziness L) : {τ : L.Ty} → Expr L τ → Bool
  | _, .leaf _ _ _ => false
  | _, .un _ op e =>
    match Z.un op with
    | .eager => false
    | .nest => true
    | .pass => e.evalTypeLazy Z
  | _, .bin _ op _ _ =>
    match Z.bin op with
    | .eager => false
    | _ => true
  | _, .proxy _ _ => false

/-- `prepareEvaluatorTo<plain_output_t<Compound>>` compiles (PrepareOutput.hpp:37-76): the evaluated
type of the compound must be its plain type, since there is no `evalImpl(Convert, compound)`. -/
def Compound.plainOutput (Z : Laziness L) (c : Compound L) : Bool :=
  c.all fun e => !(e.2.evalTypeLazy Z)

/-- Read the results of the children. -/
def readValues (m : EMem L) : List ((τ : L.Ty) × LTree L τ) → Option (CVal L)
  | [] => some []
  | x :: xs =>
    match x.2.res.force m, readValues m xs with
    | some v, some vs => some (⟨x.1, v⟩ :: vs)
    | _, _ => none

/-- `eval()` of a compound: PrepareOutput.hpp:92-99, Evaluator.hpp:125-137. -/
def Compound.evalRun (Z : Laziness L) (s : Store L) (c : Compound L) : Run (CVal L) :=
  if c.plainOutput Z then
    match c.children Z s with
    | none => .ub
    | some (xs, m) =>
      match readValues m xs with
      | some v => .ok v
      | none => .ub
  else .rejected

/-- The Jacobians of a list of children, in order. -/
def readFwd (Z : Laziness L) (m : EMem L) (t : Target L) : List ((τ : L.Ty) × LTree L τ) →
    Option (List ((τ : L.Ty) × Option (OMat (L.Idx τ) (L.Idx t.ty))))
  | [] => some []
  | x :: xs =>
    match x.2.fwd Z m t, readFwd Z m t xs with
    | some J, some Js => some (⟨x.1, J⟩ :: Js)
    | _, _ => none

/-- The body of the static `combineChildJacobians` (compare `combineStatic`). -/
def combineBlocks (sizes : List ℕ) {σ : L.Ty} :
    ℕ → List ((τ : L.Ty) × Option (OMat (L.Idx τ) (L.Idx σ))) → Rows L σ → Option (Rows L σ)
  | _, [], m => some m
  | k, v :: vs, m =>
    match blockRange sizes k with
    | none => none
    | some (off, n) =>
      if n = L.dim v.1 then combineBlocks sizes (k + 1) vs (m.writeIf off v.2) else none

/-- `JacobianEvaluator` of an n-ary evaluator (JacobianEvaluator.hpp:251-343), compare
`Compound.jacobianStatic`.  Whether it is accepted does not depend on the results. -/
def Compound.jacobianStaticRun (Z : Laziness L) (s : Store L) (t : Target L) (c : Compound L) :
    Run (Rows L t.ty) :=
  match c.jacobianStatic s t with
  | none => .rejected
  | some _ =>
    match c.children Z s with
    | none => .ub
    | some (xs, m) =>
      match readFwd Z m t (xs.filter fun x => x.2.erase.hasType t) with
      | none => .ub
      | some [] => .ok (Rows.fresh.setZero 0 (compoundSize c.sizes))
      | some Js =>
        match combineBlocks c.sizes 0 Js (Rows.fresh.setZero 0 (compoundSize c.sizes)) with
        | some J => .ok J
        | none => .rejected

/-- `compound.jacobian(x)` (ExpressionBase.hpp:55-60; `eval_output_t`, hence no conversion at the
root: JacobianEvaluator.hpp:350-357). -/
def Compound.jacobianRun (Z : Laziness L) (s : Store L) (t : Target L) (c : Compound L) :
    Run (Rows L t.ty) :=
  match c.jacobianAuto s t with
  | none => .rejected
  | some _ => c.jacobianStaticRun Z s t

/-- The Jacobians with respect to several targets. -/
def runAll {α β : Type} (f : α → Run β) : List α → Run (List β)
  | [] => .ok []
  | a :: as =>
    match f a, runAll f as with
    | .rejected, _ => .rejected
    | _, .rejected => .rejected
    | .ub, _ => .ub
    | _, .ub => .ub
    | .ok b, .ok bs => .ok (b :: bs)

/-- `compound.evalWithJacobians(x...)` (JacobianEvaluator.hpp:365-374; `plain_output_t`). -/
def Compound.evalWithJacobiansRun (Z : Laziness L) (s : Store L) (c : Compound L)
    (ts : List (Target L)) : Run (CVal L × List ((σ : L.Ty) × Rows L σ)) :=
  match c.evalWithJacobians s ts with
  | none => .rejected
  | some _ =>
    match c.evalRun Z s, runAll (fun t => match c.jacobianStaticRun Z s t with
        | .ok J => .ok (⟨t.ty, J⟩ : (σ : L.Ty) × Rows L σ)
        | .rejected => .rejected
        | .ub => .ub) ts with
    | .rejected, _ => .rejected
    | _, .rejected => .rejected
    | .ub, _ => .ub
    | _, .ub => .ub
    | .ok v, .ok Js => .ok (v, Js)

/-- The dynamic Jacobians of the children, in order. -/
def readDyn (Z : Laziness L) (m : EMem L) (t : ℕ) (σ : L.Ty) : List ((τ : L.Ty) × LTree L τ) →
    Option (List ((τ : L.Ty) × Option (OMat (L.Idx τ) (L.Idx σ))))
  | [] => some []
  | x :: xs =>
    match x.2.dyn Z m t σ, readDyn Z m t σ xs with
    | some J, some Js => some (⟨x.1, J⟩ :: Js)
    | _, _ => none

/-- One iteration of the dynamic `combineChildJacobians` (compare `DynRows.step`). -/
def DynRows.add (total : ℕ) {σ : L.Ty} (st : DynRows L σ)
    (v : (τ : L.Ty) × Option (OMat (L.Idx τ) (L.Idx σ))) : Option (DynRows L σ) :=
  match v.2, st.jac with
  | some J, none =>
    if st.rowReached + L.dim v.1 ≤ total then
      some ⟨some ((Rows.fresh.setZero 0 st.rowReached).write st.rowReached J),
        st.rowReached + L.dim v.1⟩
    else none
  | some J, some m =>
    if st.rowReached + L.dim v.1 ≤ total then
      some ⟨some (m.write st.rowReached J), st.rowReached + L.dim v.1⟩
    else none
  | none, some m =>
    if st.rowReached + L.dim v.1 ≤ total then
      some ⟨some (m.setZero st.rowReached (L.dim v.1)), st.rowReached + L.dim v.1⟩
    else none
  | none, none => some ⟨none, st.rowReached + L.dim v.1⟩

/-- `evaluateDynamicJacobian` of a compound (DynamicJacobianEvaluator.hpp:173-248, 262-290;
`eval_output_t`).  A failed Eigen assertion is counted as undefined behaviour (it is in a release
build). -/
def Compound.dynJacobianRun (Z : Laziness L) (s : Store L) (t : ℕ) (σ : L.Ty) (c : Compound L) :
    Run (Rows L σ) :=
  match c.children Z s with
  | none => .ub
  | some (xs, m) =>
    match readDyn Z m t σ xs with
    | none => .ub
    | some Js =>
      match Js.foldlM (DynRows.add (compoundSize c.sizes)) ⟨none, 0⟩ with
      | none => .ub
      | some ⟨some J, _⟩ => .ok J
      | some ⟨none, _⟩ => .ok (Rows.fresh.setZero 0 (compoundSize c.sizes))

/-! ## The library's overloads -/

/-- `-v` of a vector class: an Eigen expression unless the stored value is a scalar
(VectorBase.hpp:122-125). -/
def VK.lazyMode : VK → Bool
  | .scalar => false
  | _ => true

/-- Modes of the unary `evalImpl` overloads: Minus VectorBase.hpp:122-125, Inverse
MatrixRotation.hpp:58-61, FrameCast frame_cast.hpp:107-113; all others construct a plain leaf or a
scalar, e.g. VectorBase.hpp:129-132, 143-146, 158-161 (`normalized()` returns a plain object),
MemberAccess.hpp:120-125 (`.eval()`), QuaternionRotation.hpp:64-68, AngleAxisRotation.hpp:62-66,
MatrixRotation.hpp:129-139. -/
def Un.mode : {a b : Ty} → Un a b → UnMode
  | _, _, .minus k => if k.lazyMode then .nest else .eager
  | _, _, .invRot .mat => .nest
  | _, _, .recast _ => .pass
  | _, _, .sqNorm _ => .eager
  | _, _, .norm _ => .eager
  | _, _, .normalize _ => .eager
  | _, _, .acos => .eager
  | _, _, .invRot .quat => .eager
  | _, _, .invRot .aa => .eager
  | _, _, .invRigid _ => .eager
  | _, _, .expRel => .eager
  | _, _, .expTwist => .eager
  | _, _, .logRot => .eager
  | _, _, .logRigid _ => .eager
  | _, _, .getRot _ => .eager
  | _, _, .getTrans _ => .eager
  | _, _, .zeroTrans _ => .eager
  | _, _, .convRot _ _ => .eager
  | _, _, .convRigid _ _ => .eager

/-- Modes of the binary `evalImpl` overloads: Scale VectorBase.hpp:188-191, ScaleR 195-198, ScaleDiv
235-238; all others construct a plain leaf or a scalar, e.g. VectorBase.hpp:107-118, 261-264. -/
def Bin.mode : {a b c : Ty} → Bin a b c → BinMode
  | _, _, _, .scale k => if k.lazyMode then .right else .eager
  | _, _, _, .scaleR k => if k.lazyMode then .left else .eager
  | _, _, _, .scaleDiv k => if k.lazyMode then .left else .eager
  | _, _, _, .sum _ => .eager
  | _, _, _, .sumPV => .eager
  | _, _, _, .sumVP => .eager
  | _, _, _, .sub _ => .eager
  | _, _, _, .subPP => .eager
  | _, _, _, .subPV => .eager
  | _, _, _, .dot _ => .eager
  | _, _, _, .product => .eager
  | _, _, _, .divide => .eager
  | _, _, _, .composeQ => .eager
  | _, _, _, .composeM => .eager
  | _, _, _, .composeRigid _ _ => .eager
  | _, _, _, .flipQ => .eager
  | _, _, _, .flipM => .eager
  | _, _, _, .flipRigid _ _ => .eager
  | _, _, _, .rotateQ => .eager
  | _, _, _, .rotateM => .eager
  | _, _, _, .transform _ => .eager

/-- Which of (result, operand) each `jacobianImpl` reads: Minus.hpp:34-37, VectorBase.hpp:136-182,
ScalarBase.hpp:119-128, QuaternionRotation.hpp:71-77, MatrixRotation.hpp:64-69,
AngleAxisRotation.hpp:69-75, RigidTransformBase.hpp:86-105, 161-205, RelativeRotation.hpp:132-156,
Twist.hpp:134-185, LogMap.hpp:38-61, MemberAccess.hpp:127-131, Convert.hpp:29-33. -/
def Un.reads : {a b : Ty} → Un a b → Bool × Bool
  | _, _, .minus _ => (false, false)
  | _, _, .sqNorm _ => (false, true)
  | _, _, .norm _ => (true, true)
  | _, _, .normalize _ => (true, true)
  | _, _, .acos => (false, true)
  | _, _, .invRot _ => (true, false)
  | _, _, .invRigid _ => (true, false)
  | _, _, .expRel => (true, true)
  | _, _, .expTwist => (true, true)
  | _, _, .logRot => (true, false)
  | _, _, .logRigid _ => (true, false)
  | _, _, .getRot _ => (false, false)
  | _, _, .getTrans _ => (true, false)
  -- cannot be instantiated (see `jacUn`)
  | _, _, .zeroTrans _ => (false, false)
  | _, _, .convRot _ _ => (false, false)
  | _, _, .convRigid _ _ => (false, false)
  | _, _, .recast _ => (false, false)

/-- Which of (result, left, right) each `leftJacobianImpl` reads: Sum.hpp:97-101,
Subtract.hpp:105-109, VectorBase.hpp:200-222, 241-247, 267-273, ScalarBase.hpp:86-92, 133-139, Compose.hpp:57-63, 84-91,
Rotate.hpp:35-42, TransformBase.hpp:241-252. -/
def Bin.readsL : {a b c : Ty} → Bin a b c → Bool × Bool × Bool
  | _, _, _, .sum _ => (false, false, false)
  | _, _, _, .sumPV => (false, false, false)
  | _, _, _, .sumVP => (false, false, false)
  | _, _, _, .sub _ => (false, false, false)
  | _, _, _, .subPP => (false, false, false)
  | _, _, _, .subPV => (false, false, false)
  | _, _, _, .scale _ => (false, false, true)
  | _, _, _, .scaleR _ => (false, false, true)
  | _, _, _, .scaleDiv _ => (false, false, true)
  | _, _, _, .dot _ => (false, false, true)
  | _, _, _, .product => (false, false, true)
  | _, _, _, .divide => (false, false, true)
  | _, _, _, .composeQ => (false, false, false)
  | _, _, _, .composeM => (false, false, false)
  | _, _, _, .composeRigid _ _ => (false, false, false)
  | _, _, _, .flipQ => (false, false, true)
  | _, _, _, .flipM => (false, false, true)
  | _, _, _, .flipRigid _ _ => (false, false, true)
  | _, _, _, .rotateQ => (true, false, false)
  | _, _, _, .rotateM => (true, false, false)
  | _, _, _, .transform _ => (true, false, false)

/-- Which of (result, left, right) each `rightJacobianImpl` reads: Sum.hpp:103-107,
Subtract.hpp:111-116, VectorBase.hpp:208-230, 250-257, 275-281, ScalarBase.hpp:95-101, 142-149, QuaternionRotation.hpp:92-98,
110-118, MatrixRotation.hpp:102-108, 119-126, TransformBase.hpp:206-226, 255-261,
Compose.hpp:75-82. -/
def Bin.readsR : {a b c : Ty} → Bin a b c → Bool × Bool × Bool
  | _, _, _, .sum _ => (false, false, false)
  | _, _, _, .sumPV => (false, false, false)
  | _, _, _, .sumVP => (false, false, false)
  | _, _, _, .sub _ => (false, false, false)
  | _, _, _, .subPP => (false, false, false)
  | _, _, _, .subPV => (false, false, false)
  | _, _, _, .scale _ => (false, true, false)
  | _, _, _, .scaleR _ => (false, true, false)
  | _, _, _, .scaleDiv _ => (false, true, true)
  | _, _, _, .dot _ => (false, true, false)
  | _, _, _, .product => (false, true, false)
  | _, _, _, .divide => (false, true, true)
  | _, _, _, .composeQ => (false, true, false)
  | _, _, _, .composeM => (false, true, false)
  | _, _, _, .composeRigid _ _ => (false, true, false)
  | _, _, _, .flipQ => (false, false, false)
  | _, _, _, .flipM => (false, false, false)
  | _, _, _, .flipRigid _ _ => (false, false, false)
  | _, _, _, .rotateQ => (false, true, false)
  | _, _, _, .rotateM => (false, true, false)
  | _, _, _, .transform _ => (false, true, false)

/-- The overloads of wave_geometry. -/
def geoLazy (ε : ℝ) : Laziness (geoLib ε) where
  un := Un.mode
  bin := Bin.mode
  readU := Un.reads
  readL := Bin.readsL
  readR := Bin.readsR

end WG
