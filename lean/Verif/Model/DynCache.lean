import Verif.Model.Expr

/-!
# `Dynamic` nodes with their cached evaluators

`dynamic/Dynamic.hpp:39-117`, `dynamic/Proxy.hpp:93-176`.  Unlike `Expr.proxy`, a handle here holds
only the address of a node; the wrapped expression and the cached evaluator of each node live in
tables.  Simplifications: a `Dynamic` object used directly as an operand (statically typed) is left
out, it does not use its cache; calls through a handle take a bound on the nesting depth (`fuel`), so
that a cycle of nodes or a dangling handle has no result (`none`).
-/

namespace WG

variable {L : Lib}

/-- Expression objects; `proxy n` is a `Proxy`/`RefProxy` to the node at address `n`. -/
inductive DExpr (L : Lib) : L.Ty → Type
  | leaf (a cls : ℕ) (τ : L.Ty) : DExpr L τ
  | un {α β : L.Ty} (a : ℕ) (op : L.Un α β) (e : DExpr L α) : DExpr L β
  | bin {α β γ : L.Ty} (a : ℕ) (op : L.Bin α β γ) (l : DExpr L α) (r : DExpr L β) : DExpr L γ
  | proxy (n : ℕ) (τ : L.Ty) : DExpr L τ

/-- `Evaluator` objects (Evaluator.hpp:28-105; for a proxy Proxy.hpp:93-106: the address of the node
and a copy of its value). -/
inductive CTree (L : Lib) : L.Ty → Type
  | leaf (a cls : ℕ) (τ : L.Ty) (v : L.Val τ) : CTree L τ
  | un {α β : L.Ty} (a : ℕ) (op : L.Un α β) (e : CTree L α) (v : Option (L.Val β)) : CTree L β
  | bin {α β γ : L.Ty} (a : ℕ) (op : L.Bin α β γ) (l : CTree L α) (r : CTree L β)
      (v : Option (L.Val γ)) : CTree L γ
  | proxy (n : ℕ) (τ : L.Ty) (v : Option (L.Val τ)) : CTree L τ

/-- `evaluator()`: the stored result. -/
def CTree.val : {τ : L.Ty} → CTree L τ → Option (L.Val τ)
  | _, .leaf _ _ _ v => some v
  | _, .un _ _ _ v => v
  | _, .bin _ _ _ _ v => v
  | _, .proxy _ _ v => v

/-- The nodes alive and the expressions they wrap. -/
abbrev Bodies (L : Lib) := ℕ → Option ((τ : L.Ty) × DExpr L τ)

/-- The `lazy_evaluator` member of every node (Dynamic.hpp:120). -/
abbrev Caches (L : Lib) := ℕ → Option ((τ : L.Ty) × CTree L τ)

/-- Assign to the cache of a node. -/
def Caches.set (C : Caches L) (n : ℕ) (c : Option ((τ : L.Ty) × CTree L τ)) : Caches L :=
  fun m => if m = n then c else C m

/-- Component of class `τ` of a table entry. -/
def pick {F : L.Ty → Type} (p : Option ((τ : L.Ty) × F τ)) (τ : L.Ty) : Option (F τ) :=
  p.bind fun p => if h : p.1 = τ then some (h ▸ p.2) else none

/-- Constructors of `Evaluator`, given the virtual call `dynEvaluate` made by the proxy case. -/
def construct (s : Store L)
    (node : ℕ → (τ : L.Ty) → Caches L → Option (Option (L.Val τ) × Caches L)) :
    {τ : L.Ty} → DExpr L τ → Caches L → Option (CTree L τ × Caches L)
  | _, .leaf a c τ, C => some (.leaf a c τ (s a τ), C)
  | _, .un a op e, C => (construct s node e C).map fun r =>
      (.un a op r.1 (r.1.val.bind (L.evalU op)), r.2)
  | _, .bin a op l r, C => (construct s node l C).bind fun x =>
      (construct s node r x.2).map fun y =>
        (.bin a op x.1 y.1 (x.1.val.bind fun v => y.1.val.bind fun w => L.evalB op v w), y.2)
  | _, .proxy n τ, C => (node n τ C).map fun r => (.proxy n τ r.1, r.2)

/-- `dynEvaluate` (Dynamic.hpp:59-62) with `constructEvaluator` (39-45): `emplace` destroys the old
evaluator, builds a new one from the wrapped expression, and its value is returned. -/
def dynEvaluate (s : Store L) (B : Bodies L) :
    ℕ → ℕ → (τ : L.Ty) → Caches L → Option (Option (L.Val τ) × Caches L)
  | 0, _, _, _ => none
  | k + 1, n, τ, C => (pick (B n) τ).bind fun e =>
      (construct s (dynEvaluate s B k) e (C.set n none)).map fun r =>
        (r.1.val, r.2.set n (some ⟨τ, r.1⟩))

/-- `evaluator()` (Dynamic.hpp:47-52): constructs only if there is no cached evaluator. -/
def lazyEvaluator (s : Store L) (B : Bodies L) (k n : ℕ) (τ : L.Ty) (C : Caches L) :
    Option (CTree L τ × Caches L) :=
  match C n with
  | some c => (pick (some c) τ).map fun c => (c, C)
  | none => (pick (B n) τ).bind fun e =>
      (construct s (dynEvaluate s B k) e C).map fun r => (r.1, r.2.set n (some ⟨τ, r.1⟩))

/-- `DynamicJacobianEvaluator` on an evaluator tree (leaf, unary, binary as `ETree.dyn`; proxy:
Proxy.hpp:108-131), given the virtual call `dynJacobian`. -/
def CTree.dyn (t : ℕ) (σ : L.Ty)
    (node : ℕ → (τ : L.Ty) → Caches L → Option (Option (OMat (L.Idx τ) (L.Idx σ)) × Caches L)) :
    {τ : L.Ty} → CTree L τ → Caches L → Option (Option (OMat (L.Idx τ) (L.Idx σ)) × Caches L)
  | _, .leaf a _ τ _, C =>
    some (if a = t then (if h : τ = σ then some (idBlock h) else some none) else none, C)
  | β, .un a op e v, C =>
    if a = t then some (if h : β = σ then some (idBlock h) else some none, C)
    else (e.dyn t σ node C).map fun x => (x.1.map fun J => (nodeJac op v e.val).mul J, x.2)
  | γ, .bin a op l r v, C =>
    if a = t then some (if h : γ = σ then some (idBlock h) else some none, C)
    else (l.dyn t σ node C).bind fun x => (r.dyn t σ node x.2).map fun y =>
      (match x.1, y.1 with
        | some J, some K =>
          some ((nodeJacL op v l.val r.val).mul J + (nodeJacR op v l.val r.val).mul K)
        | some J, none => some ((nodeJacL op v l.val r.val).mul J)
        | none, some K => some ((nodeJacR op v l.val r.val).mul K)
        | none, none => none, y.2)
  | τ, .proxy n _ _, C =>
    if n = t then some (if h : τ = σ then some (idBlock h) else some none, C) else node n τ C

/-- `dynJacobian` (Dynamic.hpp:64-69): works on the cached evaluator. -/
def dynJacobianCall (s : Store L) (B : Bodies L) (t : ℕ) (σ : L.Ty) :
    ℕ → ℕ → (τ : L.Ty) → Caches L → Option (Option (OMat (L.Idx τ) (L.Idx σ)) × Caches L)
  | 0, _, _, _ => none
  | k + 1, n, τ, C => (lazyEvaluator s B k n τ C).bind fun c =>
      c.1.dyn t σ (dynJacobianCall s B t σ k) c.2

/-- `contains_same_type` on an evaluator tree. -/
def CTree.hasType (t : Target L) : {τ : L.Ty} → CTree L τ → Bool
  | _, .leaf _ c τ _ => τ = t.ty && c = t.cls
  | _, .un _ _ e _ => e.hasType t
  | _, .bin _ _ l r _ => l.hasType t || r.hasType t
  | _, .proxy _ _ _ => false

/-- `JacobianEvaluator` (as `ETree.fwd`; proxy: Proxy.hpp:133-164). -/
def CTree.fwd (t : Target L)
    (node : ℕ → (τ : L.Ty) → Caches L → Option (Option (OMat (L.Idx τ) (L.Idx t.ty)) × Caches L)) :
    {τ : L.Ty} → CTree L τ → Caches L → Option (Option (OMat (L.Idx τ) (L.Idx t.ty)) × Caches L)
  | _, .leaf a c τ _, C =>
    some (if h : τ = t.ty ∧ c = t.cls then (if a = t.addr then some (idBlock h.1) else none) else none,
      C)
  | _, .un _ op e v, C =>
    (e.fwd t node C).map fun x => (x.1.map fun J => (nodeJac op v e.val).mul J, x.2)
  | _, .bin _ op l r v, C =>
    if l.hasType t && r.hasType t then
      (l.fwd t node C).bind fun x => (r.fwd t node x.2).map fun y =>
        (match x.1, y.1 with
          | some J, some K =>
            some ((nodeJacL op v l.val r.val).mul J + (nodeJacR op v l.val r.val).mul K)
          | some J, none => some ((nodeJacL op v l.val r.val).mul J)
          | none, some K => some ((nodeJacR op v l.val r.val).mul K)
          | none, none => none, y.2)
    else if l.hasType t then
      (l.fwd t node C).map fun x => (x.1.map fun J => (nodeJacL op v l.val r.val).mul J, x.2)
    else if r.hasType t then
      (r.fwd t node C).map fun x => (x.1.map fun K => (nodeJacR op v l.val r.val).mul K, x.2)
    else some (none, C)
  | τ, .proxy n _ _, C =>
    if n = t.addr then some (if h : τ = t.ty then some (idBlock h) else some none, C)
    else node n τ C

/-- `DynamicReverseJacobianEvaluator` (as `ETree.dynRev`; proxy: Proxy.hpp:167-176), given the virtual
call `dynReverse`. -/
def CTree.dynRev {ρ : L.Ty}
    (node : ℕ → (τ : L.Ty) → OMat (L.Idx ρ) (L.Idx τ) → Caches L →
      Option (List (ℕ × Block L ρ) × Caches L)) :
    {τ : L.Ty} → CTree L τ → OMat (L.Idx ρ) (L.Idx τ) → Caches L →
      Option (List (ℕ × Block L ρ) × Caches L)
  | τ, .leaf a _ _ _, adj, C => some ([(a, ⟨τ, adj⟩)], C)
  | _, .un _ op e v, adj, C => e.dynRev node (adj.mul (nodeJac op v e.val)) C
  | _, .bin _ op l r v, adj, C =>
    (l.dynRev node (adj.mul (nodeJacL op v l.val r.val)) C).bind fun x =>
      (r.dynRev node (adj.mul (nodeJacR op v l.val r.val)) x.2).map fun y => (x.1 ++ y.1, y.2)
  | τ, .proxy n _ _, adj, C => node n τ adj C

/-- `dynReverse` (Dynamic.hpp:72-117): works on the cached evaluator. -/
def dynReverseCall (s : Store L) (B : Bodies L) {ρ : L.Ty} :
    ℕ → ℕ → (τ : L.Ty) → OMat (L.Idx ρ) (L.Idx τ) → Caches L →
      Option (List (ℕ × Block L ρ) × Caches L)
  | 0, _, _, _, _ => none
  | k + 1, n, τ, adj, C => (lazyEvaluator s B k n τ C).bind fun c =>
      c.1.dynRev (dynReverseCall s B k) adj c.2

/-- `e.eval()` (ExpressionBase.hpp:42-52). -/
def DExpr.eval (s : Store L) (B : Bodies L) (k : ℕ) {τ : L.Ty} (e : DExpr L τ) (C : Caches L) :
    Option (Option (L.Val τ) × Caches L) :=
  (construct s (dynEvaluate s B k) e C).map fun r => (r.1.val, r.2)

/-- `e.jacobian(x)` by `JacobianEvaluator` (JacobianEvaluator.hpp:350-357): evaluate, then
differentiate. -/
def DExpr.jacobian (s : Store L) (B : Bodies L) (k : ℕ) (t : Target L) {τ : L.Ty} (e : DExpr L τ)
    (C : Caches L) : Option (OMat (L.Idx τ) (L.Idx t.ty) × Caches L) :=
  (construct s (dynEvaluate s B k) e C).bind fun r =>
    (r.1.fwd t (dynJacobianCall s B t.addr t.ty k) r.2).map fun x => (orZero x.1, x.2)

/-- `evaluateDynamicJacobian` (DynamicJacobianEvaluator.hpp:262-290). -/
def DExpr.dynJacobian (s : Store L) (B : Bodies L) (k : ℕ) (a : ℕ) (σ : L.Ty) {τ : L.Ty}
    (e : DExpr L τ) (C : Caches L) : Option (OMat (L.Idx τ) (L.Idx σ) × Caches L) :=
  (construct s (dynEvaluate s B k) e C).bind fun r =>
    (r.1.dyn a σ (dynJacobianCall s B a σ k) r.2).map fun x => (orZero x.1, x.2)

/-- `evaluateWithDynamicReverseJacobians` (DynamicReverseJacobianEvaluator.hpp): the value and the
sequence of additions to the map. -/
def DExpr.dynReverse (s : Store L) (B : Bodies L) (k : ℕ) {τ : L.Ty} (e : DExpr L τ) (C : Caches L) :
    Option ((Option (L.Val τ) × List (ℕ × Block L τ)) × Caches L) :=
  (construct s (dynEvaluate s B k) e C).bind fun r =>
    (r.1.dynRev (dynReverseCall s B k) (idBlock rfl) r.2).map fun x => ((r.1.val, x.1), x.2)

/-- State of a program using dynamic expressions. -/
structure DState (L : Lib) where
  store : Store L
  bodies : Bodies L
  caches : Caches L

/-- What a program can do.  `k` bounds the nesting of nodes in a call. -/
inductive DOp (L : Lib)
  /-- assign to a leaf object -/
  | write (a : ℕ) (τ : L.Ty) (v : L.Val τ)
  /-- make a node at `n` wrapping `e`: its cache is empty -/
  | create (n : ℕ) {τ : L.Ty} (e : DExpr L τ)
  /-- copy-construct a node at `n` from the node at `m`: the cache is copied along -/
  | copy (n m : ℕ)
  | destroy (n : ℕ)
  /-- change what the node at `n` wraps (assign to the node, or to a proxy inside the expression it
  wraps, Proxy.hpp:27-60), leaving its cached evaluator as it is -/
  | rebind (n : ℕ) {τ : L.Ty} (e : DExpr L τ)
  | eval (k : ℕ) {τ : L.Ty} (e : DExpr L τ)
  | jacobian (k : ℕ) (t : Target L) {τ : L.Ty} (e : DExpr L τ)
  | dynJacobian (k : ℕ) (a : ℕ) (σ : L.Ty) {τ : L.Ty} (e : DExpr L τ)
  | dynReverse (k : ℕ) {τ : L.Ty} (e : DExpr L τ)

/-- Effect of one operation on the state. -/
def DOp.run : DOp L → DState L → Option (DState L)
  | .write a τ v, st => some { st with store := st.store.set a τ v }
  | @DOp.create _ n τ e, st => some { st with
      bodies := fun m => if m = n then some ⟨τ, e⟩ else st.bodies m, caches := st.caches.set n none }
  | .copy n m, st => some { st with
      bodies := fun j => if j = n then st.bodies m else st.bodies j,
      caches := st.caches.set n (st.caches m) }
  | .destroy n, st => some { st with
      bodies := fun m => if m = n then none else st.bodies m, caches := st.caches.set n none }
  | @DOp.rebind _ n τ e, st =>
    some { st with bodies := fun m => if m = n then some ⟨τ, e⟩ else st.bodies m }
  | .eval k e, st =>
    (e.eval st.store st.bodies k st.caches).map fun r => { st with caches := r.2 }
  | .jacobian k t e, st =>
    (e.jacobian st.store st.bodies k t st.caches).map fun r => { st with caches := r.2 }
  | .dynJacobian k a σ e, st =>
    (e.dynJacobian st.store st.bodies k a σ st.caches).map fun r => { st with caches := r.2 }
  | .dynReverse k e, st =>
    (e.dynReverse st.store st.bodies k st.caches).map fun r => { st with caches := r.2 }

/-- A history of operations. -/
def runOps : List (DOp L) → DState L → Option (DState L)
  | [], st => some st
  | o :: os, st => (o.run st).bind (runOps os)

end WG
