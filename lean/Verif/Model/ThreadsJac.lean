import Verif.Model.DynCache

/-!
# Threads that evaluate and differentiate dynamic expressions

The functions of `Model/DynCache.lean` cut into the accesses they make to the `lazy_evaluator` members
of nodes (dynamic/Dynamic.hpp:120), which are the only memory they write that another thread can see;
there is no lock or atomic anywhere in `/repo`.  A call is a program that looks at and replaces such
members; any number of threads run theirs on the same members, one access at a time.

The evaluator of the outermost expression is an automatic object of the thread.  The one of a node is
read through a reference (Dynamic.hpp:60, 67, 79), so that every step of a derivative sweep through it
finds either the evaluator stored at that moment or, if another thread has begun to replace it
(`boost::optional::emplace` destroys the old object first), a destroyed object: `stuck`, undefined
behaviour.  Simplifications: each access is taken as indivisible (the memory model of C++ promises
less); a sweep goes on with the values it found at first, since leaves are not assigned meanwhile.
-/

namespace WG

variable {L : Lib}

/-- What the `lazy_evaluator` of a node holds. -/
abbrev Entry (L : Lib) := (τ : L.Ty) × CTree L τ

/-- A computation of a thread, as far as other threads can see it. -/
inductive Prog (L : Lib) (α : Type) : Type
  | done (a : α)
  /-- undefined behaviour -/
  | stuck
  /-- read the member of node `n` -/
  | look (n : ℕ) (k : Option (Entry L) → Prog L α)
  /-- write it -/
  | put (n : ℕ) (c : Option (Entry L)) (k : Prog L α)

/-- One after the other. -/
def Prog.bind {α β : Type} : Prog L α → (α → Prog L β) → Prog L β
  | .done a, f => f a
  | .stuck, _ => .stuck
  | .look n k, f => .look n fun c => (k c).bind f
  | .put n c k, f => .put n c (k.bind f)

/-- Constructors of `Evaluator` (`construct`), given the virtual call `dynEvaluate`. -/
def constructP (s : Store L) (node : ℕ → (τ : L.Ty) → Prog L (Option (L.Val τ))) :
    {τ : L.Ty} → DExpr L τ → Prog L (CTree L τ)
  | _, .leaf a c τ => .done (.leaf a c τ (s a τ))
  | _, .un a op e => (constructP s node e).bind fun r =>
      .done (.un a op r (r.val.bind (L.evalU op)))
  | _, .bin a op l r => (constructP s node l).bind fun x => (constructP s node r).bind fun y =>
      .done (.bin a op x y (x.val.bind fun v => y.val.bind fun w => L.evalB op v w))
  | _, .proxy n τ => (node n τ).bind fun v => .done (.proxy n τ v)

/-- `return *this->lazy_evaluator` and the first use of the reference (Dynamic.hpp:44, 51). -/
def readP (n : ℕ) (τ : L.Ty) : Prog L (CTree L τ) :=
  .look n fun c => match pick c τ with
    | some r => .done r
    | none => .stuck

/-- `constructEvaluator` (Dynamic.hpp:39-45): `emplace` destroys the evaluator held, builds the new one
and stores it. -/
def constructEvaluatorP (s : Store L) (node : ℕ → (τ : L.Ty) → Prog L (Option (L.Val τ))) (n : ℕ)
    {τ : L.Ty} (e : DExpr L τ) : Prog L (CTree L τ) :=
  .put n none ((constructP s node e).bind fun r => .put n (some ⟨τ, r⟩) (readP n τ))

/-- `dynEvaluate` (Dynamic.hpp:59-62), called through a handle; `none` fuel as in `dynEvaluate`. -/
def dynEvaluateP (s : Store L) (B : Bodies L) : ℕ → ℕ → (τ : L.Ty) → Prog L (Option (L.Val τ))
  | 0, _, _ => .stuck
  | k + 1, n, τ =>
    match pick (B n) τ with
    | none => .stuck
    | some e => (constructEvaluatorP s (dynEvaluateP s B k) n e).bind fun r => .done r.val

/-- `evaluator()` (Dynamic.hpp:47-52). -/
def lazyEvaluatorP (s : Store L) (B : Bodies L) (k n : ℕ) (τ : L.Ty) : Prog L (CTree L τ) :=
  .look n fun c => match c with
    | some _ => readP n τ
    | none =>
      match pick (B n) τ with
      | none => .stuck
      | some e => constructEvaluatorP s (dynEvaluateP s B k) n e

/-- Use an evaluator: the thread's own, or the one held by a node. -/
def touch : Option ℕ → Prog L Unit
  | none => .done ()
  | some m => .look m fun c => if c.isSome then .done () else .stuck

/-- `DynamicJacobianEvaluator` (`CTree.dyn`) on an evaluator owned by the thread or by a node. -/
def CTree.dynP (t : ℕ) (σ : L.Ty) (own : Option ℕ)
    (node : ℕ → (τ : L.Ty) → Prog L (Option (OMat (L.Idx τ) (L.Idx σ)))) :
    {τ : L.Ty} → CTree L τ → Prog L (Option (OMat (L.Idx τ) (L.Idx σ)))
  | _, .leaf a _ τ _ => (touch own).bind fun _ =>
    .done (if a = t then (if h : τ = σ then some (idBlock h) else some none) else none)
  | β, .un a op e v => (touch own).bind fun _ =>
    if a = t then .done (if h : β = σ then some (idBlock h) else some none)
    else (e.dynP t σ own node).bind fun x => (touch own).bind fun _ =>
      .done (x.map fun J => (nodeJac op v e.val).mul J)
  | γ, .bin a op l r v => (touch own).bind fun _ =>
    if a = t then .done (if h : γ = σ then some (idBlock h) else some none)
    else (l.dynP t σ own node).bind fun x => (r.dynP t σ own node).bind fun y =>
      (touch own).bind fun _ => .done (match x, y with
        | some J, some K =>
          some ((nodeJacL op v l.val r.val).mul J + (nodeJacR op v l.val r.val).mul K)
        | some J, none => some ((nodeJacL op v l.val r.val).mul J)
        | none, some K => some ((nodeJacR op v l.val r.val).mul K)
        | none, none => none)
  | τ, .proxy n _ _ => (touch own).bind fun _ =>
    if n = t then .done (if h : τ = σ then some (idBlock h) else some none) else node n τ

/-- `dynJacobian` (Dynamic.hpp:64-69). -/
def dynJacobianCallP (s : Store L) (B : Bodies L) (t : ℕ) (σ : L.Ty) :
    ℕ → ℕ → (τ : L.Ty) → Prog L (Option (OMat (L.Idx τ) (L.Idx σ)))
  | 0, _, _ => .stuck
  | k + 1, n, τ => (lazyEvaluatorP s B k n τ).bind fun c =>
      c.dynP t σ (some n) (dynJacobianCallP s B t σ k)

/-- `JacobianEvaluator` (`CTree.fwd`), on the thread's own evaluator. -/
def CTree.fwdP (t : Target L)
    (node : ℕ → (τ : L.Ty) → Prog L (Option (OMat (L.Idx τ) (L.Idx t.ty)))) :
    {τ : L.Ty} → CTree L τ → Prog L (Option (OMat (L.Idx τ) (L.Idx t.ty)))
  | _, .leaf a c τ _ =>
    .done (if h : τ = t.ty ∧ c = t.cls then (if a = t.addr then some (idBlock h.1) else none) else none)
  | _, .un _ op e v =>
    (e.fwdP t node).bind fun x => .done (x.map fun J => (nodeJac op v e.val).mul J)
  | _, .bin _ op l r v =>
    if l.hasType t && r.hasType t then
      (l.fwdP t node).bind fun x => (r.fwdP t node).bind fun y =>
        .done (match x, y with
          | some J, some K =>
            some ((nodeJacL op v l.val r.val).mul J + (nodeJacR op v l.val r.val).mul K)
          | some J, none => some ((nodeJacL op v l.val r.val).mul J)
          | none, some K => some ((nodeJacR op v l.val r.val).mul K)
          | none, none => none)
    else if l.hasType t then
      (l.fwdP t node).bind fun x => .done (x.map fun J => (nodeJacL op v l.val r.val).mul J)
    else if r.hasType t then
      (r.fwdP t node).bind fun x => .done (x.map fun K => (nodeJacR op v l.val r.val).mul K)
    else .done none
  | τ, .proxy n _ _ =>
    if n = t.addr then .done (if h : τ = t.ty then some (idBlock h) else some none) else node n τ

/-- `DynamicReverseJacobianEvaluator` (`CTree.dynRev`) on an evaluator owned by the thread or by a
node. -/
def CTree.dynRevP {ρ : L.Ty} (own : Option ℕ)
    (node : ℕ → (τ : L.Ty) → OMat (L.Idx ρ) (L.Idx τ) → Prog L (List (ℕ × Block L ρ))) :
    {τ : L.Ty} → CTree L τ → OMat (L.Idx ρ) (L.Idx τ) → Prog L (List (ℕ × Block L ρ))
  | τ, .leaf a _ _ _, adj => (touch own).bind fun _ => .done [(a, ⟨τ, adj⟩)]
  | _, .un _ op e v, adj => (touch own).bind fun _ =>
    e.dynRevP own node (adj.mul (nodeJac op v e.val))
  | _, .bin _ op l r v, adj => (touch own).bind fun _ =>
    (l.dynRevP own node (adj.mul (nodeJacL op v l.val r.val))).bind fun x =>
      (touch own).bind fun _ => (r.dynRevP own node (adj.mul (nodeJacR op v l.val r.val))).bind fun y =>
        .done (x ++ y)
  | τ, .proxy n _ _, adj => (touch own).bind fun _ => node n τ adj

/-- `dynReverse` (Dynamic.hpp:72-117). -/
def dynReverseCallP (s : Store L) (B : Bodies L) {ρ : L.Ty} :
    ℕ → ℕ → (τ : L.Ty) → OMat (L.Idx ρ) (L.Idx τ) → Prog L (List (ℕ × Block L ρ))
  | 0, _, _, _ => .stuck
  | k + 1, n, τ, adj => (lazyEvaluatorP s B k n τ).bind fun c =>
      c.dynRevP (some n) (dynReverseCallP s B k) adj

/-- The calls a thread can make on an expression (`k` bounds the nesting of nodes). -/
inductive Call (L : Lib)
  | eval (k : ℕ) {τ : L.Ty} (e : DExpr L τ)
  | jacobian (k : ℕ) (t : Target L) {τ : L.Ty} (e : DExpr L τ)
  | dynJacobian (k : ℕ) (a : ℕ) (σ : L.Ty) {τ : L.Ty} (e : DExpr L τ)
  | dynReverse (k : ℕ) {τ : L.Ty} (e : DExpr L τ)

/-- What a call returns. -/
inductive Answer (L : Lib)
  | value (τ : L.Ty) (v : Option (L.Val τ))
  | jacobian (τ σ : L.Ty) (J : OMat (L.Idx τ) (L.Idx σ))
  /-- the value and the additions made to the map of Jacobians -/
  | reverse (τ : L.Ty) (v : Option (L.Val τ)) (J : List (ℕ × Block L τ))

/-- The calls: `eval` ExpressionBase.hpp:42-52, `jacobian` JacobianEvaluator.hpp:350-357,
`evaluateDynamicJacobian` DynamicJacobianEvaluator.hpp:262-290, `evaluateWithDynamicReverseJacobians`
DynamicReverseJacobianEvaluator.hpp.  Each evaluates first. -/
def Call.prog (s : Store L) (B : Bodies L) : Call L → Prog L (Answer L)
  | @Call.eval _ k τ e => (constructP s (dynEvaluateP s B k) e).bind fun r => .done (.value τ r.val)
  | @Call.jacobian _ k t τ e => (constructP s (dynEvaluateP s B k) e).bind fun r =>
      (r.fwdP t (dynJacobianCallP s B t.addr t.ty k)).bind fun x =>
        .done (.jacobian τ t.ty (orZero x))
  | @Call.dynJacobian _ k a σ τ e => (constructP s (dynEvaluateP s B k) e).bind fun r =>
      (r.dynP a σ none (dynJacobianCallP s B a σ k)).bind fun x => .done (.jacobian τ σ (orZero x))
  | @Call.dynReverse _ k τ e => (constructP s (dynEvaluateP s B k) e).bind fun r =>
      (r.dynRevP none (dynReverseCallP s B k) (idBlock rfl)).bind fun x =>
        .done (.reverse τ r.val x)

/-- A thread makes its calls one after the other and keeps the answers. -/
def threadP (s : Store L) (B : Bodies L) : List (Call L) → Prog L (List (Answer L))
  | [] => .done []
  | c :: cs => (c.prog s B).bind fun a => (threadP s B cs).bind fun as => .done (a :: as)

/-- The next access of a program (a program that has finished, or met undefined behaviour, stays as
it is). -/
def Prog.step {α : Type} : Prog L α → Caches L → Prog L α × Caches L
  | .done a, C => (.done a, C)
  | .stuck, C => (.stuck, C)
  | .look n k, C => (k (C n), C)
  | .put n c k, C => (k, C.set n c)

/-- Threads and the members they share. -/
structure Threads (L : Lib) (ι : Type) where
  thr : ι → Prog L (List (Answer L))
  mem : Caches L

/-- Thread `i` makes its next access. -/
def Threads.step {ι : Type} [DecidableEq ι] (w : Threads L ι) (i : ι) : Threads L ι where
  thr := fun j => if j = i then ((w.thr i).step w.mem).1 else w.thr j
  mem := ((w.thr i).step w.mem).2

/-- Run a schedule. -/
def Threads.run {ι : Type} [DecidableEq ι] : List ι → Threads L ι → Threads L ι
  | [], w => w
  | i :: is, w => Threads.run is (w.step i)

/-- Threads about to make these calls. -/
def Threads.start {ι : Type} (s : Store L) (B : Bodies L) (calls : ι → List (Call L)) (C : Caches L) :
    Threads L ι where
  thr := fun i => threadP s B (calls i)
  mem := C

end WG
