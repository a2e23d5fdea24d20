import Verif.Model.Expr

/-!
# Two threads evaluating dynamic expressions that share nodes

`Dynamic::dynEvaluate` and `constructEvaluator` (dynamic/Dynamic.hpp:39-62) cut into the steps that
touch the shared member `lazy_evaluator` (line 120): `boost::optional::emplace` first destroys the
evaluator held (`clear`), then builds the new one — reading leaves and evaluating nested handles — and
stores it (`build`); the caller then reads the value through the reference returned (`read`).  There is
no lock or atomic anywhere in `/repo`.  Simplifications: of the evaluator only the value read by
`dynEvaluate` is kept; leaves are not assigned meanwhile; each step is taken as indivisible (the
memory model of C++ promises less, see `Spec.Race`).
-/

namespace WG

variable {L : Lib}

/-- Steps of a thread. -/
inductive Instr (L : Lib)
  | leaf (a : ℕ) (τ : L.Ty)
  | un {α β : L.Ty} (op : L.Un α β)
  | bin {α β γ : L.Ty} (op : L.Bin α β γ)
  /-- `emplace`: destroy the old evaluator of node `n` -/
  | clear (n : ℕ)
  /-- `emplace`: store the new evaluator -/
  | build (n : ℕ)
  /-- `return v_eval()` -/
  | read (n : ℕ)

/-- A value computed by a thread. -/
abbrev Cell (L : Lib) := (τ : L.Ty) × Option (L.Val τ)

/-- The steps made to evaluate an expression. -/
def compile : {τ : L.Ty} → Expr L τ → List (Instr L)
  | _, .leaf a _ τ => [.leaf a τ]
  | _, .un _ op e => compile e ++ [.un op]
  | _, .bin _ op l r => compile l ++ compile r ++ [.bin op]
  | _, .proxy n e => .clear n :: compile e ++ [.build n, .read n]

/-- Values held by the evaluator objects; `none` where there is no object. -/
abbrev Shared (L : Lib) := ℕ → Option (Cell L)

/-- One step on the thread's own stack and the shared evaluators.  `none`: an object that is not
there is read (undefined behaviour), or the stack does not fit the step. -/
def Instr.step (s : Store L) (M : Shared L) : Instr L → List (Cell L) → Option (List (Cell L) × Shared L)
  | .leaf a τ, st => some (⟨τ, some (s a τ)⟩ :: st, M)
  | @Instr.un _ α β op, x :: st =>
    if h : x.1 = α then some (⟨β, (h ▸ x.2 : Option (L.Val α)).bind (L.evalU op)⟩ :: st, M) else none
  | @Instr.bin _ α β γ op, y :: x :: st =>
    if h : x.1 = α then
      if k : y.1 = β then
        some (⟨γ, (h ▸ x.2 : Option (L.Val α)).bind fun x => (k ▸ y.2 : Option (L.Val β)).bind fun y =>
          L.evalB op x y⟩ :: st, M)
      else none
    else none
  | .clear n, st => some (st, fun m => if m = n then none else M m)
  | .build n, x :: st => some (st, fun m => if m = n then some x else M m)
  | .read n, st => (M n).map fun x => (x :: st, M)
  | _, _ => none

/-- A thread: the steps to come and the stack. -/
structure Thread (L : Lib) where
  todo : List (Instr L)
  stack : List (Cell L)

/-- The two threads and the evaluators they share. -/
structure Two (L : Lib) where
  thr : Bool → Thread L
  mem : Shared L

/-- Thread `i` makes its next step (if any). -/
def Two.step (s : Store L) (w : Two L) (i : Bool) : Option (Two L) :=
  match (w.thr i).todo with
  | [] => some w
  | x :: r => (x.step s w.mem (w.thr i).stack).map fun o =>
      ⟨fun j => if j = i then ⟨r, o.1⟩ else w.thr j, o.2⟩

/-- Run a schedule. -/
def Two.run (s : Store L) : List Bool → Two L → Option (Two L)
  | [], w => some w
  | i :: is, w => (w.step s i).bind (Two.run s is)

/-- Two threads about to evaluate `e` and `f`. -/
def Two.start {τ υ : L.Ty} (e : Expr L τ) (f : Expr L υ) (M : Shared L) : Two L :=
  ⟨fun i => if i then ⟨compile f, []⟩ else ⟨compile e, []⟩, M⟩

end WG
