import Verif.Model.Expr

/-!
# Specification: occurrences of an object in an expression

Values by plain recursion (no evaluator objects), and the list of products of local derivatives
along the paths from the root to the occurrences of an object.
-/

namespace WG.Spec
open Matrix

variable {L : Lib}

/-- The value of an expression in a memory. -/
def value (s : Store L) : {τ : L.Ty} → Expr L τ → Option (L.Val τ)
  | _, .leaf a _ τ => some (s a τ)
  | _, .un _ op e => (value s e).bind fun x => L.evalU op x
  | _, .bin _ op l r => (value s l).bind fun x => (value s r).bind fun y => L.evalB op x y
  | _, .proxy _ e => value s e

/-- Local derivative of a unary operation at the operand `e`; `none` if not finite. -/
def slopeU (s : Store L) {α β : L.Ty} (op : L.Un α β) (e : Expr L α) :
    OMat (L.Idx β) (L.Idx α) :=
  (value s e).bind fun x => (L.evalU op x).bind fun v => L.jacU op v x

/-- Local derivative of a binary operation with respect to its left operand. -/
def slopeL (s : Store L) {α β γ : L.Ty} (op : L.Bin α β γ) (l : Expr L α) (r : Expr L β) :
    OMat (L.Idx γ) (L.Idx α) :=
  (value s l).bind fun x => (value s r).bind fun y => (L.evalB op x y).bind fun v => L.jacL op v x y

/-- Local derivative of a binary operation with respect to its right operand. -/
def slopeR (s : Store L) {α β γ : L.Ty} (op : L.Bin α β γ) (l : Expr L α) (r : Expr L β) :
    OMat (L.Idx γ) (L.Idx β) :=
  (value s l).bind fun x => (value s r).bind fun y => (L.evalB op x y).bind fun v => L.jacR op v x y

instance : DecidableEq (Target L) := fun t u =>
  decidable_of_iff (t.addr = u.addr ∧ t.cls = u.cls ∧ t.ty = u.ty)
    (by cases t; cases u; simp)

/-- For every occurrence of the object `t` in `e`, in reading order, the product of the local
derivatives along the path from the root to that occurrence.  Dynamic nodes are looked through. -/
def occurrences (s : Store L) (t : Target L) :
    {τ : L.Ty} → Expr L τ → List (OMat (L.Idx τ) (L.Idx t.ty))
  | _, .leaf a c τ =>
    if h : (⟨a, c, τ⟩ : Target L) = t then
      [some (congrArg Target.ty h ▸ (1 : Matrix (L.Idx τ) (L.Idx τ) ℝ))]
    else []
  | _, .un _ op e => (occurrences s t e).map (OMat.mul (slopeU s op e))
  | _, .bin _ op l r => (occurrences s t l).map (OMat.mul (slopeL s op l r)) ++
      (occurrences s t r).map (OMat.mul (slopeR s op l r))
  | _, .proxy _ e => occurrences s t e

/-- The sum over all occurrences (a non-finite summand makes it non-finite). -/
def total {m n : Type} (As : List (OMat m n)) : OMat m n := As.sum

/-- The objects occurring in an expression, in reading order, dynamic nodes looked through. -/
def objects : {τ : L.Ty} → Expr L τ → List (Target L)
  | _, .leaf a c τ => [⟨a, c, τ⟩]
  | _, .un _ _ e => objects e
  | _, .bin _ _ l r => objects l ++ objects r
  | _, .proxy _ e => objects e

/-- The addresses of the operation nodes and dynamic nodes of an expression. -/
def nodeAddrs : {τ : L.Ty} → Expr L τ → List ℕ
  | _, .leaf _ _ _ => []
  | _, .un a _ e => a :: nodeAddrs e
  | _, .bin a _ l r => a :: (nodeAddrs l ++ nodeAddrs r)
  | _, .proxy a e => a :: nodeAddrs e

/-- The leaf types of an expression, in reading order. -/
def types {τ : L.Ty} (e : Expr L τ) : List (L.Ty × ℕ) := (objects e).map fun o => (o.ty, o.cls)

/-- The operation nodes of an expression, operands before the node. -/
def operations : {τ : L.Ty} → Expr L τ → List ℕ
  | _, .leaf _ _ _ => []
  | _, .un a _ e => operations e ++ [a]
  | _, .bin a _ l r => operations l ++ operations r ++ [a]
  | _, .proxy _ e => operations e

/-- The objects an expression refers to directly, by address, in reading order: leaves and dynamic
nodes. -/
def handles : {τ : L.Ty} → Expr L τ → List ℕ
  | _, .leaf a _ _ => [a]
  | _, .un _ _ e => handles e
  | _, .bin _ _ l r => handles l ++ handles r
  | _, .proxy a _ => [a]

/-- The expression with all dynamic nodes replaced by what they wrap. -/
def strip : {τ : L.Ty} → Expr L τ → Expr L τ
  | _, .leaf a c τ => .leaf a c τ
  | _, .un a op e => .un a op (strip e)
  | _, .bin a op l r => .bin a op (strip l) (strip r)
  | _, .proxy _ e => strip e

/-- Objects are told apart by their addresses: an object of `e` at the address of `t` is `t`, and no
operation node of `e` is at that address. -/
def Distinguished {τ : L.Ty} (t : Target L) (e : Expr L τ) : Prop :=
  (∀ o ∈ objects e, o.addr = t.addr → o = t) ∧ t.addr ∉ nodeAddrs e

end WG.Spec
