import Verif.Model.DynCache

/-!
# Specification: the tree a dynamic expression stands for, read off the nodes without any cache
-/

namespace WG.Spec

variable {L : Lib}

/-- `e` stands for the tree `E` when every handle is followed to the expression its node wraps.
(A cycle or a dangling handle stands for nothing.) -/
inductive Unfolds (B : Bodies L) : {τ : L.Ty} → DExpr L τ → Expr L τ → Prop
  | leaf (a c τ) : Unfolds B (.leaf a c τ) (.leaf a c τ)
  | un {α β a} {op : L.Un α β} {e E} : Unfolds B e E → Unfolds B (.un a op e) (.un a op E)
  | bin {α β γ a} {op : L.Bin α β γ} {l r E F} : Unfolds B l E → Unfolds B r F →
      Unfolds B (.bin a op l r) (.bin a op E F)
  | proxy {n τ e E} : B n = some ⟨τ, e⟩ → Unfolds B e E → Unfolds B (.proxy n τ) (.proxy n E)

/-- Nesting of handles. -/
def nesting : {τ : L.Ty} → Expr L τ → ℕ
  | _, .leaf _ _ _ => 0
  | _, .un _ _ e => nesting e
  | _, .bin _ _ l r => max (nesting l) (nesting r)
  | _, .proxy _ e => nesting e + 1

/-- The leaf objects after a history: only assignments count, calls do not. -/
def leavesAfter : List (DOp L) → Store L → Store L
  | [], s => s
  | .write a τ v :: os, s => leavesAfter os (s.set a τ v)
  | _ :: os, s => leavesAfter os s

/-- The nodes after a history: calls do not change them. -/
def nodesAfter : List (DOp L) → Bodies L → Bodies L
  | [], B => B
  | @DOp.create _ n τ e :: os, B => nodesAfter os fun m => if m = n then some ⟨τ, e⟩ else B m
  | @DOp.rebind _ n τ e :: os, B => nodesAfter os fun m => if m = n then some ⟨τ, e⟩ else B m
  | .copy n m :: os, B => nodesAfter os fun j => if j = n then B m else B j
  | .destroy n :: os, B => nodesAfter os fun m => if m = n then none else B m
  | _ :: os, B => nodesAfter os B

end WG.Spec
