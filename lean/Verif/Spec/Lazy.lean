import Verif.Spec.Compound
import Verif.Model.Lazy

/-!
# Specification: which results are unevaluated Eigen expressions, and which Jacobians read them
-/

namespace WG.Spec

variable {L : Lib}

/-- The result of `e` is an Eigen expression referring to the results of operands. -/
inductive Unevaluated (Z : Laziness L) : {τ : L.Ty} → Expr L τ → Prop
  | nest {α β : L.Ty} {a : ℕ} {op : L.Un α β} {e : Expr L α} (h : Z.un op = .nest) :
      Unevaluated Z (.un a op e)
  | pass {α β : L.Ty} {a : ℕ} {op : L.Un α β} {e : Expr L α} (h : Z.un op = .pass)
      (he : Unevaluated Z e) : Unevaluated Z (.un a op e)
  | left {α β γ : L.Ty} {a : ℕ} {op : L.Bin α β γ} {l : Expr L α} {r : Expr L β}
      (h : Z.bin op = .left) : Unevaluated Z (.bin a op l r)
  | right {α β γ : L.Ty} {a : ℕ} {op : L.Bin α β γ} {l : Expr L α} {r : Expr L β}
      (h : Z.bin op = .right) : Unevaluated Z (.bin a op l r)

/-- On the way from some occurrence of `t` to the root (dynamic nodes excepted, whose evaluators stay
where they are) there is an operation whose Jacobian overload reads an unevaluated result. -/
inductive Dangles (Z : Laziness L) (t : Target L) : {τ : L.Ty} → Expr L τ → Prop
  | unResult {α β : L.Ty} {a : ℕ} {op : L.Un α β} {e : Expr L α} (ht : t ∈ objects e)
      (hr : (Z.readU op).1 = true) (hu : Unevaluated Z (.un a op e)) : Dangles Z t (.un a op e)
  | unOperand {α β : L.Ty} {a : ℕ} {op : L.Un α β} {e : Expr L α} (ht : t ∈ objects e)
      (hr : (Z.readU op).2 = true) (hu : Unevaluated Z e) : Dangles Z t (.un a op e)
  | un {α β : L.Ty} {a : ℕ} {op : L.Un α β} {e : Expr L α} (h : Dangles Z t e) :
      Dangles Z t (.un a op e)
  | leftResult {α β γ : L.Ty} {a : ℕ} {op : L.Bin α β γ} {l : Expr L α} {r : Expr L β}
      (ht : t ∈ objects l) (hr : (Z.readL op).1 = true) (hu : Unevaluated Z (.bin a op l r)) :
      Dangles Z t (.bin a op l r)
  | leftLeft {α β γ : L.Ty} {a : ℕ} {op : L.Bin α β γ} {l : Expr L α} {r : Expr L β}
      (ht : t ∈ objects l) (hr : (Z.readL op).2.1 = true) (hu : Unevaluated Z l) :
      Dangles Z t (.bin a op l r)
  | leftRight {α β γ : L.Ty} {a : ℕ} {op : L.Bin α β γ} {l : Expr L α} {r : Expr L β}
      (ht : t ∈ objects l) (hr : (Z.readL op).2.2 = true) (hu : Unevaluated Z r) :
      Dangles Z t (.bin a op l r)
  | rightResult {α β γ : L.Ty} {a : ℕ} {op : L.Bin α β γ} {l : Expr L α} {r : Expr L β}
      (ht : t ∈ objects r) (hr : (Z.readR op).1 = true) (hu : Unevaluated Z (.bin a op l r)) :
      Dangles Z t (.bin a op l r)
  | rightLeft {α β γ : L.Ty} {a : ℕ} {op : L.Bin α β γ} {l : Expr L α} {r : Expr L β}
      (ht : t ∈ objects r) (hr : (Z.readR op).2.1 = true) (hu : Unevaluated Z l) :
      Dangles Z t (.bin a op l r)
  | rightRight {α β γ : L.Ty} {a : ℕ} {op : L.Bin α β γ} {l : Expr L α} {r : Expr L β}
      (ht : t ∈ objects r) (hr : (Z.readR op).2.2 = true) (hu : Unevaluated Z r) :
      Dangles Z t (.bin a op l r)
  | left {α β γ : L.Ty} {a : ℕ} {op : L.Bin α β γ} {l : Expr L α} {r : Expr L β}
      (h : Dangles Z t l) : Dangles Z t (.bin a op l r)
  | right {α β γ : L.Ty} {a : ℕ} {op : L.Bin α β γ} {l : Expr L α} {r : Expr L β}
      (h : Dangles Z t r) : Dangles Z t (.bin a op l r)

end WG.Spec
