import Verif.Model.Threads

/-! # Specification of concurrent evaluation -/

namespace WG.Spec

variable {L : Lib}

/-- The node whose `lazy_evaluator` a step accesses. -/
def touches (n : ℕ) : Instr L → Bool
  | .clear m => m = n
  | .build m => m = n
  | .read m => m = n
  | _ => false

/-- Does the step modify it? -/
def writes (n : ℕ) : Instr L → Bool
  | .clear m => m = n
  | .build m => m = n
  | _ => false

/-- Number of the steps of a kind. -/
def clears (n : ℕ) (p : List (Instr L)) : ℕ := p.countP fun | .clear m => m = n | _ => false
/-- Number of the steps of a kind. -/
def reads (n : ℕ) (p : List (Instr L)) : ℕ := p.countP fun | .read m => m = n | _ => false

/-- The thread is inside a call on node `n`: it still has to read a value whose evaluator it has
begun to replace. -/
def Inside (n : ℕ) (t : Thread L) : Prop := clears n t.todo < reads n t.todo

/-- The schedule keeps calls on one node apart: no step touches a node while the other thread is
inside a call on it. -/
def Apart (s : Store L) : List Bool → Two L → Prop
  | [], _ => True
  | i :: is, w => (∀ x r n, (w.thr i).todo = x :: r → touches n x = true → ¬ Inside n (w.thr !i)) ∧
      ∀ w', w.step s i = some w' → Apart s is w'

/-- Both threads have finished, and got these values. -/
def Finished {τ υ : L.Ty} (w : Two L) (v : Option (L.Val τ)) (u : Option (L.Val υ)) : Prop :=
  w.thr false = ⟨[], [⟨τ, v⟩]⟩ ∧ w.thr true = ⟨[], [⟨υ, u⟩]⟩

/-- Data race of two threads that run `p` and `q` with no synchronisation between them: an access of
one conflicts with an access of the other ([intro.races]; whatever the schedule). -/
def Race (p q : List (Instr L)) : Prop :=
  ∃ n, ∃ x ∈ p, ∃ y ∈ q, touches n x = true ∧ touches n y = true ∧
    (writes n x = true ∨ writes n y = true)

/-- The nodes an evaluation goes through. -/
def nodes : {τ : L.Ty} → Expr L τ → List ℕ
  | _, .leaf _ _ _ => []
  | _, .un _ _ e => nodes e
  | _, .bin _ _ l r => nodes l ++ nodes r
  | _, .proxy n e => n :: nodes e

end WG.Spec
