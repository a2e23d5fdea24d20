import Verif.Model.ThreadsJac
import Verif.Spec.DynCache
import Verif.Spec.Threads

/-! # Specification of concurrent calls: the answer of each call, and the nodes it goes through -/

namespace WG.Spec

variable {L : Lib}

/-- The call has the answer which the tree its expression stands for has on the leaf values; the list
is that of the nodes in the tree. -/
inductive Gives (B : Bodies L) (s : Store L) : Call L → Answer L → List ℕ → Prop
  | eval {k τ e} {E : Expr L τ} : Unfolds B e E → nesting E ≤ k →
      Gives B s (.eval k e) (.value τ (E.eval s)) (nodes E)
  | jacobian {k t τ e} {E : Expr L τ} : Unfolds B e E → nesting E ≤ k →
      Gives B s (.jacobian k t e) (.jacobian τ t.ty (E.jacobian s t)) (nodes E)
  | dynJacobian {k a σ τ e} {E : Expr L τ} : Unfolds B e E → nesting E ≤ k →
      Gives B s (.dynJacobian k a σ e) (.jacobian τ σ (E.dynJacobian s a σ)) (nodes E)
  | dynReverse {k τ e} {E : Expr L τ} : Unfolds B e E → nesting E ≤ k →
      Gives B s (.dynReverse k e) (.reverse τ (E.eval s) ((ETree.mk s E).dynRev (idBlock rfl)))
        (nodes E)

/-- The calls have these answers, and go through no other nodes. -/
def GivesAll (B : Bodies L) (s : Store L) (used : List ℕ) (calls : List (Call L))
    (answers : List (Answer L)) : Prop :=
  List.Forall₂ (fun c a => ∃ N, N ⊆ used ∧ Gives B s c a N) calls answers

/-- One of the calls goes through node `n`. -/
def Reaches (B : Bodies L) (s : Store L) (calls : List (Call L)) (n : ℕ) : Prop :=
  ∃ c ∈ calls, ∃ a N, Gives B s c a N ∧ n ∈ N

end WG.Spec
