import Verif.Model.CppType
import Verif.Spec.Occurrence

/-!
# Specification: sub-expressions, when two expressions are the same, and replacing a sub-expression
by a variable
-/

namespace WG.Spec

variable {L : Lib}

/-- The structure of an expression: operators and leaf types, not how operands were passed. -/
inductive Shape (T : Type)
  | leaf (τ : T) (cls : ℕ)
  | un (tag aux : ℕ) (τ : T) (r : Shape T)
  | bin (tag aux : ℕ) (τ : T) (l r : Shape T)
  | proxy (τ : T)

/-- The structure of an expression. -/
def shape : {τ : L.Ty} → CExpr L τ → Shape L.Ty
  | _, .leaf _ c τ => .leaf τ c
  | β, .un op x _ e => .un (L.unTag op) x β (shape e)
  | γ, .bin op x _ l _ r => .bin (L.binTag op) x γ (shape l) (shape r)
  | τ, .proxy _ _ => .proxy τ

/-- The objects an expression refers to, in reading order: addresses of leaves and of dynamic
nodes. -/
def refers : {τ : L.Ty} → CExpr L τ → List ℕ
  | _, .leaf a _ _ => [a]
  | _, .un _ _ _ e => refers e
  | _, .bin _ _ _ l _ r => refers l ++ refers r
  | _, .proxy a _ => [a]

/-- The forms in which the operands of an expression are given, in reading order. -/
def forms : {τ : L.Ty} → CExpr L τ → List Form
  | _, .leaf _ _ _ => []
  | _, .un _ _ q e => q :: forms e
  | _, .bin _ _ q l q' r => q :: q' :: (forms l ++ forms r)
  | _, .proxy _ _ => []

/-- Two expressions are the same: the same operators applied to the same objects. -/
def SameExpr {τ σ : L.Ty} (e : CExpr L τ) (f : CExpr L σ) : Prop :=
  shape e = shape f ∧ refers e = refers f

/-- The sub-expressions of an expression, itself included. -/
def subterms : {τ : L.Ty} → CExpr L τ → List ((σ : L.Ty) × CExpr L σ)
  | _, e@(.leaf _ _ _) => [⟨_, e⟩]
  | _, e@(.un _ _ _ x) => ⟨_, e⟩ :: subterms x
  | _, e@(.bin _ _ _ l _ r) => ⟨_, e⟩ :: (subterms l ++ subterms r)
  | _, e@(.proxy _ _) => [⟨_, e⟩]

/-- An expression whose operands (if it has any) are leaves passed by name as constants: a leaf, or
one operation on such leaves. -/
def OnLeaves : {τ : L.Ty} → CExpr L τ → Prop
  | _, .leaf _ _ _ => True
  | _, .un _ _ q (.leaf _ _ _) => q = .cref
  | _, .bin _ _ q (.leaf _ _ _) q' (.leaf _ _ _) => q = .cref ∧ q' = .cref
  | _, _ => False

open Classical in
/-- The expression with every sub-expression that is `q` replaced by the variable at address `y` (of
type `c`). -/
noncomputable def abstracted {σ : L.Ty} (q : CExpr L σ) (y c : ℕ) :
    {τ : L.Ty} → CExpr L τ → Expr L τ
  | τ, e@(.leaf a d _) => if SameExpr e q then .leaf y c τ else .leaf a d τ
  | τ, e@(.un op _ _ x) => if SameExpr e q then .leaf y c τ else .un 0 op (abstracted q y c x)
  | τ, e@(.bin op _ _ l _ r) => if SameExpr e q then .leaf y c τ
      else .bin 0 op (abstracted q y c l) (abstracted q y c r)
  | τ, .proxy a e => .proxy a e

/-- An operator is determined by its template and the classes of its operands and result. -/
structure TagsFaithful (L : Lib) : Prop where
  un : ∀ {a b : L.Ty} (f g : L.Un a b), L.unTag f = L.unTag g → f = g
  bin : ∀ {a b c : L.Ty} (f g : L.Bin a b c), L.binTag f = L.binTag g → f = g

end WG.Spec
