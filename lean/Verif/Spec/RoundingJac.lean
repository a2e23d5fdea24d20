import Verif.Model.RoundingJac
import Verif.Spec.Rounding

/-!
# Specification: sizes of errors of Jacobians

How far a computed Jacobian may be from the exact one.  The size of the Jacobian of an expression is
the sum, over the paths to the target, of products of one gain per operation; the gain of an operation
bounds how much it can stretch a small change of its operand.  The error relative to this size is again
given by a product of one factor per operation.
-/

namespace WG.Spec
open Matrix

/-- Every column of `K` is within `δ` of the column of `J`. -/
def Columns {m n : Type} [Fintype m] (δ : ℝ) (J K : Matrix m n ℝ) : Prop :=
  ∀ j, len (fun i => K i j - J i j) ≤ δ

/-- Every row of `K` is within `δ` of the row of `J`. -/
def Rows {m n : Type} [Fintype n] (δ : ℝ) (J K : Matrix m n ℝ) : Prop :=
  ∀ i, len (fun j => K i j - J i j) ≤ δ

/-- The leaves of `e` in `s` are valid, and `s'` stores them with relative error at most `η`. -/
def StoredWithin {ε : ℝ} (η : ℝ) (s s' : Store (geoLib ε)) {τ : Ty} (e : Expr (geoLib ε) τ) : Prop :=
  ∀ t ∈ e.leaves, Valid t.ty (s t.addr t.ty) ∧
    Within t.ty η (size t.ty (s t.addr t.ty)) (s t.addr t.ty) (s' t.addr t.ty)

/-- Which leaves and which inner nodes are the target of a derivative. -/
structure Hits where
  leaf : ℕ → ℕ → Ty → Bool
  node : ℕ → Bool

/-- Targets known by address only. -/
def byAddr (t : ℕ) : Hits := ⟨fun a _ _ => a = t, fun a => a = t⟩

/-- Targets known by address and static type. -/
def byObject {ε : ℝ} (t : Target (geoLib ε)) : Hits :=
  ⟨fun a c τ => decide (τ = t.ty) && (c = t.cls) && (a = t.addr), fun _ => false⟩

/-- Targets known by static type only. -/
def byType {ε : ℝ} (t : Target (geoLib ε)) : Hits :=
  ⟨fun _ c τ => decide (τ = t.ty) && (c = t.cls), fun _ => false⟩

/-- Gain of a unary operation, from the size of the operand. -/
def gainUn : {a b : Ty} → Un a b → ℝ → ℝ
  | _, _, .sqNorm _, S => 2 * S
  | _, _, .invRigid _, S => 1 + S
  | _, _, .getTrans _, S => 1 + S
  | _, _, _, _ => 1

/-- Gain of a binary operation for changes of the left operand, from the sizes of the operands. -/
def gainL : {a b c : Ty} → Bin a b c → ℝ → ℝ → ℝ
  | _, _, _, .scale _, _, T => T
  | _, _, _, .scaleR _, _, T => T
  | _, _, _, .dot _, _, T => T
  | _, _, _, .product, _, T => T
  | _, _, _, .flipRigid _ _, _, T => 1 + T
  | _, _, _, .rotateQ, _, T => T
  | _, _, _, .rotateM, _, T => T
  | _, _, _, .transform _, S, T => 1 + (S + T)
  | _, _, _, _, _, _ => 1

/-- Gain of a binary operation for changes of the right operand. -/
def gainR : {a b c : Ty} → Bin a b c → ℝ → ℝ → ℝ
  | _, _, _, .scale _, S, _ => S
  | _, _, _, .scaleR _, S, _ => S
  | _, _, _, .dot _, S, _ => S
  | _, _, _, .product, S, _ => S
  | _, _, _, .composeRigid _ _, S, _ => 1 + S
  | _, _, _, _, _, _ => 1

/-- Factor for the matrix of a stored rotation. -/
def rotJac (u : ℝ) : RotK → ℝ → ℝ
  | .quat, A => convFactor u A
  | .mat, A => A
  | .aa, _ => 1

/-- Factor for the adjoint matrix of a stored transform. -/
def adjFactor (u : ℝ) (k : RigK) (A : ℝ) : ℝ :=
  A ^ 2 * rotJac u k.rotK A ^ 2 * (1 + 3 * growth u 3)

/-- Factor of the Jacobian of a unary operation, from the factor of the operand. -/
noncomputable def locUn (u : ℝ) : {a b : Ty} → Un a b → ℝ → ℝ
  | _, _, .sqNorm _, A => A * (1 + u)
  | _, _, .invRot k, A => rotJac u k A
  | _, _, .invRigid k, A => adjFactor u k (facUn u (.invRigid k) A)
  | _, _, .getTrans _, A => A ^ 2
  | _, _, _, _ => 1

/-- Factor of the left Jacobian of a binary operation. -/
noncomputable def locL (u : ℝ) : {a b c : Ty} → Bin a b c → ℝ → ℝ → ℝ
  | _, _, _, .scale _, _, B => B
  | _, _, _, .scaleR _, _, B => B ^ 3
  | _, _, _, .dot _, _, B => B
  | _, _, _, .product, _, B => B
  | _, _, _, .flipQ, _, B => rotJac u .quat B
  | _, _, _, .flipM, _, B => rotJac u .mat B
  | _, _, _, .flipRigid _ b, _, B => adjFactor u b B
  | _, _, _, .rotateQ, A, B => facBin u .rotateQ A B ^ 2
  | _, _, _, .rotateM, A, B => facBin u .rotateM A B ^ 2
  | _, _, _, .transform k, A, B => facBin u (.transform k) A B ^ 2
  | _, _, _, _, _, _ => 1

/-- Factor of the right Jacobian of a binary operation. -/
noncomputable def locR (u : ℝ) : {a b c : Ty} → Bin a b c → ℝ → ℝ → ℝ
  | _, _, _, .scale _, A, _ => A ^ 3
  | _, _, _, .scaleR _, A, _ => A
  | _, _, _, .dot _, A, _ => A
  | _, _, _, .product, A, _ => A
  | _, _, _, .composeQ, A, _ => rotJac u .quat A
  | _, _, _, .composeM, A, _ => rotJac u .mat A
  | _, _, _, .composeRigid a _, A, _ => adjFactor u a A
  | _, _, _, .rotateQ, A, _ => rotJac u .quat A
  | _, _, _, .rotateM, A, _ => rotJac u .mat A
  | _, _, _, .transform k, A, _ => rotJac u k.rotK A
  | _, _, _, _, _, _ => 1

/-- Factor of the product of a local Jacobian with a Jacobian. -/
def chainFactor (u : ℝ) : ℝ := 1 + 3 * growth u 6

variable {ε : ℝ}

/-- Size of the Jacobian of an expression. -/
noncomputable def ampJ (s : Store (geoLib ε)) (h : Hits) : {τ : Ty} → Expr (geoLib ε) τ → ℝ
  | _, .leaf a c τ => if h.leaf a c τ then 1 else 0
  | _, .un a (op : Un _ _) e => if h.node a then 1 else gainUn op (amp s e) * ampJ s h e
  | _, .bin a (op : Bin _ _ _) l r => if h.node a then 1 else
      gainL op (amp s l) (amp s r) * ampJ s h l + gainR op (amp s l) (amp s r) * ampJ s h r
  | _, .proxy a e => if h.node a then 1 else ampJ s h e

/-- Error factor of the Jacobian of an expression whose leaves are stored with relative error at most
`η`. -/
noncomputable def facJ (u η : ℝ) (h : Hits) : {τ : Ty} → Expr (geoLib ε) τ → ℝ
  | _, .leaf _ _ _ => 1
  | _, .un a (op : Un _ _) e => if h.node a then 1 else
      locUn u op (factor u η e) * facJ u η h e * chainFactor u
  | _, .bin a (op : Bin _ _ _) l r => if h.node a then 1 else
      max (locL u op (factor u η l) (factor u η r) * facJ u η h l)
        (locR u op (factor u η l) (factor u η r) * facJ u η h r) * chainFactor u * (1 + u)
  | _, .proxy a e => if h.node a then 1 else facJ u η h e

/-- Size and error factor of the Jacobian along the path to each leaf, in reading order. -/
noncomputable def paths (u η : ℝ) (s : Store (geoLib ε)) : {τ : Ty} → Expr (geoLib ε) τ → List (ℝ × ℝ)
  | _, .leaf _ _ _ => [(1, 1)]
  | _, .un _ (op : Un _ _) e => (paths u η s e).map fun p =>
      (gainUn op (amp s e) * p.1, locUn u op (factor u η e) * chainFactor u * p.2)
  | _, .bin _ (op : Bin _ _ _) l r =>
    ((paths u η s l).map fun p => (gainL op (amp s l) (amp s r) * p.1,
      locL u op (factor u η l) (factor u η r) * chainFactor u * p.2)) ++
    (paths u η s r).map fun p => (gainR op (amp s l) (amp s r) * p.1,
      locR u op (factor u η l) (factor u η r) * chainFactor u * p.2)
  | _, .proxy _ e => paths u η s e

/-- Unary operations whose Jacobian exists and needs no division. -/
def JacUn : {a b : Ty} → Un a b → Prop
  | _, _, .norm _ => False
  | _, _, .zeroTrans _ => False
  | _, _, .invRot k => k ≠ .aa
  | _, _, op => CovUn op

/-- Expressions whose values and Jacobians need no division. -/
def JacCovered : {τ : Ty} → Expr (geoLib ε) τ → Prop
  | _, .leaf _ _ _ => True
  | _, .un _ (op : Un _ _) e => JacUn op ∧ JacCovered e
  | _, .bin _ (op : Bin _ _ _) l r => CovBin op ∧ JacCovered l ∧ JacCovered r
  | _, .proxy _ e => JacCovered e

end WG.Spec
