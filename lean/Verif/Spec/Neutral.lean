import Verif.Model.Neutral
import Verif.Spec.Kind
import Verif.Spec.Response

/-!
# Specification: expressions with Identity and Zero

An expression written with `Identity<τ>` and `Zero<τ>` objects should mean what it means with ordinary
objects in their place that hold the identity or zero.
-/

namespace WG.Spec
open Matrix Filter Topology

/-- The same expression with ordinary objects in place of Identity and Zero: at address `N a` in place
of the one at `a`. -/
def spell (N : ℕ → ℕ) : NExpr → SExpr
  | .leaf a c τ => .leaf a c τ
  | .neutral a c τ => .leaf (N a) c τ
  | .un op e => .un op (spell N e)
  | .bin op l r => .bin op (spell N l) (spell N r)
  | .dynamic a e => .dynamic a (spell N e)

/-- The neutral object of a class. -/
def neutralObj : Ty → Obj
  | .vec k => .vec k 0
  | .point => .point 0
  | .rot _ => .rot 1
  | .rigid _ => .motion Rigid.id

/-- The objects at the addresses `N a` hold the identity or zero of their class. -/
def HoldsNeutral (s : Memory) (N : ℕ → ℕ) : Prop :=
  ∀ a τ, Valid τ (s (N a) τ) ∧ obj τ (s (N a) τ) = neutralObj τ

/-- Is the expression literally an Identity or Zero object? -/
def literal : NExpr → Bool
  | .neutral _ _ _ => true
  | _ => false

/-- Kind of a unary operation's result, and whether it is an Identity or Zero, given the same for the
operand and whether the operand is literally an Identity or Zero object; `none` when the operation
does not exist for the kind, and for `rotation()`/`translation()` of an expression that is an
identity without being written as one. -/
def formUn (lit : Bool) : UOp → Kind × Bool → Option (Kind × Bool)
  | .neg, (.vec k, n) => some (.vec k, n)
  | .squaredNorm, (.vec k, _) => if k = .scalar then none else some (.vec .scalar, false)
  | .norm, (.vec k, _) => if k = .scalar then none else some (.vec .scalar, false)
  | .normalized, (.vec k, _) => if k = .scalar then none else some (.vec k, false)
  | .acos, (.vec .scalar, _) => some (.vec .scalar, false)
  | .inverse, (.rot, n) => some (.rot, n)
  | .inverse, (.motion, n) => some (.motion, n)
  | .exp, (.vec .relrot, n) => some (.rot, n)
  | .exp, (.vec .twist, n) => some (.motion, n)
  | .log, (.rot, n) => some (.vec .relrot, n)
  | .log, (.motion, n) => some (.vec .twist, n)
  | .rotation, (.rot, n) => some (.rot, n)
  | .translation, (.rot, n) => some (.vec .trans, lit && n)
  | .rotation, (.motion, n) => if n && !lit then none else some (.rot, n)
  | .translation, (.motion, n) => if n && !lit then none else some (.vec .trans, n)
  | .to τ, (κ, _) => if κ = .ofTy τ then some (κ, false) else none
  | _, _ => none

/-- The same for binary operations; `none` also when a Zero is multiplied or divided by a scalar, and
for a Zero vector plus a Zero point. -/
def formBin : BOp → Kind × Bool → Kind × Bool → Option (Kind × Bool)
  | .add, (.vec k, m), (.vec l, n) => if k = l then some (.vec k, m && n) else none
  | .add, (.point, m), (.vec .trans, n) => some (.point, m && n)
  | .add, (.vec .trans, m), (.point, n) => if m && n then none else some (.point, false)
  | .add, (.rot, m), (.vec .relrot, n) => some (.rot, m && n)
  | .add, (.motion, m), (.vec .twist, n) => some (.motion, m && n)
  | .sub, (.vec k, _), (.vec l, _) => if k = l then some (.vec k, false) else none
  | .sub, (.point, _), (.point, _) => some (.vec .trans, false)
  | .sub, (.point, _), (.vec .trans, _) => some (.point, false)
  | .sub, (.rot, m), (.rot, n) => some (.vec .relrot, m && n)
  | .sub, (.motion, m), (.motion, n) => some (.vec .twist, m && n)
  | .mul, (.vec .scalar, m), (.vec k, n) => if m || n then none else some (.vec k, false)
  | .mul, (.vec k, m), (.vec .scalar, n) => if m || n then none else some (.vec k, false)
  | .mul, (.rot, m), (.rot, n) => some (.rot, m && n)
  | .mul, (.motion, m), (.motion, n) => some (.motion, m && n)
  | .mul, (.rot, m), (.vec .trans, n) => some (.vec .trans, m && n)
  | .mul, (.motion, m), (.vec .trans, n) => some (.vec .trans, m && n)
  | .div, (.vec k, m), (.vec .scalar, n) => if m || n then none else some (.vec k, false)
  | .dot, (.vec k, _), (.vec l, _) =>
    if k = l ∧ k ≠ .scalar then some (.vec .scalar, false) else none
  | _, _, _ => none

/-- Is an Identity or Zero mentioned? -/
def hasNeutral : NExpr → Bool
  | .leaf _ _ _ => false
  | .neutral _ _ _ => true
  | .un _ e => hasNeutral e
  | .bin _ l r => hasNeutral l || hasNeutral r
  | .dynamic _ e => hasNeutral e

/-- The kind of an expression and whether it is an Identity or Zero by the rules of the algebra alone;
`none` for the excluded forms (and for `Zero<Scalar>`, and dynamic nodes around an expression with an
Identity or Zero in it). -/
def form : NExpr → Option (Kind × Bool)
  | .leaf _ _ τ => some (.ofTy τ, false)
  | .neutral _ _ τ => if τ = .vec .scalar then none else some (.ofTy τ, true)
  | .un op e => (form e).bind (formUn (literal e) op)
  | .bin op l r => (form l).bind fun x => (form r).bind fun y => formBin op x y
  | .dynamic _ e => (form e).bind fun x => if hasNeutral e then none else some x

/-- The ordinary object `(n, c, σ)` is written in the expression. -/
def mentions (n c : ℕ) (σ : Ty) : NExpr → Prop
  | .leaf a d τ => a = n ∧ d = c ∧ τ = σ
  | .neutral _ _ _ => False
  | .un _ e => mentions n c σ e
  | .bin _ l r => mentions n c σ l ∨ mentions n c σ r
  | .dynamic _ e => mentions n c σ e

/-- Operations through whose right operand the library cannot differentiate: an identity rotation or
rigid transform times a vector. -/
def noRight : BOp → Kind × Bool → Kind × Bool → Prop
  | .mul, (.rot, true), (.vec .trans, false) => True
  | .mul, (.motion, true), (.vec .trans, false) => True
  | _, _, _ => False

/-- The object `(n, c, σ)` occurs in a vector multiplied by an identity. -/
def Blocked (n c : ℕ) (σ : Ty) : NExpr → Prop
  | .leaf _ _ _ => False
  | .neutral _ _ _ => False
  | .un _ e => Blocked n c σ e
  | .bin op l r => Blocked n c σ l ∨ Blocked n c σ r ∨
      ∃ f g, form l = some f ∧ form r = some g ∧ noRight op f g ∧ mentions n c σ r
  | .dynamic _ e => Blocked n c σ e

/-- The stored value is valid (an Identity or Zero stores nothing). -/
def validAt (s : Memory) (n : ℕ) : XTy → Prop
  | .plain τ => Valid τ (s n τ)
  | _ => True

/-- A unary operator that computes does so where it is exact. -/
def regularUnX (ε : ℝ) : {a b : XTy} → XUn a b → a.Val → Prop
  | a, _, .value op, x => RegularUn ε op (den _ (a.content x))
  | _, _, _, _ => True

/-- A binary operator that computes does so where it is exact, and does not refer to a dead
temporary. -/
def regularBinX : {a b c : XTy} → XBin a b c → a.Val → b.Val → Prop
  | a, b, _, .value op, x, y => RegularBin op (den _ (a.content x)) (den _ (b.content y))
  | _, _, _, .dangling _, _, _ => False
  | _, _, _, _, _, _ => True

/-- As `RegularAt`: stored values are valid and every operator is applied where it is exact. -/
def RegularX (ε : ℝ) (s : Memory) : {a : XTy} → Expr (xLib ε) a → Prop
  | _, .leaf n _ a => validAt s n a
  | _, .un _ (op : XUn _ _) e => RegularX ε s e ∧
      ∀ x, value (xmem ε s) e = some x → regularUnX ε op x
  | _, .bin _ (op : XBin _ _ _) l r => RegularX ε s l ∧ RegularX ε s r ∧
      ∀ x y, value (xmem ε s) l = some x → value (xmem ε s) r = some y → regularBinX op x y
  | _, .proxy _ e => RegularX ε s e

/-- The response of an expression to the perturbation `d` of the ordinary object at `n` of class
`σ`, with the box operators of the library. -/
noncomputable def responseX {ε : ℝ} (s : Memory) (n : ℕ) (σ : Ty) {τ : Ty}
    (e : Expr (xLib ε) (.plain τ)) (d : σ.Idx → ℝ) : Option (τ.Idx → ℝ) :=
  (boxPlusVal ε σ (s n σ) d).bind fun v =>
    (value (xmem ε (Store.set (L := geoLib ε) s n σ v)) e).bind fun y =>
      (value (xmem ε s) e).bind fun y₀ => boxMinusVal ε τ y y₀

/-- `J` is the derivative at zero of that response. -/
def IsDerivativeX {ε : ℝ} (s : Memory) (n : ℕ) (σ : Ty) {τ : Ty} (e : Expr (xLib ε) (.plain τ))
    (J : Matrix τ.Idx σ.Idx ℝ) : Prop :=
  ∃ F : (σ.Idx → ℝ) → τ.Idx → ℝ, (∀ᶠ d in 𝓝 0, responseX s n σ e d = some (F d)) ∧ F 0 = 0 ∧
    HasFDerivAt F (linMap J) 0

end WG.Spec
