import Verif.Model.RoundingDiv
import Verif.Spec.Rounding

/-!
# Specification: sizes of errors with divisions

The bounds of `Spec/Rounding.lean`, extended by operations whose error depends on how large their
operand is compared with the sizes it was computed from (its condition).
-/

namespace WG.Spec

variable {ε : ℝ}

/-- The unit quaternion of the rotation with rotation vector `v`. -/
noncomputable def trueExp (v : V3) : Quat :=
  ⟨Real.cos (len v / 2), Real.sin (len v / 2) / len v * v 0, Real.sin (len v / 2) / len v * v 1,
    Real.sin (len v / 2) / len v * v 2⟩

/-- Result of an operation to compare with: that of exact arithmetic, and for `exp` the exponential
itself (the code approximates it for small angles). -/
noncomputable def idealUn (ε : ℝ) : {a b : Ty} → Un a b → a.Val → Option b.Val
  | _, _, .expRel, v => some (trueExp v)
  | _, _, op, x => evalUn ε op x

/-- Value of an expression to compare with. -/
noncomputable def ideal (s : Store (geoLib ε)) : {τ : Ty} → Expr (geoLib ε) τ → Option τ.Val
  | _, .leaf a _ τ => some (s a τ)
  | _, .un _ (op : Un _ _) e => (ideal s e).bind (idealUn ε op)
  | _, .bin _ (op : Bin _ _ _) l r => (ideal s l).bind fun x => (ideal s r).bind fun y => evalBin op x y
  | _, .proxy _ e => ideal s e

/-- Length of the exact value of an expression (zero if it has none). -/
noncomputable def magnitude (s : Store (geoLib ε)) {τ : Ty} (e : Expr (geoLib ε) τ) : ℝ :=
  match ideal s e with
  | some v => size τ v
  | none => 0

/-- Size of the result of a unary operation, from the size of the operand. -/
noncomputable def ampUnD : {a b : Ty} → Un a b → ℝ → ℝ
  | _, _, .normalize _, _ => 1
  | _, _, .acos, _ => Real.pi
  | _, _, .expRel, _ => 0
  | _, _, op, S => ampUn op S

/-- Size of the result of a binary operation, from the sizes of the operands and the magnitude of the
right one. -/
noncomputable def ampBinD : {a b c : Ty} → Bin a b c → ℝ → ℝ → ℝ → ℝ
  | _, _, _, .divide, S, _, Y => S / Y
  | _, _, _, .scaleDiv _, S, _, Y => S / Y
  | _, _, _, op, S, T, _ => ampBin op S T

/-- Size of an expression. -/
noncomputable def ampD (s : Store (geoLib ε)) : {τ : Ty} → Expr (geoLib ε) τ → ℝ
  | _, .leaf a _ τ => size τ (s a τ)
  | _, .un _ (op : Un _ _) e => ampUnD op (ampD s e)
  | _, .bin _ (op : Bin _ _ _) l r => ampBinD op (ampD s l) (ampD s r) (magnitude s r)
  | _, .proxy _ e => ampD s e

/-- Error of `exp` of a vector of length `θ`: rounding, and the error of the small-angle formula, at
most `θ³ / 22` for `θ⁴ ≤ 2 ε`. -/
noncomputable def expError (u m ε θ : ℝ) : ℝ :=
  max ((1 + m) * (growth u 2 + growth u 4) / (1 - growth u 4) + 2 * m + growth u 5 * θ)
    (4 * u + growth u 4 / 6 + Real.sqrt (Real.sqrt (2 * ε)) ^ 3 / 22)

/-- Factor of a unary operation whose operand has size `S`, magnitude `X` and factor `A`. -/
noncomputable def facUnD (u m ε : ℝ) : {a b : Ty} → Un a b → (S X A : ℝ) → ℝ
  | _, _, .normalize k, S, X, A =>
    (1 + u) / (1 - growth u (Fintype.card k.Idx + 1)) + 2 * ((A - 1) * S / X)
  | _, _, .acos, S, X, A =>
    1 + m + (A - 1) * S / (Real.pi * Real.sqrt (1 - (X + (A - 1) * S) ^ 2))
  | _, _, .expRel, S, _, A => 1 + (A - 1) * S / 2 + expError u m ε (A * S)
  | _, _, op, _, _, A => facUn u op A

/-- Factor of a binary operation whose right operand has size `T` and magnitude `Y`. -/
noncomputable def facBinD (u : ℝ) : {a b c : Ty} → Bin a b c → (T Y A B : ℝ) → ℝ
  | _, _, _, .divide, T, Y, A, B => A * (1 + u) / (1 - (B - 1) * T / Y)
  | _, _, _, .scaleDiv _, T, Y, A, B => A * (1 + u) / (1 - (B - 1) * T / Y)
  | _, _, _, op, _, _, A, B => facBin u op A B

/-- Error factor of an expression whose leaves are stored with relative error at most `η`. -/
noncomputable def factorD (u m η : ℝ) (s : Store (geoLib ε)) : {τ : Ty} → Expr (geoLib ε) τ → ℝ
  | _, .leaf _ _ _ => 1 + η
  | _, .un _ (op : Un _ _) e => facUnD u m ε op (ampD s e) (magnitude s e) (factorD u m η s e)
  | _, .bin _ (op : Bin _ _ _) l r =>
    facBinD u op (ampD s r) (magnitude s r) (factorD u m η s l) (factorD u m η s r)
  | _, .proxy _ e => factorD u m η s e

/-- The operand of a unary operation is known well enough: a vector to be normalised is larger than
its error (and the rounding unit is not huge), the argument of `acos` is inside of `(-1, 1)` by more
than its error; for `exp`, the rounding unit and `ε` are small. -/
def CondUn (u ε : ℝ) : {a b : Ty} → Un a b → (S X A : ℝ) → Prop
  | _, _, .normalize k, S, X, A => (A - 1) * S < X ∧ growth u (Fintype.card k.Idx + 1) < 1
  | _, _, .acos, S, X, A => X + (A - 1) * S < 1
  | _, _, .expRel, _, _, _ => u ≤ 1 / 100 ∧ 0 ≤ ε ∧ ε ≤ 1 / 2
  | _, _, _, _, _, _ => True

/-- A divisor is larger than its error. -/
def CondBin : {a b c : Ty} → Bin a b c → (T Y B : ℝ) → Prop
  | _, _, _, .divide, T, Y, B => (B - 1) * T < Y
  | _, _, _, .scaleDiv _, T, Y, B => (B - 1) * T < Y
  | _, _, _, _, _, _, _ => True

/-- All divisors, vectors to be normalised and arguments of `acos` are known well enough. -/
def Conditioned (u m η : ℝ) (s : Store (geoLib ε)) : {τ : Ty} → Expr (geoLib ε) τ → Prop
  | _, .leaf _ _ _ => True
  | _, .un _ (op : Un _ _) e => Conditioned u m η s e ∧
      CondUn u ε op (ampD s e) (magnitude s e) (factorD u m η s e)
  | _, .bin _ (op : Bin _ _ _) l r => Conditioned u m η s l ∧ Conditioned u m η s r ∧
      CondBin op (ampD s r) (magnitude s r) (factorD u m η s r)
  | _, .proxy _ e => Conditioned u m η s e

/-- Unary operations covered. -/
def CovUnD : {a b : Ty} → Un a b → Prop
  | _, _, .normalize _ => True
  | _, _, .acos => True
  | _, _, .expRel => True
  | _, _, op => CovUn op

/-- Binary operations covered. -/
def CovBinD : {a b c : Ty} → Bin a b c → Prop
  | _, _, _, .divide => True
  | _, _, _, .scaleDiv _ => True
  | _, _, _, op => CovBin op

/-- Expressions built from such operations. -/
def CoveredD : {τ : Ty} → Expr (geoLib ε) τ → Prop
  | _, .leaf _ _ _ => True
  | _, .un _ (op : Un _ _) e => CovUnD op ∧ CoveredD e
  | _, .bin _ (op : Bin _ _ _) l r => CovBinD op ∧ CoveredD l ∧ CoveredD r
  | _, .proxy _ e => CoveredD e

/-- Operations other than the exponential of a relative rotation. -/
def NotExp : {a b : Ty} → Un a b → Prop
  | _, _, .expRel => False
  | _, _, _ => True

/-- Expressions without the exponential of a relative rotation. -/
def NoExp : {τ : Ty} → Expr (geoLib ε) τ → Prop
  | _, .leaf _ _ _ => True
  | _, .un _ (op : Un _ _) e => NotExp op ∧ NoExp e
  | _, .bin _ _ l r => NoExp l ∧ NoExp r
  | _, .proxy _ e => NoExp e

end WG.Spec
