import Verif.Spec.Response
import Verif.Model.PlainNumber

/-!
# Specification: expressions with plain numbers

An expression with plain numbers means the expression in which every number, named or not, integer
or not, is a `Scalar<double>` object of its own holding that number.
-/

namespace WG.Spec
open Matrix Filter Topology

variable {ε : ℝ}

/-- Numbers the leaf classes, to keep objects of different classes at one address apart. -/
def code : NTy → ℕ
  | .geo _ => 0
  | .number => 1
  | .integer .int => 2
  | .integer .uint => 3
  | .integer .long => 4
  | .integer .ulong => 5
  | .intScalar .int => 6
  | .intScalar .uint => 7
  | .intScalar .long => 8
  | .intScalar .ulong => 9

/-- The value as a value over `double`. -/
def asReal : (α : NTy) → α.Val → α.real.Val
  | .number, x => x
  | .integer _, (z : ℤ) => sc (z : ℝ)
  | .intScalar _, (z : ℤ) => sc (z : ℝ)
  | .geo _, x => x

/-- The operator of the library over `double`. -/
def binReals : {α β γ : NTy} → NBin α β γ → Bin α.real β.real γ.real
  | _, _, _, .geo op => op
  | _, _, _, .sumI _ => Bin.sum .scalar
  | _, _, _, .subI _ => Bin.sub .scalar
  | _, _, _, .productI _ => Bin.product
  | _, _, _, .productL _ => Bin.product
  | _, _, _, .divideI _ => Bin.divide
  | _, _, _, .divideL _ => Bin.divide
  | _, _, _, .scaleI _ v => Bin.scale v
  | _, _, _, .scaleRI _ v => Bin.scaleR v
  | _, _, _, .scaleDivI _ v => Bin.scaleDiv v

/-- A unary operation over `double`; a reference to a number is the number. -/
def unReals (a : ℕ) : {α β : NTy} → NUn α β → Expr (geoLib ε) α.real → Expr (geoLib ε) β.real
  | _, _, .geo op, e => .un a op e
  | _, _, .ref, e => e
  | _, _, .refInt _, e => e

/-- The expression with a `Scalar<double>` object in place of every number. -/
def inReals : {α : NTy} → Expr (numLib ε) α → Expr (geoLib ε) α.real
  | _, .leaf a c α => Expr.leaf (L := geoLib ε) (10 * a + code α) (10 * c + code α)
      (NTy.real α)
  | _, .un a op e => unReals a op (inReals e)
  | _, .bin a op l r => .bin a (binReals op) (inReals l) (inReals r)
  | _, .proxy a e => .proxy a (inReals e)

/-- Unsigned integer types, with the number of their values. -/
def modulus : IntK → Option ℤ
  | .uint => some 4294967296
  | .ulong => some 18446744073709551616
  | _ => none

/-- Least value of an integer type. -/
def least : IntK → ℤ
  | .int => -2147483648
  | .long => -9223372036854775808
  | _ => 0

/-- Greatest value of an integer type. -/
def greatest : IntK → ℤ
  | .int => 2147483647
  | .uint => 4294967295
  | .long => 9223372036854775807
  | .ulong => 18446744073709551615

/-- Some value of each class (contents of memory outside the objects). -/
def someVal : (τ : Ty) → τ.Val
  | .vec k => fun _ : k.Idx => (0 : ℝ)
  | .point => (0 : V3)
  | .rot .quat => (⟨1, 0, 0, 0⟩ : Quat)
  | .rot .mat => (1 : M3)
  | .rot .aa => (⟨0, ![1, 0, 0]⟩ : AngleAxis)
  | .rigid .mat => (1 : M4)
  | .rigid .compact => ⟨⟨1, 0, 0, 0⟩, 0⟩

/-- The memory holding those objects. -/
def memReals (s : Store (numLib ε)) : Store (geoLib ε)
  | b, .vec .scalar =>
    match b % 10 with
    | 0 => s (b / 10) (NTy.geo (.vec .scalar))
    | 1 => s (b / 10) NTy.number
    | 2 => sc ((s (b / 10) (NTy.integer .int) : ℤ) : ℝ)
    | 3 => sc ((s (b / 10) (NTy.integer .uint) : ℤ) : ℝ)
    | 4 => sc ((s (b / 10) (NTy.integer .long) : ℤ) : ℝ)
    | 5 => sc ((s (b / 10) (NTy.integer .ulong) : ℤ) : ℝ)
    | 6 => sc ((s (b / 10) (NTy.intScalar .int) : ℤ) : ℝ)
    | 7 => sc ((s (b / 10) (NTy.intScalar .uint) : ℤ) : ℝ)
    | 8 => sc ((s (b / 10) (NTy.intScalar .long) : ℤ) : ℝ)
    | _ => sc ((s (b / 10) (NTy.intScalar .ulong) : ℤ) : ℝ)
  | b, τ => if b % 10 = 0 then s (b / 10) (NTy.geo τ) else someVal τ

/-- The object standing for the object `t`. -/
def objReals (t : Target (numLib ε)) : Target (geoLib ε) :=
  ⟨10 * t.addr + code t.ty, 10 * t.cls + code t.ty, NTy.real t.ty⟩

/-- Objects holding a `double` or several (so not an integer). -/
def Floating (t : Target (numLib ε)) : Prop := ∀ k, t.ty ≠ NTy.integer k ∧ t.ty ≠ NTy.intScalar k

/-- The expression is at a regular point. -/
def RegularN (s : Store (numLib ε)) {α : NTy} (e : Expr (numLib ε) α) : Prop :=
  RegularAt ε (memReals s) (inReals e)

/-- The difference between the values of an expression after and before the object `t` is replaced
by `t + d`. -/
noncomputable def responseN (s : Store (numLib ε)) (t : Target (numLib ε)) {τ : Ty}
    (e : Expr (numLib ε) (.geo τ)) (d : (NTy.real t.ty).Idx → ℝ) : Option (τ.Idx → ℝ) :=
  (nBoxPlus ε t.ty (s t.addr t.ty) d).bind fun v =>
    (value (s.set t.addr t.ty v) e).bind fun y => (value s e).bind fun y₀ => boxMinusVal ε τ y y₀

/-- `J` is the derivative at zero of that difference. -/
def IsDerivativeN (s : Store (numLib ε)) (t : Target (numLib ε)) {τ : Ty}
    (e : Expr (numLib ε) (.geo τ)) (J : Matrix τ.Idx (NTy.real t.ty).Idx ℝ) : Prop :=
  ∃ F : ((NTy.real t.ty).Idx → ℝ) → τ.Idx → ℝ, (∀ᶠ d in 𝓝 0, responseN s t e d = some (F d)) ∧
    F 0 = 0 ∧ HasFDerivAt F (linMap J) 0

/-- A binary operation with these operands divides no scalar by an integer other than `1` and `-1`,
and an integer it divides by a scalar is a value of a signed type and not the least one (or is zero). -/
def GoodQuotient : {α β γ : NTy} → NBin α β γ → α.Val → β.Val → Prop
  | _, _, _, .divideI _, _, (z : ℤ) => z = 1 ∨ z = -1
  | _, _, _, .divideL k, (z : ℤ), _ => modulus k = none ∧ least k < z ∧ z ≤ greatest k ∨ z = 0
  | _, _, _, _, _, _ => True

/-- All operations of the expression are of that kind. -/
def GoodQuotients (s : Store (numLib ε)) : {α : NTy} → Expr (numLib ε) α → Prop
  | _, .leaf _ _ _ => True
  | _, .un _ _ e => GoodQuotients s e
  | _, .bin _ op l r => GoodQuotients s l ∧ GoodQuotients s r ∧
      ∀ x y, value s l = some x → value s r = some y → GoodQuotient op x y
  | _, .proxy _ e => GoodQuotients s e

/-- A value of an integer type. -/
def Fits (k : IntK) (z : ℤ) : Prop :=
  least k ≤ z ∧ z ≤ greatest k

/-- What memory holds for an integer object is a value of its type. -/
def Representable (s : Store (numLib ε)) (t : Target (numLib ε)) : Prop :=
  match t with
  | ⟨a, _, .integer k⟩ => Fits k (s a (.integer k))
  | ⟨a, _, .intScalar k⟩ => Fits k (s a (.intScalar k))
  | _ => True

/-- The square of an integer divisor fits its type. -/
def GoodSquare : {α β γ : NTy} → NBin α β γ → β.Val → Prop
  | _, _, _, .divideI k, (z : ℤ) => z * z ≤ greatest k
  | _, _, _, .scaleDivI k _, (z : ℤ) => z * z ≤ greatest k
  | _, _, _, _, _ => True

/-- The squares of all integer divisors of the expression fit their types. -/
def GoodSquares (s : Store (numLib ε)) : {α : NTy} → Expr (numLib ε) α → Prop
  | _, .leaf _ _ _ => True
  | _, .un _ _ e => GoodSquares s e
  | _, .bin _ op l r => GoodSquares s l ∧ GoodSquares s r ∧
      ∀ y, value s r = some y → GoodSquare op y
  | _, .proxy _ e => GoodSquares s e

/-- The number an operand holds or evaluates to. -/
noncomputable def readArg (s : Store (numLib ε)) : NArg ε → Option ℝ
  | .expr e => (value s e).map fun x : Fin 1 → ℝ => x 0
  | .real true a => some ((s a NTy.number : Fin 1 → ℝ) 0)
  | .real false a => some ((s a (NTy.geo (.vec .scalar)) : Fin 1 → ℝ) 0)
  | .int true k a => some ((s a (NTy.integer k) : ℤ) : ℝ)
  | .int false k a => some ((s a (NTy.intScalar k) : ℤ) : ℝ)

/-- The arithmetic operation written. -/
noncomputable def arithOf : NOp → ℝ → ℝ → Option ℝ
  | .add, x, y => some (x + y)
  | .sub, x, y => some (x - y)
  | .mul, x, y => some (x * y)
  | .div, x, y => if y = 0 then none else some (x / y)

end WG.Spec
