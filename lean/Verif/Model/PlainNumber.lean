import Verif.Model.Geo

/-!
# Plain numbers as operands

`s * x`, `x / s`, `2 * v`, … with a built-in number on one side (util/macros.hpp:87-129;
instantiated in geometry/base/ScalarBase.hpp:157, 164, 177, 190 and
geometry/base/VectorBase.hpp:319, 332, 345).  A named number becomes a `Scalar<T &>`, a unary
expression that holds a reference (geometry/leaf/Scalar.hpp:57-80); a temporary becomes a leaf
`Scalar<T>` that stores the number.  `T` is any arithmetic type (`is_scalar`,
core/traits/type_traits.hpp:170-173), so it may be an integer type; then part of the arithmetic in
the operators is integer arithmetic.

The leaf classes are those of `geoLib` (whose `.vec .scalar` is `Scalar<double>`), the built-in
`double`, the built-in integers and `Scalar` of an integer.  The types narrower than `int`
(`bool`, `char`, `short`) are promoted to `int` in every arithmetic operation of the code and are
covered by `int`.  Floating point conversion of an integer is taken as exact.  Operators with two
integer operands are left out, as are sums of integers with vectors (there are none in the code).
-/

namespace WG
open Matrix

/-- Integer types after promotion. -/
inductive IntK
  | int | uint | long | ulong
  deriving DecidableEq

/-- Bits of the type (the LP64 data model). -/
def IntK.bits : IntK → ℕ
  | .int => 32
  | .uint => 32
  | .long => 64
  | .ulong => 64

/-- Signed types. -/
def IntK.signed : IntK → Bool
  | .int => true
  | .uint => false
  | .long => true
  | .ulong => false

/-- Result of an operation on integers whose mathematical result is `z`: reduced modulo `2 ^ bits`
for unsigned types; undefined behaviour (`none`) for a signed type that cannot represent `z`. -/
def IntK.wrap (k : IntK) (z : ℤ) : Option ℤ :=
  if k.signed then
    if -2 ^ (k.bits - 1) ≤ z ∧ z < 2 ^ (k.bits - 1) then some z else none
  else some (z % 2 ^ k.bits)

/-- `1 / n` in integer arithmetic (the literal `1` is converted to the type of `n`): truncated
towards zero, undefined behaviour (`none`) if `n` is zero. -/
def intRecip (z : ℤ) : Option ℤ := if z = 0 then none else some (Int.tdiv 1 z)

/-- Leaf classes. -/
inductive NTy
  /-- `double` -/
  | number
  /-- an integer type -/
  | integer (k : IntK)
  /-- `Scalar` of an integer type -/
  | intScalar (k : IntK)
  /-- the leaf classes of the library over `double` -/
  | geo (τ : Ty)
  deriving DecidableEq

/-- The class of the same shape over `double`: the tangent space of a number is one-dimensional
(core/traits/type_traits.hpp:176-181). -/
@[reducible] def NTy.real : NTy → Ty
  | .number => .vec .scalar
  | .integer _ => .vec .scalar
  | .intScalar _ => .vec .scalar
  | .geo τ => τ

/-- Stored values. -/
@[reducible] def NTy.Val : NTy → Type
  | .number => Fin 1 → ℝ
  | .integer _ => ℤ
  | .intScalar _ => ℤ
  | .geo τ => τ.Val

/-- Unary operators: those of the library, and `Scalar<T &>` (geometry/leaf/Scalar.hpp:57-80). -/
inductive NUn : NTy → NTy → Type
  | geo {a b : Ty} (op : Un a b) : NUn (.geo a) (.geo b)
  /-- `Scalar<double &>` -/
  | ref : NUn .number (.geo (.vec .scalar))
  /-- `Scalar<int &>` and the like -/
  | refInt (k : IntK) : NUn (.integer k) (.intScalar k)

/-- Binary operators: those of the library, and those whose scalar operand is an integer. -/
inductive NBin : NTy → NTy → NTy → Type
  | geo {a b c : Ty} (op : Bin a b c) : NBin (.geo a) (.geo b) (.geo c)
  /-- `s + n` -/
  | sumI (k : IntK) : NBin (.geo (.vec .scalar)) (.intScalar k) (.geo (.vec .scalar))
  /-- `s - n` -/
  | subI (k : IntK) : NBin (.geo (.vec .scalar)) (.intScalar k) (.geo (.vec .scalar))
  /-- `s * n` -/
  | productI (k : IntK) : NBin (.geo (.vec .scalar)) (.intScalar k) (.geo (.vec .scalar))
  /-- `n * s` -/
  | productL (k : IntK) : NBin (.intScalar k) (.geo (.vec .scalar)) (.geo (.vec .scalar))
  /-- `s / n` -/
  | divideI (k : IntK) : NBin (.geo (.vec .scalar)) (.intScalar k) (.geo (.vec .scalar))
  /-- `n / s` -/
  | divideL (k : IntK) : NBin (.intScalar k) (.geo (.vec .scalar)) (.geo (.vec .scalar))
  /-- `n * v` -/
  | scaleI (k : IntK) (v : VK) : NBin (.intScalar k) (.geo (.vec v)) (.geo (.vec v))
  /-- `v * n` -/
  | scaleRI (k : IntK) (v : VK) : NBin (.geo (.vec v)) (.intScalar k) (.geo (.vec v))
  /-- `v / n` -/
  | scaleDivI (k : IntK) (v : VK) : NBin (.geo (.vec v)) (.intScalar k) (.geo (.vec v))

/-- Template of a unary operator (`Scalar` as a unary expression comes after those of `geoLib`). -/
def NUn.tag : {a b : NTy} → NUn a b → ℕ
  | _, _, .geo op => op.tag
  | _, _, .ref => 12
  | _, _, .refInt _ => 12

/-- Template of a binary operator: the integer operand does not change the template. -/
def NBin.tag : {a b c : NTy} → NBin a b c → ℕ
  | _, _, _, .geo op => op.tag
  | _, _, _, .sumI _ => Bin.tag (.sum .scalar)
  | _, _, _, .subI _ => Bin.tag (.sub .scalar)
  | _, _, _, .productI _ => Bin.tag .product
  | _, _, _, .productL _ => Bin.tag .product
  | _, _, _, .divideI _ => Bin.tag .divide
  | _, _, _, .divideL _ => Bin.tag .divide
  | _, _, _, .scaleI _ v => Bin.tag (.scale v)
  | _, _, _, .scaleRI _ v => Bin.tag (.scaleR v)
  | _, _, _, .scaleDivI _ v => Bin.tag (.scaleDiv v)

/-- `evalImpl` of unary operators; `Scalar<T &>`: Scalar.hpp:108-112. -/
noncomputable def nEvalUn (ε : ℝ) : {a b : NTy} → NUn a b → a.Val → Option b.Val
  | _, _, .geo op, x => evalUn ε op x
  | _, _, .ref, x => some x
  | _, _, .refInt _, z => some z

/-- `evalImpl` of binary operators.  In the mixed ones the integer is converted to `double`:
`Sum`, `Subtract` VectorBase.hpp:105-118; `Product` ScalarBase.hpp:79-82; `Divide`
ScalarBase.hpp:106-109; `Scale`, `ScaleR`, `ScaleDiv` VectorBase.hpp:188-198, 235-238 (Eigen promotes
an integer factor or divisor of a `double` vector to `double`). -/
noncomputable def nEvalBin : {a b c : NTy} → NBin a b c → a.Val → b.Val → Option c.Val
  | _, _, _, .geo op, x, y => evalBin op x y
  | _, _, _, .sumI _, x, z => some (sc (x (0 : Fin 1) + (z : ℝ)))
  | _, _, _, .subI _, x, z => some (sc (x (0 : Fin 1) - (z : ℝ)))
  | _, _, _, .productI _, x, z => some (sc (sProduct (x (0 : Fin 1)) (z : ℝ)))
  | _, _, _, .productL _, z, y => some (sc (sProduct (z : ℝ) (y (0 : Fin 1))))
  | _, _, _, .divideI _, x, z => (sDivide (x (0 : Fin 1)) (z : ℝ)).map sc
  | _, _, _, .divideL _, z, y => (sDivide (z : ℝ) (y (0 : Fin 1))).map sc
  | _, _, _, .scaleI _ v, z, y => some (vScale (n := v.Idx) (z : ℝ) y)
  | _, _, _, .scaleRI _ v, x, z => some (vScaleR (n := v.Idx) x (z : ℝ))
  | _, _, _, .scaleDivI _ v, x, z => vScaleDiv (n := v.Idx) x (z : ℝ)

/-- `jacobianImpl`; `Scalar<T &>`: Scalar.hpp:114-118. -/
noncomputable def nJacUn (ε : ℝ) : {a b : NTy} → NUn a b → b.Val → a.Val →
    Option (Matrix b.real.Idx a.real.Idx ℝ)
  | _, _, .geo op, v, x => jacUn ε op v x
  | _, _, .ref, _, _ => some (1 : Matrix (Fin 1) (Fin 1) ℝ)
  | _, _, .refInt _, _, _ => some (1 : Matrix (Fin 1) (Fin 1) ℝ)

/-- `leftJacobianImpl`.  `Divide` computes `1 / rhs.value()` in the type of the divisor
(ScalarBase.hpp:131-139); the others: geometry/op/Sum.hpp:98-107 and Subtract.hpp:105-117, ScalarBase.hpp:86-93,
VectorBase.hpp:200-223, 240-247. -/
noncomputable def nJacL : {a b c : NTy} → NBin a b c → c.Val → a.Val → b.Val →
    Option (Matrix c.real.Idx a.real.Idx ℝ)
  | _, _, _, .geo op, v, x, y => jacL op v x y
  | _, _, _, .sumI _, _, _, _ => some (1 : Matrix (Fin 1) (Fin 1) ℝ)
  | _, _, _, .subI _, _, _, _ => some (1 : Matrix (Fin 1) (Fin 1) ℝ)
  | _, _, _, .productI _, _, _, z => some (productJacL (z : ℝ))
  | _, _, _, .productL _, _, _, y => some (productJacL (y (0 : Fin 1)))
  | _, _, _, .divideI _, _, _, z => (intRecip z).map fun q => mat1 (q : ℝ)
  | _, _, _, .divideL _, _, _, y => divideJacL (y (0 : Fin 1))
  | _, _, _, .scaleI _ v, _, _, y => some (scaleJacL (n := v.Idx) y)
  | _, _, _, .scaleRI _ v, _, _, z => some (scaleRJacL (n := v.Idx) (z : ℝ))
  | _, _, _, .scaleDivI _ v, _, _, z => scaleDivJacL (n := v.Idx) (z : ℝ)

/-- `rightJacobianImpl`.  `Divide` and `ScaleDiv` square the divisor, and `Divide` negates the
dividend, in their own types (ScalarBase.hpp:142-149, VectorBase.hpp:249-257). -/
noncomputable def nJacR : {a b c : NTy} → NBin a b c → c.Val → a.Val → b.Val →
    Option (Matrix c.real.Idx b.real.Idx ℝ)
  | _, _, _, .geo op, v, x, y => jacR op v x y
  | _, _, _, .sumI _, _, _, _ => some (1 : Matrix (Fin 1) (Fin 1) ℝ)
  | _, _, _, .subI _, _, _, _ => some (-1 : Matrix (Fin 1) (Fin 1) ℝ)
  | _, _, _, .productI _, _, x, _ => some (productJacR (x (0 : Fin 1)))
  | _, _, _, .productL _, _, z, _ => some (productJacR (z : ℝ))
  | _, _, _, .divideI k, _, x, z =>
    (k.wrap (z * z)).bind fun q => (rdiv (-(x (0 : Fin 1))) (q : ℝ)).map mat1
  | _, _, _, .divideL k, _, z, y =>
    (k.wrap (-z)).bind fun q => (rdiv (q : ℝ) (y (0 : Fin 1) * y (0 : Fin 1))).map mat1
  | _, _, _, .scaleI _ v, _, z, _ => some (scaleJacR (n := v.Idx) (z : ℝ))
  | _, _, _, .scaleRI _ v, _, x, _ => some (scaleRJacR (n := v.Idx) x)
  | _, _, _, .scaleDivI k v, _, x, z =>
    (k.wrap (z * z)).bind fun q =>
      if q = 0 then none else some (colMat (n := v.Idx) fun i => -x i / (q : ℝ))

/-- Conversion of a `double` to an integer: truncation towards zero. -/
noncomputable def truncate (x : ℝ) : ℤ := if 0 ≤ x then ⌊x⌋ else ⌈x⌉

/-- `x + d`: for numbers the built-in sum; the offset of an integer is an integer
(core/functions/NumericalJacobian.hpp: the step is converted to the scalar type of the leaf). -/
noncomputable def nBoxPlus (ε : ℝ) : (α : NTy) → α.Val → (α.real.Idx → ℝ) → Option α.Val
  | .number, (x : Fin 1 → ℝ), (d : Fin 1 → ℝ) => some (sc (x 0 + d 0))
  | .integer k, z, (d : Fin 1 → ℝ) => k.wrap (z + truncate (d 0))
  | .intScalar k, z, (d : Fin 1 → ℝ) => k.wrap (z + truncate (d 0))
  | .geo τ, x, d => boxPlusVal ε τ x d

/-- `x - y`. -/
noncomputable def nBoxMinus (ε : ℝ) : (α : NTy) → α.Val → α.Val → Option (α.real.Idx → ℝ)
  | .number, (x : Fin 1 → ℝ), (y : Fin 1 → ℝ) => some (sc (x 0 - y 0))
  | .integer k, (z : ℤ), (w : ℤ) => (k.wrap (z - w)).map fun q => sc (q : ℝ)
  | .intScalar k, (z : ℤ), (w : ℤ) => (k.wrap (z - w)).map fun q => sc (q : ℝ)
  | .geo τ, x, y => boxMinusVal ε τ x y

/-- The signature of the library with plain numbers. -/
@[reducible] noncomputable def numLib (ε : ℝ) : Lib where
  Ty := NTy
  Idx := fun α => α.real.Idx
  dim := fun α => α.real.dim
  enum := fun α => α.real.enum
  Val := NTy.Val
  Un := NUn
  Bin := NBin
  unTag := NUn.tag
  binTag := NBin.tag
  evalU := nEvalUn ε
  evalB := nEvalBin
  jacU := nJacUn ε
  jacL := nJacL
  jacR := nJacR
  boxPlus := nBoxPlus ε
  boxMinus := nBoxMinus ε

/-- Arithmetic types, for the conversions the compiler applies. -/
inductive Arith
  | real
  | int (k : IntK)
  deriving DecidableEq

/-- Usual arithmetic conversions between a floating-point type and another type (two integers: the
wider one, unsigned winning a tie). -/
def Arith.common : Arith → Arith → Arith
  | .real, _ => .real
  | _, .real => .real
  | .int k, .int l =>
    if k.bits < l.bits then .int l
    else if l.bits < k.bits then .int k
    else if k.signed then .int l else .int k

/-- A floating-point value in braces cannot initialise an integer (narrowing; the standard makes
the program ill-formed, g++ accepts it with a warning and truncates). -/
def Arith.narrows : Arith → Arith → Bool
  | .real, .int _ => true
  | _, _ => false

/-- The four operators between scalars. -/
inductive NOp
  | add | sub | mul | div

/-- An operand of such an operator. -/
inductive NArg (ε : ℝ)
  /-- a scalar expression -/
  | expr (e : Expr (numLib ε) (.geo (.vec .scalar)))
  /-- a `double`: a variable at address `a`, or a temporary which the expression keeps at address
  `a` -/
  | real (named : Bool) (a : ℕ)
  /-- an integer: a variable, or a temporary -/
  | int (named : Bool) (k : IntK) (a : ℕ)

/-- The arithmetic type of an operand. -/
def NArg.arith {ε : ℝ} : NArg ε → Arith
  | .expr _ => .real
  | .real _ _ => .real
  | .int _ k _ => .int k

/-- A `double` operand: `Scalar<double &>` around a variable, a `Scalar<double>` leaf for a temporary
(macros.hpp:87-129; the wrapper of the variable is kept at address `n`). -/
def realOperand (ε : ℝ) (n : ℕ) (named : Bool) (a : ℕ) : Expr (numLib ε) (.geo (.vec .scalar)) :=
  if named then
    Expr.un (L := numLib ε) n NUn.ref (Expr.leaf (L := numLib ε) a 0 NTy.number)
  else Expr.leaf (L := numLib ε) a 0 (NTy.geo (.vec .scalar))

/-- An integer operand, likewise. -/
def intOperand (ε : ℝ) (n : ℕ) (named : Bool) (k : IntK) (a : ℕ) :
    Expr (numLib ε) (.intScalar k) :=
  if named then
    Expr.un (L := numLib ε) n (NUn.refInt k) 
      (Expr.leaf (L := numLib ε) a 0 (NTy.integer k))
  else Expr.leaf (L := numLib ε) a 0 (NTy.intScalar k)

/-- The operator between two scalars of `double`. -/
def NOp.bin : NOp → Bin (.vec .scalar) (.vec .scalar) (.vec .scalar)
  | .add => .sum .scalar
  | .sub => .sub .scalar
  | .mul => .product
  | .div => .divide

/-- The operator with an integer on the right. -/
def NOp.binI (k : IntK) : NOp → NBin (.geo (.vec .scalar)) (.intScalar k) (.geo (.vec .scalar))
  | .add => .sumI k
  | .sub => .subI k
  | .mul => .productI k
  | .div => .divideI k

/-- Is the type of the result of the operator the type of its left operand (`plain_output_t<Lhs>{…}`,
`Sum` and `Subtract`, VectorBase.hpp:105-118) or whatever the arithmetic gives
(`makeScalarResult`, ScalarBase.hpp:70-74, 79-82, 106-109)? -/
def NOp.likeLeft : NOp → Bool
  | .add => true
  | .sub => true
  | .mul => false
  | .div => false

/-- `l op r` with operands wrapped as the overloads do (the wrapper of a variable is kept at address
`n`, the operation at `m`).  `none`: the program is ill-formed, or (two plain operands, or a
`double` and an integer) not a use of these overloads. -/
def NOp.apply {ε : ℝ} (op : NOp) (m n : ℕ) (l r : NArg ε) :
    Option (Expr (numLib ε) (.geo (.vec .scalar))) :=
  if op.likeLeft && (l.arith.common r.arith).narrows l.arith then none
  else
    match l, r with
    | .expr e, .expr f => some (.bin m (NBin.geo op.bin) e f)
    | .expr e, .real b a => some (.bin m (NBin.geo op.bin) e (realOperand ε n b a))
    | .real b a, .expr f => some (.bin m (NBin.geo op.bin) (realOperand ε n b a) f)
    | .expr e, .int b k a => some (.bin m (op.binI k) e (intOperand ε n b k a))
    | .int b k a, .expr f =>
      match op with
      | .add => none
      | .sub => none
      | .mul => some (.bin m (NBin.productL k) (intOperand ε n b k a) f)
      | .div => some (.bin m (NBin.divideL k) (intOperand ε n b k a) f)
    | _, _ => none

end WG
