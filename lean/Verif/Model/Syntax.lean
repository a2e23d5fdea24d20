import Verif.Model.Ops

/-!
# Expressions as a user writes them

Operators of the public API before overload resolution and before conversions are inserted.
Reference qualifiers and frames are not part of this layer (see Model/Frames.lean).
-/

namespace WG

/-- Unary operations of the public API: `-x`, `x.squaredNorm()`, `x.norm()`, `x.normalized()`
(VectorBase.hpp / op/*.hpp), `acos(x)` (ScalarBase.hpp), `inverse(x)` / `x.inverse()`, `exp(x)`,
`log(x)`, `x.rotation()`, `x.translation()` (TransformBase.hpp:34-160, TangentBase), and evaluation
into a chosen class (`eval<T>()`, assignment to a `T`: PrepareOutput.hpp:56-99). -/
inductive UOp
  | neg | squaredNorm | norm | normalized | acos | inverse | exp | log | rotation | translation
  | to (τ : Ty)
  deriving DecidableEq

/-- Binary operations of the public API: the overloaded `+`, `-`, `*`, `/`, and `dot`. -/
inductive BOp | add | sub | mul | div | dot
  deriving DecidableEq

/-- A user-level expression.  `leaf a c τ` is an object of class `τ` at address `a` with static
type number `c`; `dynamic a e` is a `Proxy` handle to a `Dynamic` node at address `a` wrapping `e`
(dynamic/Proxy.hpp:28-68). -/
inductive SExpr
  | leaf (a cls : ℕ) (τ : Ty)
  | un (op : UOp) (e : SExpr)
  | bin (op : BOp) (l r : SExpr)
  | dynamic (a : ℕ) (e : SExpr)

instance : Add SExpr := ⟨.bin .add⟩
instance : Sub SExpr := ⟨.bin .sub⟩
instance : Mul SExpr := ⟨.bin .mul⟩
instance : Div SExpr := ⟨.bin .div⟩
instance : Neg SExpr := ⟨.un .neg⟩
instance : Inv SExpr := ⟨.un .inverse⟩

end WG
