import Verif.Model.Lazy

/-! # Specification: which operations of the library return unevaluated results -/

namespace WG.Spec

/-- Unary operations returning an Eigen expression: the negative of an object storing a vector, the inverse
of a rotation matrix. -/
inductive UnHolds : {a b : Ty} → Un a b → Prop
  | minus {k : VK} (h : k ≠ .scalar) : UnHolds (.minus k)
  | transpose : UnHolds (.invRot .mat)

/-- A frame cast. -/
inductive IsCast : {a b : Ty} → Un a b → Prop
  | cast (τ : Ty) : IsCast (.recast τ)

/-- Binary operations returning an Eigen expression: multiples of an object storing a vector. -/
inductive BinHolds : {a b c : Ty} → Bin a b c → Prop
  | scale {k : VK} (h : k ≠ .scalar) : BinHolds (.scale k)
  | scaleR {k : VK} (h : k ≠ .scalar) : BinHolds (.scaleR k)
  | scaleDiv {k : VK} (h : k ≠ .scalar) : BinHolds (.scaleDiv k)

/-- The outermost operation, frame casts disregarded, is one of these. -/
inductive HoldsOperands {ε : ℝ} : {τ : Ty} → Expr (geoLib ε) τ → Prop
  | un {α β : Ty} {a : ℕ} {op : Un α β} {e : Expr (geoLib ε) α} (h : UnHolds op) :
      HoldsOperands (Expr.un (L := geoLib ε) a op e)
  | cast {α β : Ty} {a : ℕ} {op : Un α β} {e : Expr (geoLib ε) α} (h : IsCast op) (he : HoldsOperands e) :
      HoldsOperands (Expr.un (L := geoLib ε) a op e)
  | bin {α β γ : Ty} {a : ℕ} {op : Bin α β γ} {l : Expr (geoLib ε) α} {r : Expr (geoLib ε) β} (h : BinHolds op) :
      HoldsOperands (Expr.bin (L := geoLib ε) a op l r)

/-- All objects and intermediate results are scalars. -/
inductive ScalarOnly {ε : ℝ} : {τ : Ty} → Expr (geoLib ε) τ → Prop
  | leaf (a c : ℕ) : ScalarOnly (Expr.leaf (L := geoLib ε) a c (.vec .scalar))
  | un {a : ℕ} {op : Un (.vec .scalar) (.vec .scalar)} {e : Expr (geoLib ε) (.vec .scalar)} (h : ScalarOnly e) :
      ScalarOnly (Expr.un (L := geoLib ε) a op e)
  | bin {a : ℕ} {op : Bin (.vec .scalar) (.vec .scalar) (.vec .scalar)} {l r : Expr (geoLib ε) (.vec .scalar)}
      (hl : ScalarOnly l) (hr : ScalarOnly r) : ScalarOnly (Expr.bin (L := geoLib ε) a op l r)

end WG.Spec
