import Verif.Model.Surface

/-!
# Fuzzy comparison of transforms

`TransformBase.hpp:115-122`.
-/

namespace WG

/-- `a.isApprox(b, prec)` for transforms: TransformBase.hpp:115-122, `(a - b).value().isZero(prec)`.
`Eigen::DenseBase::isZero(prec)` holds when every coefficient has absolute value at most `prec`; it is
false when a coefficient is not a number. -/
noncomputable def SExpr.isApprox (ε : ℝ) (s : ℕ → (τ : Ty) → τ.Val) (prec : ℝ) (a b : SExpr) : Prop :=
  match (SExpr.bin .sub a b).value ε s with
  | some ⟨.vec k, v⟩ => ∀ i : k.Idx, |v i| ≤ prec
  | _ => False

end WG
