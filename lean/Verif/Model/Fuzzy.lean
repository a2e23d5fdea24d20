import Verif.Model.Approx
import Verif.Model.Factor

/-!
# Fuzzy comparison of vectors, points, scalars and compounds of vectors

`AffineBase.hpp:37-48`, `ScalarBase.hpp:27-42`, `CompoundBase.hpp:33-46`, `NaryStorage.hpp:201-225`.
A comparison that involves a value that is not a number is false.
-/

namespace WG

variable {ε : ℝ}

/-- `Eigen::DenseBase::isApprox(other, prec)` (called in AffineBase.hpp:42): compares the squared norm
of the difference with `prec² · min` of the squared norms. -/
noncomputable def eigenIsApprox {n : Type} [Fintype n] (prec : ℝ) (v w : Option (n → ℝ)) : Prop :=
  ∃ a b, v = some a ∧ w = some b ∧
    vSqNorm (fun i => a i - b i) ≤ prec * prec * min (vSqNorm a) (vSqNorm b)

/-- `a.isApprox(b, prec)` of two evaluated vectors or points: AffineBase.hpp:38-43 (vectors and
points), ScalarBase.hpp:28-36 (scalars).  `none`: rejected, since the operands have different base
templates (`same_base_tmpl_i`), or are transforms (for which see `SExpr.isApprox`). -/
noncomputable def leafIsApprox (prec : ℝ) : (a b : Ty) → Option a.Val → Option b.Val → Option Prop
  | .vec .scalar, .vec .scalar, x, y => some (∃ a b : Fin 1 → ℝ, x = some a ∧ y = some b ∧
      |a 0 - b 0| ≤ prec * min |a 0| |b 0|)
  | .vec .trans, .vec .trans, x, y => some (eigenIsApprox (n := Fin 3) prec x y)
  | .vec .relrot, .vec .relrot, x, y => some (eigenIsApprox (n := Fin 3) prec x y)
  | .vec .twist, .vec .twist, x, y => some (eigenIsApprox (n := Fin 3 ⊕ Fin 3) prec x y)
  | .point, .point, x, y => some (eigenIsApprox (n := Fin 3) prec x y)
  | _, _, _, _ => none

/-- `a.isZero(prec)` of an evaluated vector or point (AffineBase.hpp:46-48, by
`Eigen::DenseBase::isZero`) or scalar (ScalarBase.hpp:39-42): every coefficient at most `prec` in
absolute value.  Transforms have no such member (`none`). -/
noncomputable def leafIsZero (prec : ℝ) : (a : Ty) → Option a.Val → Option Prop
  | .vec k, x => some (∃ v : k.Idx → ℝ, x = some v ∧ ∀ i, |v i| ≤ prec)
  | .point, x => some (∃ v : Fin 3 → ℝ, x = some v ∧ ∀ i, |v i| ≤ prec)
  | _, _ => none

/-- `a.isApprox(b, prec)` on vector, point and scalar expressions: both sides are evaluated first. -/
noncomputable def SExpr.flatIsApprox (ε : ℝ) (s : ℕ → (τ : Ty) → τ.Val) (prec : ℝ) (a b : SExpr) :
    Option Prop :=
  (a.elab ε).bind fun x => (b.elab ε).bind fun y =>
    leafIsApprox prec x.1 y.1 (x.2.eval (L := geoLib ε) s) (y.2.eval (L := geoLib ε) s)

/-- `a.isZero(prec)` on vector, point and scalar expressions. -/
noncomputable def SExpr.isZero (ε : ℝ) (s : ℕ → (τ : Ty) → τ.Val) (prec : ℝ) (a : SExpr) :
    Option Prop :=
  (a.elab ε).bind fun x => leafIsZero prec x.1 (x.2.eval (L := geoLib ε) s)

/-- `a.isApprox(b, prec)` on evaluated compounds of vectors: CompoundBase.hpp:38-46 (compounds of
vectors of equal total size only), NaryStorage.hpp:201-225 (conjunction over the elements). -/
noncomputable def compoundIsApprox (prec : ℝ) (a b : CVal (geoLib ε)) : Option Prop :=
  if (a.all fun z => Ty.vectorTraits z.1) ∧ (b.all fun z => Ty.vectorTraits z.1) ∧
      compoundSize (a.map fun z => Ty.dim z.1) = compoundSize (b.map fun z => Ty.dim z.1) then
    (expandBin (fun (x y : (τ : Ty) × Option τ.Val) => leafIsApprox prec x.1 y.1 x.2 y.2) a b).map
      fun ps => ∀ p ∈ ps, p
  else none

end WG
