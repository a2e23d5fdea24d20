import Verif.Model.RoundingTwist

/-!
# The translation part of the logarithm of a rigid transform in floating-point arithmetic

LogMap of a rigid transform, RigidTransformBase.hpp:131-157, from the rotation vector `omega` on, with a
rounding after every operation; the results of `std::sin` and `std::cos` are within the relative error `m`.
Overflow and underflow are not modelled.  `cross / 2` is the product with one half.
-/

namespace WG
open Matrix

/-- The factor of `cross2` in `Vinv`, RigidTransformBase.hpp:137-144; `none` when `B` is zero (the quotient
`A / 2 / B` is then infinite). -/
def FlLogFactor (F : Fl) (m θ2 θ : ℝ) (k : Option ℝ) : Prop :=
  ∃ A B : ℝ, (∃ s, |s - Real.sin θ| ≤ m * |Real.sin θ| ∧ θ ≠ 0 ∧ A = F.rnd (s / θ)) ∧
    (∃ c, |c - Real.cos θ| ≤ m * |Real.cos θ| ∧ θ2 ≠ 0 ∧ B = F.rnd (F.rnd (1 - c) / θ2)) ∧
    (B = 0 ∧ k = none ∨
      B ≠ 0 ∧ k = some (F.rnd (F.rnd (1 - F.rnd (F.rnd (A / 2) / B)) / θ2)))

/-- `ln_t`, from `omega` and the stored translation: `z` is a possible outcome, `none` a result that is
infinite or not a number.  RigidTransformBase.hpp:131-156. -/
def FlLogTrans (F : Fl) (m ε : ℝ) (ω t : V3) (z : Option V3) : Prop :=
  ∃ θ2 θ : ℝ, FlDot F ω ω θ2 ∧ θ = F.rnd (Real.sqrt θ2) ∧
    if ε < θ2 then
      ∃ k, FlLogFactor F m θ2 θ k ∧
        (k = none ∧ z = none ∨
          ∃ k', k = some k' ∧ ∃ cross2 V : M3, FlMul F (crossMatrix ω) (crossMatrix ω) cross2 ∧
            FlSeries F (-1 / 2) k' (crossMatrix ω) cross2 V ∧ ∃ w, FlMulVec F V t w ∧ z = some w)
    else ∃ V : M3, (∀ i j, FlSum F [((1 : M3) i j, 1), (-1 / 2, crossMatrix ω i j)] (V i j)) ∧
      ∃ w, FlMulVec F V t w ∧ z = some w

end WG
