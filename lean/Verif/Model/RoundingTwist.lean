import Verif.Model.Rounding

/-!
# The exponential of a twist in floating-point arithmetic

ExpMap of a twist, Twist.hpp:95-131, with a rounding after every operation on coefficients; the results of
`std::sin` and `std::cos` are within the relative error `m`.  Overflow and underflow are not modelled.  The
three terms of a coefficient of `Identity() + B * cross + C * cross2` may be added in any order, with or
without fused multiply-adds.
-/

namespace WG
open Matrix

/-- `A`, `B`, `C` of Twist.hpp:109-111 and 120-122, from the rounded `theta2` and `theta`.  A division by zero
has no outcome. -/
def FlTwistTerms (F : Fl) (m ε θ2 θ A B C : ℝ) : Prop :=
  if ε < θ2 then
    (∃ s, |s - Real.sin θ| ≤ m * |Real.sin θ| ∧ θ ≠ 0 ∧ A = F.rnd (s / θ)) ∧
    (∃ c, |c - Real.cos θ| ≤ m * |Real.cos θ| ∧ θ2 ≠ 0 ∧ B = F.rnd (F.rnd (1 - c) / θ2)) ∧
    C = F.rnd (F.rnd (1 - A) / θ2)
  else A = 1 ∧ B = 0 ∧ C = 0

/-- `Mat3::Identity() + p * cross + q * cross2`, Twist.hpp:114-116 and 125-127. -/
def FlSeries (F : Fl) (p q : ℝ) (X Y M : M3) : Prop :=
  ∀ i j, FlSum F [((1 : M3) i j, 1), (p, X i j), (q, Y i j)] (M i j)

/-- `exp(x)` of a stored twist: `z` is a possible outcome.  Twist.hpp:95-131. -/
def FlExpTwist (F : Fl) (m ε : ℝ) (x : Twist) (z : M4) : Prop :=
  ∃ θ2 θ A B C : ℝ, FlDot F x.rot x.rot θ2 ∧ θ = F.rnd (Real.sqrt θ2) ∧ FlTwistTerms F m ε θ2 θ A B C ∧
    ∃ cross2 V R : M3, FlMul F (crossMatrix x.rot) (crossMatrix x.rot) cross2 ∧
      FlSeries F B C (crossMatrix x.rot) cross2 V ∧ FlSeries F A B (crossMatrix x.rot) cross2 R ∧
      ∃ t : V3, FlMulVec F V x.trans t ∧ z = mk4 R t

end WG
