import Verif.Model.Rounding

/-!
# The logarithm of a rotation matrix in floating-point arithmetic

LogMap of a rotation matrix, MatrixRotation.hpp:72-89, with a rounding after every operation on
coefficients; the results of `std::acos` and `std::sin` are within the relative error `m`.  Overflow and
underflow are not modelled.  Multiplications and additions of different operations are not fused.
-/

namespace WG
open Matrix

/-- `uncrossMatrix(k * (m - m.transpose()))`, MatrixRotation.hpp:84 and 87: Eigen evaluates the three
coefficients read. -/
def flSkew (F : Fl) (k : ℝ) (M : M3) : V3 :=
  uncrossMatrix (Matrix.of fun i j => F.rnd (k * F.rnd (M i j - M j i)))

/-- `log(R)` of a stored rotation matrix `M`: `φ` is a possible outcome.  If the argument of `std::acos` is
out of its domain the angle is NaN, the comparison is false and the second branch is taken.  A division by
zero has no outcome. -/
def FlLog (F : Fl) (m ε : ℝ) (M : M3) (φ : V3) : Prop :=
  ∃ t c : ℝ, FlSum F [(M 0 0, 1), (M 1 1, 1), (M 2 2, 1)] t ∧ c = F.rnd (F.rnd (t - 1) / 2) ∧
    (¬(-1 ≤ c ∧ c ≤ 1) ∧ φ = flSkew F (1 / 2) M ∨
      (-1 ≤ c ∧ c ≤ 1) ∧ ∃ a, |a - Real.arccos c| ≤ m * |Real.arccos c| ∧
        if ε < F.rnd (a * a) then
          ∃ sa, |sa - Real.sin a| ≤ m * |Real.sin a| ∧ F.rnd (2 * sa) ≠ 0 ∧
            φ = flSkew F (F.rnd (a / F.rnd (2 * sa))) M
        else φ = flSkew F (1 / 2) M)

end WG
