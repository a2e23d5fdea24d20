import Verif.Spec.Frames
import Verif.Spec.Occurrence

/-!
# Specification: the IMU preintegration residual of the repository's test

`test/imu_preint_test.cpp`: the expression, and the Jacobians the test derives by hand.
-/

namespace WG.Spec
open Matrix

/-- `log(inverse(delta_R_ij * exp(wg)) * inverse(R_i) * R_j)`, imu_preint_test.cpp:63-70, for rotations of
any classes stored at `a`, `c`, `d` and a rotation vector at `b`; `delta_R_ij` is labelled `<I, J>`,
`wg` `<J, J, J>`, `R_i` `<W, I>`, `R_j` `<W, J>`. -/
def imuResidual (W I J : Frame) (k₁ k₂ k₃ : RotK) (a b c d : ℕ) : FExpr :=
  .un .log (.bin .mul (.bin .mul
    (.un .inverse (.bin .mul (.leaf a (.rot k₁) (.two I J)) (.un .exp (.leaf b (.vec .relrot) (.three J J J)))))
    (.un .inverse (.leaf c (.rot k₂) (.two W I)))) (.leaf d (.rot k₃) (.two W J)))

/-- `jacOfLogMap`, imu_preint_test.cpp:44-60. -/
noncomputable def handLogJac (φ : V3) : M3 :=
  let θ2 := sqLen φ
  let θ := √θ2
  let A := Real.sin θ / θ
  let B := (1 - Real.cos θ) / θ2
  1 - (1 / 2 : ℝ) • hat φ + ((B - 1 / 2 * A) / (1 - Real.cos θ)) • (hat φ * hat φ)

/-- `jacOfExpMap`, imu_preint_test.cpp:31-42. -/
noncomputable def handExpJac (ε : ℝ) (C : M3) (φ : V3) : M3 :=
  if sqLen φ > ε then (1 / sqLen φ) • ((1 - C) * hat φ + Matrix.vecMulVec φ φ)
  else 1 + (1 / 2 : ℝ) • hat φ

end WG.Spec
