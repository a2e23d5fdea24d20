import Verif.Spec.Frames
import Verif.Spec.Response

/-!
# Specification: chains of rotations of any length

`benchmarks/rotate_chain/rotate_chain_wave_bench.cpp` writes `R1 * R2 * … * v` for one to ten rotations and
`rotate_chain_hand_bench.cpp` derives the Jacobians by hand.
-/

namespace WG.Spec
open Matrix

/-- `R_0 * R_1 * … * R_n`: the rotation `R_i` is an object of class `K i` at address `A i`, labelled
`<F i, F (i + 1)>`. -/
def rotProduct (K : ℕ → RotK) (F : ℕ → Frame) (A : ℕ → ℕ) : ℕ → FExpr
  | 0 => .leaf (A 0) (.rot (K 0)) (.two (F 0) (F 1))
  | n + 1 => .bin .mul (rotProduct K F A n) (.leaf (A (n + 1)) (.rot (K (n + 1))) (.two (F (n + 1)) (F (n + 2))))

/-- `R_0 * R_1 * … * R_n * v`, rotate_chain_wave_bench.cpp:46-239; `v`, at address `p`, is labelled
`<F (n + 1), G, H>`. -/
def rotateChain (K : ℕ → RotK) (F : ℕ → Frame) (G H : Frame) (A : ℕ → ℕ) (p n : ℕ) : FExpr :=
  .bin .mul (rotProduct K F A n) (.leaf p (.vec .trans) (.three (F (n + 1)) G H))

/-- `t_i`, the product of the first `i` rotations: rotate_chain_hand_bench.cpp, `t1`, `t2`, …. -/
def partialProduct (R : ℕ → M3) (i : ℕ) : M3 := ((List.range i).map R).prod

end WG.Spec
