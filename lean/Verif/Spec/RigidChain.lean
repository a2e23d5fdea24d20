import Verif.Spec.Chain

/-!
# Specification: chains of rigid transforms of any length

`T_0 * T_1 * … * T_n * p` with `MatrixRigidTransform` and `CompactRigidTransform` objects in any mixture.
-/

namespace WG.Spec
open Matrix

/-- `T_0 * T_1 * … * T_n`: the transform `T_i` is an object of class `K i` at address `A i`, labelled
`<F i, F (i + 1)>`. -/
def rigidProduct (K : ℕ → RigK) (F : ℕ → Frame) (A : ℕ → ℕ) : ℕ → FExpr
  | 0 => .leaf (A 0) (.rigid (K 0)) (.two (F 0) (F 1))
  | n + 1 => .bin .mul (rigidProduct K F A n)
      (.leaf (A (n + 1)) (.rigid (K (n + 1))) (.two (F (n + 1)) (F (n + 2))))

/-- `T_0 * T_1 * … * T_n * p`; `p`, at address `b`, is labelled `<F (n + 1), G, H>`. -/
def transformChain (K : ℕ → RigK) (F : ℕ → Frame) (G H : Frame) (A : ℕ → ℕ) (b n : ℕ) : FExpr :=
  .bin .mul (rigidProduct K F A n) (.leaf b (.vec .trans) (.three (F (n + 1)) G H))

/-- Where `p` gets to when first `T (i + k - 1)`, then …, and last `T i` moves it. -/
def moved (T : ℕ → Rigid) (p : V3) (i : ℕ) : ℕ → V3
  | 0 => p
  | k + 1 => (T i).act (moved T p (i + 1) k)

/-- How the moved point answers to a small twist (angular velocity first) of the `i`-th motion: a point at
`w` gets the velocity `ω × w + u`, and the motions before the `i`-th turn it. -/
def chainSlope (T : ℕ → Rigid) (w : V3) (i : ℕ) : Matrix (Fin 3) (Fin 3 ⊕ Fin 3) ℝ :=
  partialProduct (fun j => (T j).R) i * fromCols (hat (-w)) 1

end WG.Spec
