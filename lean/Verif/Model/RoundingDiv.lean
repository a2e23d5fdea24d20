import Verif.Model.Rounding

/-!
# Divisions, `acos` and `exp` in floating-point arithmetic

Extends `Model/Rounding.lean` by quotients of scalars, vectors divided by scalars, normalisation,
`acos` and the exponential of relative rotations.  Not covered (no outcome): `exp` of twists, `log`,
conversions to quaternions, angle-axis rotations.
-/

namespace WG

/-- Rounded ExpMap of a relative rotation, RelativeRotation.hpp:103-129, statement by statement; the
results of `std::sin` and `std::cos` are within the relative error `m`. -/
def FlExp (F : Fl) (m ε : ℝ) (v : V3) (q : Quat) : Prop :=
  ∃ angle2 angle s c : ℝ, FlDot F v v angle2 ∧ angle = F.rnd (Real.sqrt angle2) ∧
    (if ε < F.rnd (angle2 * angle2) then
      (∃ sa, |sa - Real.sin (F.rnd (angle / 2))| ≤ m * |Real.sin (F.rnd (angle / 2))| ∧
        angle ≠ 0 ∧ s = F.rnd (sa / angle)) ∧
      |c - Real.cos (F.rnd (angle / 2))| ≤ m * |Real.cos (F.rnd (angle / 2))|
    else s = F.rnd (1 / 2 + F.rnd (angle2 / 48)) ∧ c = F.rnd (1 - F.rnd (angle2 / 8))) ∧
    q.w = c ∧ ∀ i, q.vec i = F.rnd (s * v i)

/-- Rounded unary operators.  `normalized()` (VectorBase.hpp:158-161) is Eigen's: `z = squaredNorm();
if (z > 0) return n / sqrt(z); else return n;`.  `std::acos` (ScalarBase.hpp:112-116) is within the
relative error `m` of the arc cosine; out of its domain the result is NaN (no outcome). -/
def FlUnD (F : Fl) (m ε : ℝ) : {a b : Ty} → Un a b → a.Val → b.Val → Prop
  | _, _, .normalize k, v, z => ∃ t, FlDot F (n := k.Idx) v v t ∧
      if 0 < t then F.rnd (Real.sqrt t) ≠ 0 ∧ ∀ i : k.Idx, z i = F.rnd (v i / F.rnd (Real.sqrt t))
      else z = v
  | _, _, .acos, x, z => -1 ≤ x (0 : Fin 1) ∧ x (0 : Fin 1) ≤ 1 ∧
      |z (0 : Fin 1) - Real.arccos (x (0 : Fin 1))| ≤ m * |Real.arccos (x (0 : Fin 1))|
  | _, _, .expRel, v, q => FlExp F m ε v q
  | _, _, op, x, z => FlUn F op x z

/-- Rounded binary operators: `Divide` ScalarBase.hpp:106-109, `ScaleDiv` VectorBase.hpp:235-238.  A
division by zero is infinite or NaN (no outcome). -/
def FlBinD (F : Fl) : {a b c : Ty} → Bin a b c → a.Val → b.Val → c.Val → Prop
  | _, _, _, .divide, x, y, z =>
    y (0 : Fin 1) ≠ 0 ∧ z (0 : Fin 1) = F.rnd (x (0 : Fin 1) / y (0 : Fin 1))
  | _, _, _, .scaleDiv k, v, y, z =>
    y (0 : Fin 1) ≠ 0 ∧ ∀ i : k.Idx, z i = F.rnd (v i / y (0 : Fin 1))
  | _, _, _, op, x, y, z => FlBin F op x y z

/-- `eval(e)` in floating point, from the stored leaf values `s`: `z` is a possible outcome. -/
def ComputesD (F : Fl) (m : ℝ) {ε : ℝ} (s : Store (geoLib ε)) :
    {τ : Ty} → Expr (geoLib ε) τ → τ.Val → Prop
  | _, .leaf a _ τ, z => z = s a τ
  | _, .un _ (op : Un _ _) e, z => ∃ x, ComputesD F m s e x ∧ FlUnD F m ε op x z
  | _, .bin _ (op : Bin _ _ _) l r, z =>
    ∃ x y, ComputesD F m s l x ∧ ComputesD F m s r y ∧ FlBinD F op x y z
  | _, .proxy _ e, z => ComputesD F m s e z

end WG
