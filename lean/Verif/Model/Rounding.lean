import Verif.Model.Geo
import Mathlib.Data.Int.Log
import Mathlib.Algebra.Order.Round

/-!
# Evaluation in floating-point arithmetic

The same `evalImpl` functions as in `Model/Ops.lean`, with every operation on coefficients followed by
a rounding.  The order in which Eigen adds the terms of a product, and whether it fuses
multiplications and additions (`pmadd`), depends on the vectorisation chosen by the compiler; the
outcome is therefore a relation, not a function.

Covered: sums, differences, negation, scaling, products, dot products, norms, rotations and rigid
transforms stored as matrices or as quaternions: composition, inverse, action on vectors, access to
parts, conversion of quaternions to matrices.  Not covered (`False`): divisions, normalisation,
`acos`, `exp`, `log`, conversions from matrices to quaternions, angle-axis rotations.  Simplifications: no overflow and no underflow; rounding to nearest (symmetric);
no contraction of a multiplication and an addition that belong to different operations.
-/

namespace WG
open Matrix

/-- Floating-point rounding: relative error at most `u`, symmetric about zero. -/
structure Fl where
  u : ℝ
  rnd : ℝ → ℝ
  err : ∀ x, |rnd x - x| ≤ u * |x|
  odd : ∀ x, rnd (-x) = -rnd x

/-- Nearest integer, ties to even. -/
noncomputable def roundEven (y : ℝ) : ℤ :=
  if y - ⌊y⌋ < 1 / 2 then ⌊y⌋ else if 1 / 2 < y - ⌊y⌋ then ⌊y⌋ + 1
  else if Even ⌊y⌋ then ⌊y⌋ else ⌊y⌋ + 1

/-- The default rounding of IEEE 754 binary formats with `p + 1` significant bits (`p = 52` for
`double`, `p = 23` for `float`), for an unbounded exponent. -/
noncomputable def ieeeRnd (p : ℕ) (x : ℝ) : ℝ :=
  let m := roundEven (|x| / 2 ^ (Int.log 2 |x| - p)) * (2 : ℝ) ^ (Int.log 2 |x| - p)
  if x < 0 then -m else m

theorem roundEven_err (y : ℝ) : |(roundEven y : ℝ) - y| ≤ 1 / 2 := by
  have h1 := Int.floor_le y
  have h2 := Int.lt_floor_add_one y
  unfold roundEven
  split_ifs with a b c <;> rw [abs_le] <;> push_cast <;> constructor <;> linarith

theorem ieeeRnd_zero (p : ℕ) : ieeeRnd p 0 = 0 := by
  simp [ieeeRnd, roundEven]

theorem ieeeRnd_neg (p : ℕ) (x : ℝ) : ieeeRnd p (-x) = -ieeeRnd p x := by
  rcases lt_trichotomy x 0 with h | rfl | h
  · simp only [ieeeRnd, abs_neg, if_pos h, if_neg (not_lt.mpr (neg_pos.mpr h).le), neg_neg]
  · rw [neg_zero, ieeeRnd_zero, neg_zero]
  · simp only [ieeeRnd, abs_neg, if_pos (neg_neg_of_pos h), if_neg (not_lt.mpr h.le)]

theorem ieeeRnd_err (p : ℕ) (x : ℝ) : |ieeeRnd p x - x| ≤ 2 ^ (-(p + 1 : ℤ)) * |x| := by
  have pos : ∀ x : ℝ, 0 < x → |ieeeRnd p x - x| ≤ 2 ^ (-(p + 1 : ℤ)) * |x| := by
    intro x hx
    simp only [ieeeRnd, abs_of_pos hx, if_neg (not_lt.mpr hx.le)]
    have hu : (0 : ℝ) < 2 ^ (Int.log 2 x - p) := zpow_pos two_pos _
    have h1 := roundEven_err (x / 2 ^ (Int.log 2 x - p))
    have e : (roundEven (x / 2 ^ (Int.log 2 x - p)) : ℝ) * 2 ^ (Int.log 2 x - p) - x =
        ((roundEven (x / 2 ^ (Int.log 2 x - p)) : ℝ) - x / 2 ^ (Int.log 2 x - p)) *
          2 ^ (Int.log 2 x - p) := by
      field_simp
    rw [e, abs_mul, abs_of_pos hu]
    refine (mul_le_mul_of_nonneg_right h1 hu.le).trans ?_
    have h2 : ((2 : ℕ) : ℝ) ^ Int.log 2 x ≤ x := Int.zpow_log_le_self (by norm_num) hx
    have h3 : (1 / 2 : ℝ) * 2 ^ (Int.log 2 x - p) = 2 ^ (-(p + 1 : ℤ)) * 2 ^ Int.log 2 x := by
      rw [← zpow_add₀ two_ne_zero, show (1 / 2 : ℝ) = 2 ^ (-1 : ℤ) by norm_num,
        ← zpow_add₀ two_ne_zero]
      congr 1
      ring
    rw [h3]
    exact mul_le_mul_of_nonneg_left (by exact_mod_cast h2) (zpow_pos two_pos _).le
  rcases lt_trichotomy x 0 with h | rfl | h
  · have := pos (-x) (neg_pos.mpr h)
    rw [ieeeRnd_neg, abs_neg] at this
    rw [← abs_neg]
    refine le_trans (le_of_eq (congrArg abs ?_)) this
    ring
  · simp [ieeeRnd_zero]
  · exact pos x h

/-- Rounding to `p + 1` significant bits. -/
noncomputable def ieee (p : ℕ) : Fl := ⟨2 ^ (-(p + 1 : ℤ)), ieeeRnd p, ieeeRnd_err p, ieeeRnd_neg p⟩

/-- `z` is a rounded sum of the products `a * b` of a list of pairs: in any order, with any
bracketing, with or without fused multiply-adds.  A term `(x, 1)` or `(1, x)` may stand for a number
that is already stored. -/
inductive FlSum (F : Fl) : List (ℝ × ℝ) → ℝ → Prop
  | lit (x : ℝ) : FlSum F [(x, 1)] x
  | one (x : ℝ) : FlSum F [(1, x)] x
  | mul (a b : ℝ) : FlSum F [(a, b)] (F.rnd (a * b))
  | add {l m n : List (ℝ × ℝ)} {x y : ℝ} (hx : FlSum F l x) (hy : FlSum F m y)
      (hp : (l ++ m).Perm n) : FlSum F n (F.rnd (x + y))
  | fma {l n : List (ℝ × ℝ)} {x : ℝ} (a b : ℝ) (hx : FlSum F l x) (hp : ((a, b) :: l).Perm n) :
      FlSum F n (F.rnd (a * b + x))

/-- Rounded inner product (Eigen's `dot`, and every coefficient of a matrix product). -/
def FlDot (F : Fl) {n : Type} [Fintype n] (a b : n → ℝ) (z : ℝ) : Prop :=
  FlSum F (Finset.univ.toList.map fun i => (a i, b i)) z

/-- Rounded matrix product: MatrixRotation.hpp:96. -/
def FlMul (F : Fl) (A B C : M3) : Prop := ∀ i j, FlDot F (fun k => A i k) (fun k => B k j) (C i j)

/-- Rounded matrix-vector product: MatrixRotation.hpp:113. -/
def FlMulVec (F : Fl) (A : M3) (v w : V3) : Prop := ∀ i, FlDot F (fun k => A i k) v (w i)

/-- Rounded quaternion product: QuaternionRotation.hpp (`lhs.value() * rhs.value()`). -/
structure FlQuatMul (F : Fl) (a b c : Quat) : Prop where
  w : FlSum F [(a.w, b.w), (-a.x, b.x), (-a.y, b.y), (-a.z, b.z)] c.w
  x : FlSum F [(a.w, b.x), (a.x, b.w), (a.y, b.z), (-a.z, b.y)] c.x
  y : FlSum F [(a.w, b.y), (a.y, b.w), (a.z, b.x), (-a.x, b.z)] c.y
  z : FlSum F [(a.w, b.z), (a.z, b.w), (a.x, b.y), (-a.y, b.x)] c.z

/-- The terms of a coefficient of Eigen's `a.cross(b)`. -/
def crossTerms (a b : V3) : Fin 3 → List (ℝ × ℝ) :=
  ![[(a 1, b 2), (-a 2, b 1)], [(a 2, b 0), (-a 0, b 2)], [(a 0, b 1), (-a 1, b 0)]]

/-- Rounded `Eigen::Quaternion::_transformVector`, QuaternionRotation.hpp:101-107:
`uv = vec.cross(v); uv += uv; v + w * uv + vec.cross(uv)`. -/
def FlQuatRotate (F : Fl) (q : Quat) (v z : V3) : Prop :=
  ∃ c uv : V3, (∀ i, FlSum F (crossTerms q.vec v i) (c i)) ∧ (∀ i, uv i = F.rnd (c i + c i)) ∧
    ∀ i, FlSum F ((v i, 1) :: (q.w, uv i) :: crossTerms q.vec uv i) (z i)

/-- The terms of the entries of Eigen's `toRotationMatrix`, with `t = 2 * vec`. -/
def matTerms (t : V3) (q : Quat) : Fin 3 → Fin 3 → List (ℝ × ℝ) :=
  ![![[(1, 1), (-t 1, q.y), (-t 2, q.z)], [(t 1, q.x), (-t 2, q.w)], [(t 2, q.x), (t 1, q.w)]],
    ![[(t 1, q.x), (t 2, q.w)], [(1, 1), (-t 0, q.x), (-t 2, q.z)], [(t 2, q.y), (-t 0, q.w)]],
    ![[(t 2, q.x), (-t 1, q.w)], [(t 2, q.y), (t 0, q.w)], [(1, 1), (-t 0, q.x), (-t 1, q.y)]]]

/-- Rounded `Eigen::Quaternion::toRotationMatrix`, MatrixRotation.hpp:44-46 (the conversion of a
quaternion rotation): `tx = 2 * x; …; 1 - (tyy + tzz)` and so on. -/
def FlToMatrix (F : Fl) (q : Quat) (M : M3) : Prop :=
  ∃ t : V3, (∀ i, t i = F.rnd (2 * q.vec i)) ∧ ∀ i j, FlSum F (matTerms t q i j) (M i j)

/-- Rounded conversions to a matrix, and between objects of one class: MatrixRotation.hpp:44-46,
129-138. -/
def FlConvRot (F : Fl) : (a b : RotK) → a.Val → b.Val → Prop
  | .quat, .mat, q, m => FlToMatrix F q m
  | .quat, .quat, q, p => p = q
  | .mat, .mat, m, p => p = m
  | _, _, _, _ => False

/-- Rounded conversions to a matrix, and between objects of one class:
CompactRigidTransform.hpp:107-113, 126-133, MatrixRigidTransform.hpp:135-139. -/
def FlConvRigid (F : Fl) : (a b : RigK) → a.Val → b.Val → Prop
  | .compact, .mat, x, z => ∃ R, FlToMatrix F (QuatTrans.q x) R ∧ z = mk4 R (QuatTrans.t x)
  | .mat, .mat, x, z => z = x
  | .compact, .compact, x, z => z = x
  | .mat, .compact, _, _ => False

/-- Rounded rotation of a vector by a stored rotation. -/
def FlRotate (F : Fl) : (k : RotK) → k.Val → V3 → V3 → Prop
  | .quat, q, v, z => FlQuatRotate F q v z
  | .mat, m, v, z => FlMulVec F m v z
  | .aa, _, _, _ => False

/-- Rounded composition of rotations of one class. -/
def FlCompose (F : Fl) : (k : RotK) → k.Val → k.Val → k.Val → Prop
  | .quat, a, b, c => FlQuatMul F a b c
  | .mat, a, b, c => FlMul F a b c
  | .aa, _, _, _ => False

/-- Rounded sum of vectors, coefficient by coefficient (VectorBase.hpp:107-109). -/
def FlAdd (F : Fl) {n : Type} (a b z : n → ℝ) : Prop := ∀ i, z i = F.rnd (a i + b i)

/-- Rounded composition of rigid transforms of one class: RigidTransformBase.hpp:109-118. -/
def FlRigidCompose (F : Fl) (k : RigK) (x y z : k.Val) : Prop :=
  ∃ R t, FlCompose F k.rotK (k.rot x) (k.rot y) R ∧ FlRotate F k.rotK (k.rot x) (k.trans y) t ∧
    ∃ w, FlAdd F t (k.trans x) w ∧ z = k.mk R w

/-- Rounded composition of a compact and a matrix transform, RigidTransformBase.hpp:109-118: the
quaternion is converted for the rotation part only. -/
def FlRigidMixed (F : Fl) (x : QuatTrans) (y z : M4) : Prop :=
  ∃ m R t w, FlToMatrix F x.q m ∧ FlMul F m (rotBlock y) R ∧ FlQuatRotate F x.q (transBlock y) t ∧
    FlAdd F t x.t w ∧ z = mk4 R w

/-- Rounded unary operators. -/
def FlUn (F : Fl) : {a b : Ty} → Un a b → a.Val → b.Val → Prop
  | _, _, .minus k, v, z => z = vMinus (n := k.Idx) v
  | _, _, .sqNorm k, v, z => FlDot F (n := k.Idx) v v (z (0 : Fin 1))
  | _, _, .norm k, v, z => ∃ t, FlDot F (n := k.Idx) v v t ∧ z (0 : Fin 1) = F.rnd (Real.sqrt t)
  | _, _, .invRot k, x, z => z = invRot k x
  | _, _, .invRigid k, x, z => ∃ t, FlRotate F k.rotK (invRot k.rotK (k.rot x)) (k.trans x) t ∧
      z = k.mk (invRot k.rotK (k.rot x)) (-t)
  | _, _, .getRot k, x, z => z = k.rot x
  | _, _, .getTrans k, x, z => z = k.trans x
  | _, _, .zeroTrans _, _, z => z = (0 : V3)
  | _, _, .recast _, x, z => z = x
  | _, _, .convRot a b, x, z => FlConvRot F a b x z
  | _, _, .convRigid a b, x, z => FlConvRigid F a b x z
  | _, _, _, _, _ => False

/-- Rounded binary operators. -/
def FlBin (F : Fl) : {a b c : Ty} → Bin a b c → a.Val → b.Val → c.Val → Prop
  | _, _, _, .sum k, a, b, z => FlAdd F (n := k.Idx) a b z
  | _, _, _, .sumPV, a, b, z => FlAdd F (n := Fin 3) a b z
  | _, _, _, .sumVP, a, b, z => FlAdd F (n := Fin 3) a b z
  | _, _, _, .sub k, a, b, z => FlAdd F (n := k.Idx) a (-b) z
  | _, _, _, .subPP, a, b, z => FlAdd F (n := Fin 3) a (-b) z
  | _, _, _, .subPV, a, b, z => FlAdd F (n := Fin 3) a (-b) z
  | _, _, _, .scale k, s, v, z => ∀ i : k.Idx, z i = F.rnd (s (0 : Fin 1) * v i)
  | _, _, _, .scaleR k, v, s, z => ∀ i : k.Idx, z i = F.rnd (v i * s (0 : Fin 1))
  | _, _, _, .dot k, a, b, z => FlDot F (n := k.Idx) a b (z (0 : Fin 1))
  | _, _, _, .product, a, b, z => z (0 : Fin 1) = F.rnd (a (0 : Fin 1) * b (0 : Fin 1))
  | _, _, _, .composeQ, a, b, z => FlCompose F .quat a b z
  | _, _, _, .composeM, a, b, z => FlCompose F .mat a b z
  | _, _, _, .flipQ, a, b, z => FlCompose F .quat b a z
  | _, _, _, .flipM, a, b, z => FlCompose F .mat b a z
  | _, _, _, .composeRigid .mat .mat, x, y, z => FlRigidCompose F .mat x y z
  | _, _, _, .composeRigid .compact .compact, x, y, z => FlRigidCompose F .compact x y z
  | _, _, _, .composeRigid .compact .mat, x, y, z => FlRigidMixed F x y z
  | _, _, _, .flipRigid .mat .mat, x, y, z => FlRigidCompose F .mat y x z
  | _, _, _, .flipRigid .compact .compact, x, y, z => FlRigidCompose F .compact y x z
  | _, _, _, .flipRigid .mat .compact, x, y, z => FlRigidMixed F y x z
  | _, _, _, .rotateQ, q, v, z => FlRotate F .quat q v z
  | _, _, _, .rotateM, m, v, z => FlRotate F .mat m v z
  | _, _, _, .transform k, x, v, z => ∃ t, FlRotate F k.rotK (k.rot x) v t ∧ FlAdd F t (k.trans x) z
  | _, _, _, _, _, _, _ => False

/-- `eval(e)` in floating point, from the stored leaf values `s`: `z` is a possible outcome. -/
def Computes (F : Fl) {ε : ℝ} (s : Store (geoLib ε)) : {τ : Ty} → Expr (geoLib ε) τ → τ.Val → Prop
  | _, .leaf a _ τ, z => z = s a τ
  | _, .un _ (op : Un _ _) e, z => ∃ x, Computes F s e x ∧ FlUn F op x z
  | _, .bin _ (op : Bin _ _ _) l r, z => ∃ x y, Computes F s l x ∧ Computes F s r y ∧ FlBin F op x y z
  | _, .proxy _ e, z => Computes F s e z

/-- Storing a leaf: every coefficient is rounded to the scalar type of its storage.  (The fixed bottom
row of a matrix transform is not looked at; angle-axis rotations are not covered.) -/
def Stored (F : Fl) : (τ : Ty) → τ.Val → τ.Val → Prop
  | .vec k, x, z => ∀ i : k.Idx, z i = F.rnd (x i)
  | .point, x, z => ∀ i : Fin 3, z i = F.rnd (x i)
  | .rot .quat, x, z => z = Quat.mk (F.rnd (Quat.w x)) (F.rnd (Quat.x x)) (F.rnd (Quat.y x))
      (F.rnd (Quat.z x))
  | .rot .mat, x, z => ∀ i j : Fin 3, z i j = F.rnd (x i j)
  | .rot .aa, x, z => z = x
  | .rigid .mat, x, z => (∀ i j, rotBlock z i j = F.rnd (rotBlock x i j)) ∧
      ∀ i, transBlock z i = F.rnd (transBlock x i)
  | .rigid .compact, x, z => QuatTrans.q z = Quat.mk (F.rnd (QuatTrans.q x).w)
      (F.rnd (QuatTrans.q x).x) (F.rnd (QuatTrans.q x).y) (F.rnd (QuatTrans.q x).z) ∧
      ∀ i, QuatTrans.t z i = F.rnd (QuatTrans.t x i)

end WG
