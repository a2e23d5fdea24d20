import Verif.Lemmas.Fill
import Verif.Props.Compound
import Mathlib.LinearAlgebra.CrossProduct
import Mathlib.Tactic.NormNum

/-!
# C71: Jacobians filled block by block
-/

namespace WG
open Matrix Spec

/-- **C71, inverse.** Every coefficient of the Jacobian of the inverse of a rigid transform is set; its
parts are `-R`, `0`, `-[t]R`, `-R`, those of the Jacobian of C15. -/
theorem c71_inverse (R : M3) (t : V3) :
    ∃ M, (inverseFill R t).bind (Flat.read 6 6) = some M ∧ IsFlat6 M (invRigidJac R t) ∧
      FourParts M (-R) 0 (-(crossMatrix t * R)) (-R) := by
  refine ⟨_, inverseFill_read R t, ?_, ?_⟩
  · intro i j
    show -(flat6 R 0 (crossMatrix t * R) R (finSumFinEquiv i) (finSumFinEquiv j)) = _
    rw [flat6_isFlat R 0 (crossMatrix t * R) R i j]; rfl
  · have h := flat6_parts R 0 (crossMatrix t * R) R
    exact ⟨fun i j => congrArg Neg.neg (h.tl i j),
      fun i j => (congrArg Neg.neg (h.tr i j)).trans (by simp),
      fun i j => congrArg Neg.neg (h.bl i j), fun i j => congrArg Neg.neg (h.br i j)⟩

/-- **C71, composition.** The same for the right Jacobian of a composition. -/
theorem c71_compose (R : M3) (t : V3) :
    ∃ M, (composeFill R t).bind (Flat.read 6 6) = some M ∧ IsFlat6 M (composeRigidJacR R t) ∧
      FourParts M R 0 (crossMatrix t * R) R :=
  ⟨_, composeFill_read R t, flat6_isFlat _ _ _ _, flat6_parts _ _ _ _⟩

/-- **C71, exponential.** The flat Jacobian of the exponential of a twist exists exactly when its blocks
do, and consists of them. -/
theorem c71_exp (ε : ℝ) (C : M3) (x : Twist) :
    (∀ J, expTwistJac ε C x = some J →
      ∃ M, (expTwistJacFlat ε C x).bind (Flat.read 6 6) = some M ∧ IsFlat6 M J) ∧
    (expTwistJac ε C x = none → (expTwistJacFlat ε C x).bind (Flat.read 6 6) = none) := by
  unfold expTwistJac expTwistJacFlat
  cases expRelJac ε C x.rot with
  | none => exact ⟨fun J h => by simp at h, fun _ => rfl⟩
  | some D =>
    cases eadeB x.rot x.trans with
    | none => exact ⟨fun J h => by simp at h, fun _ => rfl⟩
    | some B =>
      refine ⟨fun J h => ?_, fun h => by simp at h⟩
      obtain rfl := Option.some.inj h
      exact ⟨_, expTwistFill_read D B, flat6_isFlat _ _ _ _⟩

/-- **C71, logarithm.** The same for the Jacobian of the logarithm of a rigid transform. -/
theorem c71_log (val : Twist) :
    (∀ J, logRigidJac val = some J →
      ∃ M, (logRigidJacFlat val).bind (Flat.read 6 6) = some M ∧ IsFlat6 M J) ∧
    (logRigidJac val = none → (logRigidJacFlat val).bind (Flat.read 6 6) = none) := by
  unfold logRigidJac logRigidJacFlat
  cases logRotJac val.rot with
  | none => exact ⟨fun J h => by simp at h, fun _ => rfl⟩
  | some D =>
    cases eadeB val.rot val.trans with
    | none => exact ⟨fun J h => by simp at h, fun _ => rfl⟩
    | some B =>
      refine ⟨fun J h => ?_, fun h => by simp at h⟩
      obtain rfl := Option.some.inj h
      exact ⟨_, logRigidFill_read D B, flat6_isFlat _ _ _ _⟩

/-- **C71, transform.** The left Jacobian of a transformed point, filled by a comma initialiser. -/
theorem c71_transform (val : V3) :
    ∃ M, (transformFill val).bind (Flat.read 3 6) = some M ∧ IsFlat3 M (transformJacL val) ∧
      TwoParts M (crossMatrix (-val)) 1 :=
  ⟨_, transformFill_read val, flat3_isFlat _ _, flat3_parts _ _⟩

/-- **C71, `.rotation()`.** -/
theorem c71_rotation : ∃ M, getRotFill.bind (Flat.read 3 6) = some M ∧ IsFlat3 M getRotJac ∧
    TwoParts M 1 0 :=
  ⟨_, getRotFill_read, flat3_isFlat _ _, flat3_parts _ _⟩

/-- **C71, `.translation()`.** -/
theorem c71_translation (t : V3) :
    ∃ M, (getTransFill t).bind (Flat.read 3 6) = some M ∧ IsFlat3 M (getTransJac t) ∧
      TwoParts M (crossMatrix (-t)) 1 :=
  ⟨_, getTransFill_read t, flat3_isFlat _ _, flat3_parts _ _⟩

/-- **C71, cross matrix.** The nine numbers given to the comma initialiser of a cross matrix fill it, and
the product of the matrix with a vector is the cross product. -/
theorem c71_cross (v : V3) : ∃ M, (crossFill v).bind (Flat.read 3 3) = some M ∧
    ∀ w : V3, M *ᵥ w = crossProduct v w := by
  refine ⟨_, crossFill_read v, fun w => ?_⟩
  funext i
  rw [cross_apply]
  fin_cases i <;> simp [crossMatrix, Matrix.mulVec, dotProduct, Fin.sum_univ_three] <;> ring

/-- **C71, quaternion.** The exponential of a relative rotation sets all four coefficients of the
quaternion it returns: vector part `s v` and real part `c`. -/
theorem c71_quaternion (s c : ℝ) (v : V3) : ∃ m, (quatFill s c v).bind (Flat.read 4 1) = some m ∧
    Quat.ofCoeffs m = ⟨c, s * v 0, s * v 1, s * v 2⟩ ∧ Quat.ofCoeffs m = Quat.ofVec c (s • v) := by
  refine ⟨_, Flat.read_of _ !![s * v 0; s * v 1; s * v 2; c] fun i j => ?_, rfl, rfl⟩
  fin_cases i <;> fin_cases j <;> rfl

/-- **C71, any block matrix.** For all lists of sizes, if blocks of the right sizes are assigned to all
pairs of parts, in any order and possibly repeatedly, every coefficient of the matrix is set and each
part holds the block assigned to it. -/
theorem c71_fill (ls rs : List ℕ) (A : ℕ → ℕ → MatObj)
    (hA : ∀ I J h w, ls[I]? = some h → rs[J]? = some w → (A I J).rows = h ∧ (A I J).cols = w)
    (order : List (ℕ × ℕ)) (ho : ∀ I J, (I, J) ∈ order ↔ I < ls.length ∧ J < rs.length) :
    ∃ M, (fillBlocks ls rs A (Flat.fresh (compoundSize ls) (compoundSize rs)) order).bind
        (Flat.read ls.sum rs.sum) = some M ∧
      ∀ I J h w a b, ls[I]? = some h → rs[J]? = some w → a < h → b < w →
        ∃ (i : Fin ls.sum) (j : Fin rs.sum), i.1 = startOf ls I + a ∧ j.1 = startOf rs J + b ∧
          M i j = (A I J).coeff a b := by
  have fresh : Flat.fresh (compoundSize ls) (compoundSize rs) = Flat.fresh ls.sum rs.sum := by
    rw [compoundSize, compoundSize, sumSequence_eq, sumSequence_eq]
  rw [fresh]
  obtain ⟨M, h1, h2, h3, h4⟩ := fillBlocks_spec ls rs A hA order (fun p hp => (ho p.1 p.2).1 hp)
    (Flat.fresh ls.sum rs.sum) rfl rfl
  have all : ∀ I J h w a b, ls[I]? = some h → rs[J]? = some w → a < h → b < w →
      M.mem (startOf ls I + a) (startOf rs J + b) = some ((A I J).coeff a b) := by
    intro I J h w a b hI hJ ha hb
    rw [h4 I J h w a b hI hJ ha hb, if_pos]
    exact (ho I J).2 ⟨(List.getElem?_eq_some_iff.1 hI).1, (List.getElem?_eq_some_iff.1 hJ).1⟩
  have pos : ∀ (l : List ℕ) (r : ℕ), r < l.sum → ∃ I h a, l[I]? = some h ∧ a < h ∧ r = startOf l I + a := by
    intro l r hr
    obtain ⟨I, ⟨off, n, e, q1, q2⟩, -⟩ := c43_every_row_once l r (by rwa [compoundSize, sumSequence_eq])
    rw [blockRange_eq, Option.map_eq_some_iff] at e
    obtain ⟨k, e1, e2⟩ := e
    cases e2
    exact ⟨I, n, r - startOf l I, e1, by unfold startOf; omega, by unfold startOf; omega⟩
  have some_ : ∀ (i : Fin ls.sum) (j : Fin rs.sum), (M.mem i j).isSome := by
    intro i j
    obtain ⟨I, h, a, hI, ha, e⟩ := pos ls i i.2
    obtain ⟨J, w, b, hJ, hb, e'⟩ := pos rs j j.2
    rw [e, e', all I J h w a b hI hJ ha hb]; rfl
  refine ⟨Matrix.of fun i j => (M.mem i j).getD 0, ?_, ?_⟩
  · rw [h1]
    exact if_pos ⟨h2, h3, some_⟩
  · intro I J h w a b hI hJ ha hb
    have := startOf_end hI
    have := startOf_end hJ
    refine ⟨⟨startOf ls I + a, by omega⟩, ⟨startOf rs J + b, by omega⟩, rfl, rfl, ?_⟩
    show (M.mem (startOf ls I + a) (startOf rs J + b)).getD 0 = _
    rw [all I J h w a b hI hJ ha hb]; rfl

/-- **C71, a block forgotten.** If one pair of parts with rows and columns is not assigned, the matrix
has coefficients that are not set. -/
theorem c71_forgotten (ls rs : List ℕ) (A : ℕ → ℕ → MatObj)
    (hA : ∀ I J h w, ls[I]? = some h → rs[J]? = some w → (A I J).rows = h ∧ (A I J).cols = w)
    (order : List (ℕ × ℕ)) (ho : ∀ p ∈ order, p.1 < ls.length ∧ p.2 < rs.length)
    (I J h w : ℕ) (hI : ls[I]? = some h) (hJ : rs[J]? = some w) (h0 : 0 < h) (w0 : 0 < w)
    (hn : (I, J) ∉ order) :
    (fillBlocks ls rs A (Flat.fresh (compoundSize ls) (compoundSize rs)) order).bind
      (Flat.read ls.sum rs.sum) = none := by
  have fresh : Flat.fresh (compoundSize ls) (compoundSize rs) = Flat.fresh ls.sum rs.sum := by
    rw [compoundSize, compoundSize, sumSequence_eq, sumSequence_eq]
  rw [fresh]
  obtain ⟨M, h1, h2, h3, h4⟩ := fillBlocks_spec ls rs A hA order ho (Flat.fresh ls.sum rs.sum) rfl rfl
  have := startOf_end hI
  have := startOf_end hJ
  rw [h1]
  refine if_neg fun ⟨_, _, q⟩ => ?_
  have q := q ⟨startOf ls I + 0, by omega⟩ ⟨startOf rs J + 0, by omega⟩
  have e := h4 I J h w 0 0 hI hJ h0 w0
  rw [if_neg hn] at e
  rw [e] at q
  exact absurd q (by simp [Flat.fresh])

/-- **C71, strips.** `colsWrt<J>()` and `rowsWrt<I>()` are exactly the blocks `(·, J)` and `(I, ·)` side
by side: all rows (columns) and the columns (rows) of the part. -/
theorem c71_strips (ls rs : List ℕ) (f : ℕ → ℕ → Option ℝ) :
    (∀ J w, rs[J]? = some w → Flat.colsWrt ⟨ls.sum, rs.sum, f⟩ rs J =
      some ⟨0, startOf rs J, ls.sum, w⟩) ∧
    (∀ I h, ls[I]? = some h → Flat.rowsWrt ⟨ls.sum, rs.sum, f⟩ ls I =
      some ⟨startOf ls I, 0, h, rs.sum⟩) ∧
    (∀ J, rs.length ≤ J → Flat.colsWrt ⟨ls.sum, rs.sum, f⟩ rs J = none) ∧
    (∀ I, ls.length ≤ I → Flat.rowsWrt ⟨ls.sum, rs.sum, f⟩ ls I = none) := by
  refine ⟨fun J w h => ?_, fun I w h => ?_, fun J h => ?_, fun I h => ?_⟩
  · have := startOf_end h
    unfold Flat.colsWrt
    rw [blockRange_eq, h]
    exact if_pos ⟨by simp, this⟩
  · have := startOf_end h
    unfold Flat.rowsWrt
    rw [blockRange_eq, h]
    exact if_pos ⟨this, by simp⟩
  · unfold Flat.colsWrt
    rw [blockRange_eq, List.getElem?_eq_none h]; rfl
  · unfold Flat.rowsWrt
    rw [blockRange_eq, List.getElem?_eq_none h]; rfl

/-! ### Examples -/

/-- A rotation by a quarter turn with a translation: the coefficient in the fifth row and first column of
the Jacobian of its inverse is the second coefficient of the translation's cross product. -/
example : ∃ M, (inverseFill !![0, -1, 0; 1, 0, 0; 0, 0, 1] ![1, 2, 3]).bind (Flat.read 6 6) = some M ∧
    M 4 0 = 0 ∧ M 3 0 = 3 ∧ M 0 4 = 0 ∧ M 0 1 = 1 := by
  obtain ⟨M, h, -, p⟩ := c71_inverse !![0, -1, 0; 1, 0, 0; 0, 0, 1] ![1, 2, 3]
  refine ⟨M, h, (p.bl 1 0).trans ?_, (p.bl 0 0).trans ?_, (p.tr 0 1).trans rfl, (p.tl 0 1).trans ?_⟩ <;>
    simp [crossMatrix, Matrix.mul_apply, Fin.sum_univ_three]

/-- A 4x5 block matrix cut as 3 + 1 rows and 2 + 3 columns, filled in an unusual order, one block twice. -/
example : ∃ M, (fillBlocks [3, 1] [2, 3] (fun I J => ⟨[3, 1].getD I 0, [2, 3].getD J 0,
      fun a b => (1000 * I + 100 * J + 10 * a + b : ℕ)⟩)
      (Flat.fresh (compoundSize [3, 1]) (compoundSize [2, 3])) [(1, 1), (0, 0), (1, 0), (0, 1), (0, 0)]).bind
        (Flat.read 4 5) = some M ∧ M 3 4 = 1102 := by
  obtain ⟨M, h, q⟩ := c71_fill [3, 1] [2, 3] (fun I J => ⟨[3, 1].getD I 0, [2, 3].getD J 0,
      fun a b => (1000 * I + 100 * J + 10 * a + b : ℕ)⟩)
    (fun I J h w hI hJ => by simp [List.getD, hI, hJ])
    [(1, 1), (0, 0), (1, 0), (0, 1), (0, 0)]
    (fun I J => by
      simp only [List.mem_cons, Prod.mk.injEq, List.not_mem_nil, or_false, List.length_cons, List.length_nil]
      constructor <;> intro h <;> omega)
  refine ⟨M, h, ?_⟩
  obtain ⟨i, j, hi, hj, e⟩ := q 1 1 1 3 0 2 rfl rfl (by norm_num) (by norm_num)
  have : i = (3 : Fin 4) := Fin.ext hi
  have : j = (4 : Fin 5) := Fin.ext hj
  subst i; subst j
  rw [e]; norm_num

/-- Without the assignment of the zero block the inverse's Jacobian has coefficients that are not set. -/
example (R B : M3) : (fillBlocks [3, 3] [3, 3] (fun I J => if J = 0 ∧ I = 1 then MatObj.ofM3 B else MatObj.ofM3 R)
    (Flat.fresh (compoundSize [3, 3]) (compoundSize [3, 3])) [(0, 0), (1, 0), (1, 1)]).bind
      (Flat.read 6 6) = none := by
  refine c71_forgotten [3, 3] [3, 3] _ (fun I J h w hI hJ => ?_) _ (by simp) 0 1 3 3 rfl rfl
    (by norm_num) (by norm_num) (by simp)
  have e : ∀ {I h : ℕ}, ([3, 3] : List ℕ)[I]? = some h → h = 3 := by
    intro I h hI
    have := List.mem_of_getElem? hI
    simpa using this
  rw [e hI, e hJ]
  split <;> exact ⟨rfl, rfl⟩

/-- The exponential's Jacobian exists for a twist with rotation `(0, 0, 1)`. -/
example : ∃ J, expTwistJac 1 1 (Twist.mk ![0, 0, 1] ![1, 2, 3]) = some J ∧
    ∃ M, (expTwistJacFlat 1 1 (Twist.mk ![0, 0, 1] ![1, 2, 3])).bind (Flat.read 6 6) = some M ∧
      IsFlat6 M J := by
  have h : ∃ J, expTwistJac 1 1 (Twist.mk ![0, 0, 1] ![1, 2, 3]) = some J := by
    have e1 : normSq (Twist.mk ![0, 0, (1:ℝ)] ![1, 2, 3]).rot = 1 := by
      show normSq ![0, 0, (1:ℝ)] = 1
      simp [normSq, Fin.sum_univ_three]
    simp [expTwistJac, expRelJac, eadeB, rdiv, e1]
  obtain ⟨J, h⟩ := h
  exact ⟨J, h, (c71_exp _ _ _).1 J h⟩

end WG
