import Verif.Lemmas.RoundingNorm
import Mathlib.Tactic.Linarith
import Mathlib.Tactic.Positivity
import Mathlib.Tactic.GCongr

/-! # Rounding errors of single operations -/

namespace WG.Round
open Matrix Spec

variable {F : Fl}

theorem u_nonneg (F : Fl) : 0 ≤ F.u := by
  have := (abs_nonneg _).trans (F.err 1)
  simpa using this

theorem one_le_U (F : Fl) : 1 ≤ 1 + F.u := le_add_of_nonneg_right (u_nonneg F)

theorem growth_nonneg (F : Fl) (n : ℕ) : 0 ≤ growth F.u n :=
  sub_nonneg.mpr (one_le_pow₀ (one_le_U F))

theorem growth_mono (F : Fl) {m n : ℕ} (h : m ≤ n) : growth F.u m ≤ growth F.u n :=
  sub_le_sub_right (pow_le_pow_right₀ (one_le_U F) h) 1

theorem rnd_zero (F : Fl) : F.rnd 0 = 0 := by
  have := F.err 0
  simpa using this

/-- Sum of the terms. -/
def sumOf (l : List (ℝ × ℝ)) : ℝ := (l.map fun p => p.1 * p.2).sum
/-- Sum of the absolute values of the terms. -/
def absOf (l : List (ℝ × ℝ)) : ℝ := (l.map fun p => |p.1 * p.2|).sum

theorem absOf_nonneg (l : List (ℝ × ℝ)) : 0 ≤ absOf l := by
  refine List.sum_nonneg fun x hx => ?_
  obtain ⟨p, -, rfl⟩ := List.mem_map.mp hx
  exact abs_nonneg _

theorem sumOf_perm {l m : List (ℝ × ℝ)} (h : l.Perm m) : sumOf l = sumOf m := (h.map _).sum_eq
theorem absOf_perm {l m : List (ℝ × ℝ)} (h : l.Perm m) : absOf l = absOf m := (h.map _).sum_eq
theorem sumOf_append (l m : List (ℝ × ℝ)) : sumOf (l ++ m) = sumOf l + sumOf m := by simp [sumOf]
theorem absOf_append (l m : List (ℝ × ℝ)) : absOf (l ++ m) = absOf l + absOf m := by simp [absOf]

theorem abs_sumOf_le (l : List (ℝ × ℝ)) : |sumOf l| ≤ absOf l := by
  induction l with
  | nil => simp [sumOf, absOf]
  | cons p l ih =>
    simp only [sumOf, absOf, List.map_cons, List.sum_cons] at ih ⊢
    exact (abs_add_le _ _).trans (add_le_add le_rfl ih)

theorem flSum_pos {l : List (ℝ × ℝ)} {z : ℝ} (h : FlSum F l z) : 1 ≤ l.length := by
  induction h with
  | lit => simp
  | one => simp
  | mul => simp
  | add _ _ hp ih _ => rw [← hp.length_eq, List.length_append]; omega
  | fma _ _ _ hp => rw [← hp.length_eq]; simp

/-- However the terms are arranged, the rounded sum of `n` products is within `(1+u)^n - 1` of the
exact sum, relative to the sum of the absolute values. -/
theorem flSum_err {l : List (ℝ × ℝ)} {z : ℝ} (h : FlSum F l z) :
    |z - sumOf l| ≤ growth F.u l.length * absOf l := by
  have hU := one_le_U F
  have hu := u_nonneg F
  induction h with
  | lit x =>
    simp only [sumOf, List.map_cons, List.map_nil, List.sum_singleton, mul_one, sub_self, abs_zero]
    exact mul_nonneg (growth_nonneg F _) (absOf_nonneg _)
  | one x =>
    simp only [sumOf, List.map_cons, List.map_nil, List.sum_singleton, one_mul, sub_self, abs_zero]
    exact mul_nonneg (growth_nonneg F _) (absOf_nonneg _)
  | mul a b =>
    simp only [sumOf, absOf, List.map_cons, List.map_nil, List.sum_singleton, growth,
      List.length_singleton, pow_one, add_sub_cancel_left]
    exact F.err _
  | @add l m n x y hx hy hp ihx ihy =>
    rw [← sumOf_perm hp, ← absOf_perm hp, ← hp.length_eq, sumOf_append, absOf_append,
      List.length_append]
    have hl := flSum_pos hx
    have hm := flSum_pos hy
    have e := F.err (x + y)
    have h1 : |x + y - (sumOf l + sumOf m)| ≤
        growth F.u l.length * absOf l + growth F.u m.length * absOf m := by
      rw [show x + y - (sumOf l + sumOf m) = (x - sumOf l) + (y - sumOf m) by ring]
      exact (abs_add_le _ _).trans (add_le_add ihx ihy)
    have h2 : |x + y| ≤ (1 + F.u) ^ l.length * absOf l + (1 + F.u) ^ m.length * absOf m := by
      rw [show x + y = (x + y - (sumOf l + sumOf m)) + (sumOf l + sumOf m) by ring]
      refine (abs_add_le _ _).trans ((add_le_add h1 ((abs_add_le _ _).trans
        (add_le_add (abs_sumOf_le l) (abs_sumOf_le m)))).trans (le_of_eq ?_))
      unfold growth
      ring
    have h3 : |F.rnd (x + y) - (sumOf l + sumOf m)| ≤
        growth F.u (l.length + 1) * absOf l + growth F.u (m.length + 1) * absOf m := by
      rw [show F.rnd (x + y) - (sumOf l + sumOf m) =
        (F.rnd (x + y) - (x + y)) + (x + y - (sumOf l + sumOf m)) by ring]
      refine (abs_add_le _ _).trans ((add_le_add (e.trans (mul_le_mul_of_nonneg_left h2 hu))
        h1).trans (le_of_eq ?_))
      unfold growth
      ring
    refine h3.trans ?_
    rw [mul_add]
    exact add_le_add
      (mul_le_mul_of_nonneg_right (growth_mono F (by omega)) (absOf_nonneg l))
      (mul_le_mul_of_nonneg_right (growth_mono F (by omega)) (absOf_nonneg m))
  | @fma l n x a b hx hp ih =>
    rw [← sumOf_perm hp, ← absOf_perm hp, ← hp.length_eq]
    have hs : sumOf ((a, b) :: l) = a * b + sumOf l := by simp [sumOf]
    have ha : absOf ((a, b) :: l) = |a * b| + absOf l := by simp [absOf]
    rw [hs, ha, List.length_cons]
    have e := F.err (a * b + x)
    have h2 : |a * b + x| ≤ |a * b| + (1 + F.u) ^ l.length * absOf l := by
      rw [show a * b + x = a * b + ((x - sumOf l) + sumOf l) by ring]
      refine (abs_add_le _ _).trans (add_le_add le_rfl ((abs_add_le _ _).trans
        ((add_le_add ih (abs_sumOf_le l)).trans (le_of_eq ?_))))
      unfold growth
      ring
    have h3 : |F.rnd (a * b + x) - (a * b + sumOf l)| ≤
        F.u * |a * b| + growth F.u (l.length + 1) * absOf l := by
      rw [show F.rnd (a * b + x) - (a * b + sumOf l) =
        (F.rnd (a * b + x) - (a * b + x)) + (x - sumOf l) by ring]
      refine (abs_add_le _ _).trans ((add_le_add (e.trans (mul_le_mul_of_nonneg_left h2 hu))
        ih).trans (le_of_eq ?_))
      unfold growth
      ring
    refine h3.trans ?_
    rw [mul_add]
    refine add_le_add (mul_le_mul_of_nonneg_right ?_ (abs_nonneg _)) le_rfl
    have : growth F.u 1 ≤ growth F.u (l.length + 1) := growth_mono F (by omega)
    simpa [growth] using this

section
variable {n : Type} [Fintype n]

theorem sumOf_univ (a b : n → ℝ) :
    sumOf (Finset.univ.toList.map fun i => (a i, b i)) = a ⬝ᵥ b := by
  unfold sumOf
  rw [List.map_map]
  exact Finset.sum_map_toList _ _

theorem absOf_univ (a b : n → ℝ) :
    absOf (Finset.univ.toList.map fun i => (a i, b i)) = ∑ i, |a i * b i| := by
  unfold absOf
  rw [List.map_map]
  exact Finset.sum_map_toList _ _

theorem flDot_abs {a b : n → ℝ} {z : ℝ} (h : FlDot F a b z) :
    |z - a ⬝ᵥ b| ≤ growth F.u (Fintype.card n) * ∑ i, |a i * b i| := by
  have := flSum_err h
  rwa [sumOf_univ, absOf_univ, List.length_map, Finset.length_toList, Finset.card_univ] at this

theorem flDot_err {a b : n → ℝ} {z : ℝ} (h : FlDot F a b z) :
    |z - a ⬝ᵥ b| ≤ growth F.u (Fintype.card n) * (len a * len b) :=
  (flDot_abs h).trans (mul_le_mul_of_nonneg_left (sum_abs_mul_le a b) (growth_nonneg F _))

theorem flAdd_err {a b z : n → ℝ} (h : FlAdd F a b z) : len (z - (a + b)) ≤ F.u * len (a + b) := by
  rw [← abs_of_nonneg (u_nonneg F), ← len_smul]
  refine len_mono fun i => ?_
  rw [Pi.sub_apply, h i, Pi.smul_apply, smul_eq_mul, abs_mul, abs_of_nonneg (u_nonneg F)]
  exact F.err _
end

/-- Absolute values of the entries. -/
def absM (A : M3) : M3 := Matrix.of fun i j => |A i j|

theorem frob_abs (A : M3) : frob (absM A) = frob A :=
  len_abs fun p : Fin 3 × Fin 3 => A p.1 p.2

theorem frob_smul (c : ℝ) (A : M3) : frob (c • A) = |c| * frob A :=
  len_smul c fun p : Fin 3 × Fin 3 => A p.1 p.2

theorem frob_mono {A B : M3} (h : ∀ i j, |A i j| ≤ |B i j|) : frob A ≤ frob B :=
  len_mono fun p : Fin 3 × Fin 3 => h p.1 p.2

theorem mulVec_err {A : M3} {v w : V3} (h : FlMulVec F A v w) :
    len (w - A *ᵥ v) ≤ growth F.u 3 * (frob A * len v) := by
  have h1 : len (w - A *ᵥ v) ≤
      len (growth F.u 3 • (absM A *ᵥ fun i => |v i|)) := by
    refine len_mono fun i => ?_
    refine (flDot_abs (h i)).trans (le_trans (le_of_eq ?_) (le_abs_self _))
    rw [Fintype.card_fin, Pi.smul_apply, smul_eq_mul]
    simp only [abs_mul]
    rfl
  refine h1.trans ?_
  rw [len_smul, abs_of_nonneg (growth_nonneg F 3)]
  refine mul_le_mul_of_nonneg_left ((len_mulVec_le _ _).trans ?_) (growth_nonneg F 3)
  rw [frob_abs, len_abs]

theorem mul_err {A B C : M3} (h : FlMul F A B C) :
    frob (C - A * B) ≤ growth F.u 3 * (frob A * frob B) := by
  have h1 : frob (C - A * B) ≤
      frob (growth F.u 3 • (absM A * absM B)) := by
    refine frob_mono fun i j => ?_
    refine (flDot_abs (h i j)).trans (le_trans (le_of_eq ?_) (le_abs_self _))
    rw [Fintype.card_fin, Matrix.smul_apply, smul_eq_mul, Matrix.mul_apply]
    simp only [abs_mul]
    rfl
  refine h1.trans ?_
  rw [frob_smul, abs_of_nonneg (growth_nonneg F 3)]
  refine mul_le_mul_of_nonneg_left ((frob_mul_le _ _).trans ?_) (growth_nonneg F 3)
  rw [frob_abs, frob_abs]

/-- A stored matrix close to a rotation is not much larger. -/
theorem frob_near {R Q : M3} {A : ℝ} (hR : Rᵀ * R = 1) (h : frob (Q - R) ≤ A - 1) :
    frob Q ≤ √3 + (A - 1) := by
  have h1 : frob R = √3 := by
    rw [← frob_orth hR, Real.sqrt_sq (frob_nonneg R)]
  have : frob Q ≤ frob R + frob (Q - R) := by
    have := frob_add_le R (Q - R)
    rwa [add_sub_cancel] at this
  rw [h1] at this
  linarith

theorem sqrt3_le : √3 ≤ 2 := by
  rw [Real.sqrt_le_left (by norm_num)]
  norm_num

theorem one_le_sqrt3 : 1 ≤ √3 := by
  rw [Real.one_le_sqrt]
  norm_num

theorem len_near {n : Type} [Fintype n] {v w : n → ℝ} {B S : ℝ} (hv : len v ≤ S)
    (h : len (w - v) ≤ (B - 1) * S) : len w ≤ B * S := by
  have : len w ≤ len v + len (w - v) := by
    have := len_add_le v (w - v)
    rwa [add_sub_cancel] at this
  linarith

theorem rotateM_near {R Q : M3} {v v' w : V3} {A B S : ℝ} (hR : Rᵀ * R = 1) (hA : 1 ≤ A)
    (hB : 1 ≤ B) (hv : len v ≤ S) (h1 : frob (Q - R) ≤ A - 1) (h2 : len (v' - v) ≤ (B - 1) * S)
    (h : FlMulVec F Q v' w) :
    len (w - R *ᵥ v) ≤ (A * B * (1 + 2 * growth F.u 3) - 1) * S := by
  have hS : 0 ≤ S := (len_nonneg v).trans hv
  have hv' := len_near hv h2
  have hQ : frob Q ≤ 2 * A := by linarith [frob_near hR h1, sqrt3_le]
  have e : w - R *ᵥ v = (w - Q *ᵥ v') + ((Q - R) *ᵥ v' + R *ᵥ (v' - v)) := by
    rw [Matrix.sub_mulVec, Matrix.mulVec_sub]
    abel
  have t1 : len (w - Q *ᵥ v') ≤ growth F.u 3 * (2 * A * (B * S)) :=
    (mulVec_err h).trans (mul_le_mul_of_nonneg_left
      (mul_le_mul hQ hv' (len_nonneg _) (by linarith)) (growth_nonneg F 3))
  have t2 : len ((Q - R) *ᵥ v') ≤ (A - 1) * (B * S) :=
    (len_mulVec_le _ _).trans (mul_le_mul h1 hv' (len_nonneg _) (by linarith))
  have t3 : len (R *ᵥ (v' - v)) ≤ (B - 1) * S := by rwa [len_orth hR]
  rw [e]
  refine (len_add_le _ _).trans ((add_le_add t1 ((len_add_le _ _).trans (add_le_add t2 t3))).trans
    (le_of_eq ?_))
  ring

theorem composeM_near {R Q R' Q' C : M3} {A B : ℝ} (hR : Rᵀ * R = 1) (hQ : Qᵀ * Q = 1) (hA : 1 ≤ A)
    (hB : 1 ≤ B) (h1 : frob (R' - R) ≤ A - 1) (h2 : frob (Q' - Q) ≤ B - 1) (h : FlMul F R' Q' C) :
    frob (C - R * Q) ≤ A * B * (1 + 3 * growth F.u 3) - 1 := by
  have s1 := one_le_sqrt3
  have hR' : frob R' ≤ √3 * A := by nlinarith [frob_near hR h1]
  have hQ' : frob Q' ≤ √3 * B := by nlinarith [frob_near hQ h2]
  have e : C - R * Q = (C - R' * Q') + ((R' - R) * (Q' - Q) + ((R' - R) * Q + R * (Q' - Q))) := by
    noncomm_ring
  have t1 : frob (C - R' * Q') ≤ growth F.u 3 * (√3 * A * (√3 * B)) :=
    (mul_err h).trans (mul_le_mul_of_nonneg_left
      (mul_le_mul hR' hQ' (frob_nonneg _) (by positivity)) (growth_nonneg F 3))
  have t2 : frob ((R' - R) * (Q' - Q)) ≤ (A - 1) * (B - 1) :=
    (frob_mul_le _ _).trans (mul_le_mul h1 h2 (frob_nonneg _) (by linarith))
  have t3 : frob ((R' - R) * Q) ≤ A - 1 := by rwa [frob_mul_orth hQ]
  have t4 : frob (R * (Q' - Q)) ≤ B - 1 := by rwa [frob_orth_mul hR]
  rw [e]
  refine (frob_add_le _ _).trans ((add_le_add t1 ((frob_add_le _ _).trans (add_le_add t2
    ((frob_add_le _ _).trans (add_le_add t3 t4))))).trans (le_of_eq ?_))
  have h3 : √3 * √3 = 3 := Real.mul_self_sqrt (by norm_num)
  linear_combination growth F.u 3 * A * B * h3

end WG.Round
