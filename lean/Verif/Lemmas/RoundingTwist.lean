import Verif.Model.RoundingTwist
import Verif.Lemmas.RoundingExp
import Verif.Lemmas.RoundingJacLoc
import Verif.Lemmas.RoundingOutcome
import Verif.Lemmas.Rigid
import Mathlib.Analysis.SpecialFunctions.Trigonometric.Bounds

/-! # Rounding errors of the exponential of a twist -/

namespace WG.Round
open Matrix Spec

variable {F : Fl}

theorem growth3 (hu : F.u ≤ 1 / 1000) : growth F.u 3 ≤ 4 * F.u := by
  have u0 := u_nonneg F
  unfold growth
  nlinarith [mul_nonneg u0 u0, mul_nonneg (mul_nonneg u0 u0) (sub_nonneg.2 hu)]

/-- The rounded angle. -/
theorem angle_near {t θ a : ℝ} (hu : F.u ≤ 1 / 1000) (h0 : 0 < θ) (ht : |t - θ ^ 2| ≤ 4 * F.u * θ ^ 2)
    (ha : a = F.rnd √t) : 0 < t ∧ |a - θ| ≤ 6 * F.u * θ ∧ 0 < a := by
  have u0 := u_nonneg F
  have h2 : 0 < θ ^ 2 := by positivity
  obtain ⟨b1, b2⟩ := abs_le.1 ht
  have tp : 0 < t := by nlinarith
  have sp := Real.sqrt_pos.2 tp
  have e : (√t - θ) * (√t + θ) = t - θ ^ 2 := by
    have := Real.sq_sqrt tp.le
    nlinarith
  have d1 : |√t - θ| ≤ 4 * F.u * θ := by
    have : |√t - θ| * (√t + θ) ≤ 4 * F.u * θ ^ 2 := by
      rw [← abs_of_pos (show 0 < √t + θ by positivity), ← abs_mul, e]
      exact ht
    have h3 : |√t - θ| * θ ≤ (4 * F.u * θ) * θ := by nlinarith [abs_nonneg (√t - θ)]
    exact le_of_mul_le_mul_right h3 h0
  have e1 := F.err √t
  rw [abs_of_pos sp] at e1
  have hs : √t ≤ θ + 4 * F.u * θ := by linarith [(abs_le.1 d1).2]
  have d2 : |a - θ| ≤ 6 * F.u * θ := by
    have : a - θ = (F.rnd √t - √t) + (√t - θ) := by rw [ha]; ring
    rw [this]
    refine (abs_add_le _ _).trans ?_
    have q1 : F.u * √t ≤ F.u * (θ + 4 * F.u * θ) := mul_le_mul_of_nonneg_left hs u0
    have q2 : F.u * F.u * θ ≤ 1 / 1000 * (F.u * θ) := by nlinarith [mul_nonneg u0 h0.le]
    nlinarith [mul_nonneg u0 h0.le]
  refine ⟨tp, d2, ?_⟩
  have := (abs_le.1 d2).1
  nlinarith [mul_nonneg u0 h0.le]

theorem sin_lip (a b : ℝ) : |Real.sin a - Real.sin b| ≤ |a - b| := by
  have h := Real.sin_sub_sin a b
  rw [h, abs_mul, abs_mul, abs_two]
  have h1 := Real.abs_sin_le_abs (x := (a - b) / 2)
  have h2 := Real.abs_cos_le_one ((a + b) / 2)
  have h3 : |(a - b) / 2| = |a - b| / 2 := by rw [abs_div, abs_two]
  rw [h3] at h1
  nlinarith [abs_nonneg (Real.sin ((a - b) / 2)), abs_nonneg (Real.cos ((a + b) / 2)), abs_nonneg (a - b)]

theorem cos_lip (a b : ℝ) : |Real.cos a - Real.cos b| ≤ |a - b| := by
  have := sin_lip (a + Real.pi / 2) (b + Real.pi / 2)
  rw [Real.sin_add_pi_div_two, Real.sin_add_pi_div_two] at this
  rwa [show a + Real.pi / 2 - (b + Real.pi / 2) = a - b by ring] at this

theorem abs_sinc_le {θ : ℝ} (h : 0 < θ) : |Real.sin θ / θ| ≤ 1 := by
  rw [abs_div, div_le_one (abs_pos.2 h.ne')]
  exact Real.abs_sin_le_abs

theorem termA {m θ a s A : ℝ} (hu : F.u ≤ 1 / 1000) (hm : 0 ≤ m) (hm1 : m ≤ 1 / 1000) (h0 : 0 < θ)
    (hd : |a - θ| ≤ 6 * F.u * θ) (ha : 0 < a) (hs : |s - Real.sin a| ≤ m * |Real.sin a|)
    (hA : A = F.rnd (s / a)) : |A - Real.sin θ / θ| ≤ 15 * F.u + m := by
  have u0 := u_nonneg F
  have s1 := abs_sinc_le ha
  have s2 := abs_sinc_le h0
  have d1 : |s / a - Real.sin a / a| ≤ m := by
    rw [← sub_div, abs_div, abs_of_pos ha, div_le_iff₀ ha]
    have : |Real.sin a| ≤ a := by
      have := Real.abs_sin_le_abs (x := a)
      rwa [abs_of_pos ha] at this
    exact hs.trans (mul_le_mul_of_nonneg_left this hm)
  have d2 : |Real.sin a / a - Real.sin θ / θ| ≤ 13 * F.u := by
    have e : Real.sin a / a - Real.sin θ / θ =
        ((Real.sin a - Real.sin θ) + Real.sin θ / θ * (θ - a)) / a := by
      field_simp
      ring
    rw [e, abs_div, abs_of_pos ha, div_le_iff₀ ha]
    refine (abs_add_le _ _).trans ?_
    have q1 := sin_lip a θ
    have q2 : |Real.sin θ / θ * (θ - a)| ≤ |a - θ| := by
      rw [abs_mul, abs_sub_comm θ a]
      exact mul_le_of_le_one_left (abs_nonneg _) s2
    have q3 := (abs_le.1 hd).1
    nlinarith [mul_nonneg u0 h0.le, mul_nonneg u0 (mul_nonneg u0 h0.le)]
  have d3 : |s / a| ≤ 1 + m := by
    have : s / a = (s / a - Real.sin a / a) + Real.sin a / a := by ring
    rw [this]
    linarith [abs_add_le (s / a - Real.sin a / a) (Real.sin a / a)]
  have d4 := F.err (s / a)
  have : A - Real.sin θ / θ = (F.rnd (s / a) - s / a) + (s / a - Real.sin a / a) +
      (Real.sin a / a - Real.sin θ / θ) := by rw [hA]; ring
  rw [this]
  have t1 := abs_add_three (F.rnd (s / a) - s / a) (s / a - Real.sin a / a) (Real.sin a / a - Real.sin θ / θ)
  nlinarith [mul_le_mul_of_nonneg_left d3 u0]

/-- A rounded quotient by the rounded square of the angle. -/
theorem quot_sq {θ t b b1 q e : ℝ} (hu : F.u ≤ 1 / 1000) (h0 : 0 < θ) (ht : |t - θ ^ 2| ≤ 4 * F.u * θ ^ 2)
    (hb : |b1 - b| ≤ e) (hq : q = F.rnd (b1 / t)) : |q * θ ^ 2 - b| ≤ 6 * F.u * |b1| + e := by
  have u0 := u_nonneg F
  have h2 : 0 < θ ^ 2 := by positivity
  obtain ⟨c1, c2⟩ := abs_le.1 ht
  have tp : 0 < t := by nlinarith
  have e1 := F.err (b1 / t)
  rw [abs_div, abs_of_pos tp, ← hq] at e1
  have d1 : |q * θ ^ 2 - b1| ≤ 6 * F.u * |b1| := by
    have : q * θ ^ 2 - b1 = (q - b1 / t) * θ ^ 2 + b1 * ((θ ^ 2 - t) / t) := by
      field_simp
      ring
    rw [this]
    refine (abs_add_le _ _).trans ?_
    rw [abs_mul, abs_mul, abs_of_pos h2, abs_div, abs_of_pos tp, abs_sub_comm (θ ^ 2) t]
    have k1 : θ ^ 2 / t ≤ 252 / 250 := by
      rw [div_le_div_iff₀ tp (by norm_num)]
      nlinarith
    have k2 : |t - θ ^ 2| / t ≤ 4 * F.u * (252 / 250) := by
      refine (div_le_div_of_nonneg_right ht tp.le).trans ?_
      rw [mul_div_assoc]
      exact mul_le_mul_of_nonneg_left k1 (by positivity)
    have k3 : |q - b1 / t| * θ ^ 2 ≤ F.u * |b1| * (252 / 250) := by
      refine (mul_le_mul_of_nonneg_right e1 h2.le).trans ?_
      rw [show F.u * (|b1| / t) * θ ^ 2 = F.u * |b1| * (θ ^ 2 / t) by ring]
      exact mul_le_mul_of_nonneg_left k1 (by positivity)
    have k4 := mul_le_mul_of_nonneg_left k2 (abs_nonneg b1)
    nlinarith [mul_nonneg u0 (abs_nonneg b1)]
  have : q * θ ^ 2 - b = (q * θ ^ 2 - b1) + (b1 - b) := by ring
  rw [this]
  linarith [abs_add_le (q * θ ^ 2 - b1) (b1 - b)]

theorem one_sub_cos_le {θ : ℝ} (h : 0 ≤ θ) : 1 - Real.cos θ ≤ θ := by
  have h1 := Real.one_sub_sq_div_two_le_cos (x := θ)
  have h2 := Real.neg_one_le_cos θ
  rcases le_total θ 2 with h3 | h3
  · nlinarith
  · linarith

theorem termB {m θ t a c B : ℝ} (hu : F.u ≤ 1 / 1000) (hm : 0 ≤ m) (hm1 : m ≤ 1 / 1000) (h0 : 0 < θ)
    (ht : |t - θ ^ 2| ≤ 4 * F.u * θ ^ 2) (hd : |a - θ| ≤ 6 * F.u * θ)
    (hc : |c - Real.cos a| ≤ m * |Real.cos a|) (hB : B = F.rnd (F.rnd (1 - c) / t)) :
    |B * θ ^ 2 - (1 - Real.cos θ)| ≤ 101 / 100 * m + 22 * F.u * θ := by
  have u0 := u_nonneg F
  have hc' : |c - Real.cos θ| ≤ m + 6 * F.u * θ := by
    have : c - Real.cos θ = (c - Real.cos a) + (Real.cos a - Real.cos θ) := by ring
    rw [this]
    have h1 := abs_add_le (c - Real.cos a) (Real.cos a - Real.cos θ)
    have h2 := cos_lip a θ
    have h3 := mul_le_mul_of_nonneg_left (Real.abs_cos_le_one a) hm
    linarith
  have h1 : |1 - c| ≤ 2 * θ + m := by
    have e : 1 - c = (1 - Real.cos θ) - (c - Real.cos θ) := by ring
    rw [e]
    have h2 := abs_sub (1 - Real.cos θ) (c - Real.cos θ)
    rw [abs_of_nonneg (a := 1 - Real.cos θ) (by linarith [Real.cos_le_one θ])] at h2
    have h3 := one_sub_cos_le h0.le
    nlinarith
  have e1 := F.err (1 - c)
  have h2 : |F.rnd (1 - c)| ≤ 1001 / 1000 * (2 * θ + m) := by
    have : F.rnd (1 - c) = (F.rnd (1 - c) - (1 - c)) + (1 - c) := by ring
    rw [this]
    have := abs_add_le (F.rnd (1 - c) - (1 - c)) (1 - c)
    nlinarith [abs_nonneg (1 - c)]
  have h3 : |F.rnd (1 - c) - (1 - Real.cos θ)| ≤ F.u * (2 * θ + m) + (m + 6 * F.u * θ) := by
    have : F.rnd (1 - c) - (1 - Real.cos θ) = (F.rnd (1 - c) - (1 - c)) - (c - Real.cos θ) := by ring
    rw [this]
    have := abs_sub (F.rnd (1 - c) - (1 - c)) (c - Real.cos θ)
    nlinarith [mul_le_mul_of_nonneg_left h1 u0]
  refine (quot_sq hu h0 ht h3 hB).trans ?_
  have := mul_le_mul_of_nonneg_left h2 u0
  nlinarith [mul_nonneg u0 hm, mul_nonneg u0 h0.le]

theorem termC {m θ t A C : ℝ} (hu : F.u ≤ 1 / 1000) (hm : 0 ≤ m) (hm1 : m ≤ 1 / 1000) (h0 : 0 < θ)
    (ht : |t - θ ^ 2| ≤ 4 * F.u * θ ^ 2) (hA : |A - Real.sin θ / θ| ≤ 15 * F.u + m)
    (hC : C = F.rnd (F.rnd (1 - A) / t)) : |C * θ ^ 2 - (1 - Real.sin θ / θ)| ≤ 35 * F.u + m := by
  have u0 := u_nonneg F
  have s2 := abs_sinc_le h0
  have h1 : |1 - A| ≤ 21 / 10 := by
    have : 1 - A = 1 - Real.sin θ / θ - (A - Real.sin θ / θ) := by ring
    rw [this]
    have := abs_sub (1 - Real.sin θ / θ) (A - Real.sin θ / θ)
    have h3 := abs_sub (1 : ℝ) (Real.sin θ / θ)
    rw [abs_one] at h3
    linarith
  have e1 := F.err (1 - A)
  have h2 : |F.rnd (1 - A)| ≤ 22 / 10 := by
    have : F.rnd (1 - A) = (F.rnd (1 - A) - (1 - A)) + (1 - A) := by ring
    rw [this]
    have := abs_add_le (F.rnd (1 - A) - (1 - A)) (1 - A)
    nlinarith [abs_nonneg (1 - A)]
  have h3 : |F.rnd (1 - A) - (1 - Real.sin θ / θ)| ≤ 21 / 10 * F.u + (15 * F.u + m) := by
    have : F.rnd (1 - A) - (1 - Real.sin θ / θ) = (F.rnd (1 - A) - (1 - A)) - (A - Real.sin θ / θ) := by ring
    rw [this]
    have := abs_sub (F.rnd (1 - A) - (1 - A)) (A - Real.sin θ / θ)
    nlinarith [mul_le_mul_of_nonneg_left h1 u0]
  refine (quot_sq hu h0 ht h3 hC).trans ?_
  nlinarith [mul_le_mul_of_nonneg_left h2 u0]

theorem frob_cross (v : V3) : frob (crossMatrix v) ≤ 3 / 2 * len v := fro_cross v

theorem frob_one : frob (1 : M3) ≤ 2 := by
  refine frob_le_of_sq (by norm_num) ?_
  simp [Fin.sum_univ_three, Matrix.one_apply]
  norm_num

/-- The rounded series `1 + p [ω] + q [ω]²`. -/
theorem series_near {ω : V3} {p q p' q' : ℝ} {Y M : M3} (hu : F.u ≤ 1 / 1000)
    (hY : FlMul F (crossMatrix ω) (crossMatrix ω) Y) (hM : FlSeries F p' q' (crossMatrix ω) Y M) :
    frob (M - (1 + p • crossMatrix ω + q • (crossMatrix ω * crossMatrix ω))) ≤
      F.u * (8 + 6 * (|p'| * len ω) + 20 * (|q'| * len ω ^ 2)) + 3 / 2 * (|p' - p| * len ω) +
        9 / 4 * (|q' - q| * len ω ^ 2) := by
  have u0 := u_nonneg F
  have g3 := growth3 hu
  have l0 := len_nonneg ω
  set X := crossMatrix ω with hX
  have x1 : frob X ≤ 3 / 2 * len ω := frob_cross ω
  have x0 := frob_nonneg X
  have x2 : frob X * frob X ≤ 9 / 4 * len ω ^ 2 := by nlinarith
  have x3 : frob (X * X) ≤ 9 / 4 * len ω ^ 2 := (frob_mul_le X X).trans x2
  have y1 : frob (Y - X * X) ≤ 9 * F.u * len ω ^ 2 := by
    refine (mul_err hY).trans ?_
    have : growth F.u 3 * (frob X * frob X) ≤ 4 * F.u * (9 / 4 * len ω ^ 2) :=
      mul_le_mul g3 x2 (mul_nonneg x0 x0) (by positivity)
    linarith
  have y2 : frob Y ≤ 23 / 10 * len ω ^ 2 := by
    have h : Y = X * X + (Y - X * X) := by abel
    have h1 := frob_add_le (X * X) (Y - X * X)
    rw [← h] at h1
    nlinarith [sq_nonneg (len ω)]
  have r1 : frob (M - (1 + p' • X + q' • Y)) ≤ 4 * F.u * (2 + |p'| * frob X + |q'| * frob Y) := by
    have h1 : frob (M - (1 + p' • X + q' • Y)) ≤
        frob ((4 * F.u) • (absM 1 + absM (p' • X) + absM (q' • Y))) := by
      refine frob_mono fun i j => ?_
      have h2 := flSum_err (hM i j)
      simp only [sumOf, absOf, List.map_cons, List.map_nil, List.sum_cons, List.sum_nil, add_zero, mul_one,
        List.length_cons, List.length_nil, zero_add] at h2
      have h3 : (M - (1 + p' • X + q' • Y)) i j = M i j - ((1 : M3) i j + (p' * X i j + q' * Y i j)) := by
        simp only [Matrix.sub_apply, Matrix.add_apply, Matrix.smul_apply, smul_eq_mul]
        ring
      have h4 : ((4 * F.u) • (absM 1 + absM (p' • X) + absM (q' • Y))) i j =
          4 * F.u * (|(1 : M3) i j| + (|p' * X i j| + |q' * Y i j|)) := by
        simp only [Matrix.add_apply, Matrix.smul_apply, smul_eq_mul, absM, Matrix.of_apply]
        ring
      rw [h3, h4]
      refine (h2.trans (mul_le_mul_of_nonneg_right g3 (by positivity))).trans (le_abs_self _)
    refine h1.trans ?_
    rw [frob_smul, abs_of_nonneg (by positivity)]
    refine mul_le_mul_of_nonneg_left ?_ (by positivity)
    have h2 := frob_add_le (absM 1 + absM (p' • X)) (absM (q' • Y))
    have h3 := frob_add_le (absM 1) (absM (p' • X))
    rw [frob_abs, frob_abs, frob_smul] at h3
    rw [frob_abs, frob_smul] at h2
    linarith [frob_one]
  have e : M - (1 + p • X + q • (X * X)) = (M - (1 + p' • X + q' • Y)) + (p' - p) • X +
      ((q' - q) • (X * X) + q' • (Y - X * X)) := by
    simp only [sub_smul, smul_sub]
    abel
  rw [e]
  have t1 := frob_add_le ((M - (1 + p' • X + q' • Y)) + (p' - p) • X) ((q' - q) • (X * X) + q' • (Y - X * X))
  have t2 := frob_add_le (M - (1 + p' • X + q' • Y)) ((p' - p) • X)
  have t3 := frob_add_le ((q' - q) • (X * X)) (q' • (Y - X * X))
  rw [frob_smul] at t2
  rw [frob_smul, frob_smul] at t3
  have w1 := mul_le_mul_of_nonneg_left x1 (abs_nonneg (p' - p))
  have w2 := mul_le_mul_of_nonneg_left x3 (abs_nonneg (q' - q))
  have w3 := mul_le_mul_of_nonneg_left y1 (abs_nonneg q')
  have w4 := mul_le_mul_of_nonneg_left x1 (abs_nonneg p')
  have w5 := mul_le_mul_of_nonneg_left y2 (abs_nonneg q')
  have w6 : 4 * F.u * (2 + |p'| * frob X + |q'| * frob Y) ≤
      4 * F.u * (2 + |p'| * (3 / 2 * len ω) + |q'| * (23 / 10 * len ω ^ 2)) :=
    mul_le_mul_of_nonneg_left (by linarith) (by positivity)
  have w7 : 0 ≤ F.u * (|q'| * len ω ^ 2) := by positivity
  nlinarith

theorem vmat_len (ω : V3) : vmat ω = 1 + ((1 - Real.cos (len ω)) / len ω ^ 2) • crossMatrix ω +
    ((1 - Real.sin (len ω) / len ω) / len ω ^ 2) • (crossMatrix ω * crossMatrix ω) := by
  unfold vmat
  rw [sqrt_normSq, normSq_eq_len]

theorem rodr_len (ω : V3) : rodr ω = 1 + (Real.sin (len ω) / len ω) • crossMatrix ω +
    ((1 - Real.cos (len ω)) / len ω ^ 2) • (crossMatrix ω * crossMatrix ω) := by
  unfold rodr
  rw [sqrt_normSq, normSq_eq_len]

theorem sqr_near {ω : V3} {t : ℝ} (hu : F.u ≤ 1 / 1000) (h : FlDot F ω ω t) :
    |t - len ω ^ 2| ≤ 4 * F.u * len ω ^ 2 := by
  have := flDot_err h
  rw [← len_sq_dot, Fintype.card_fin, ← sq] at this
  exact this.trans (mul_le_mul_of_nonneg_right (growth3 hu) (sq_nonneg _))

/-- From a bound for the product with the square of the angle. -/
theorem of_mul_sq {q b θ e : ℝ} (h0 : 0 < θ) (h : |q * θ ^ 2 - b| ≤ e) : |q - b / θ ^ 2| * θ ^ 2 ≤ e := by
  have h2 : 0 < θ ^ 2 := by positivity
  rw [← abs_of_pos h2, ← abs_mul, abs_of_pos h2, sub_mul, div_mul_cancel₀ _ h2.ne']
  exact h

set_option maxHeartbeats 1000000 in
/-- Main branch: the matrices of Twist.hpp:114-116 and 125-127. -/
theorem big_near {m ε t a A B C : ℝ} {ω : V3} (hu : F.u ≤ 1 / 1000) (hm : 0 ≤ m) (hm1 : m ≤ 1 / 1000)
    (hε : 0 ≤ ε) (ht : FlDot F ω ω t) (ha : a = F.rnd √t) (hT : FlTwistTerms F m ε t a A B C) (hb : ε < t)
    {Y V R : M3} (hY : FlMul F (crossMatrix ω) (crossMatrix ω) Y)
    (hV : FlSeries F B C (crossMatrix ω) Y V) (hR : FlSeries F A B (crossMatrix ω) Y R) :
    0 < len ω ∧ frob (V - vmat ω) ≤ 170 * F.u + 3 * m + 8 / 5 * (m / len ω) ∧
      frob (R - rodr ω) ≤ (80 * F.u + 3 * m) * (1 + len ω) := by
  have u0 := u_nonneg F
  have t1 := sqr_near hu ht
  have h0 : 0 < len ω := by
    rcases (len_nonneg ω).lt_or_eq with h | h
    · exact h
    · rw [← h] at t1
      have : t = 0 := by
        rw [zero_pow two_ne_zero, mul_zero, sub_zero] at t1
        exact abs_nonpos_iff.1 t1
      linarith
  obtain ⟨-, d, ap⟩ := angle_near hu h0 t1 ha
  unfold FlTwistTerms at hT
  rw [if_pos hb] at hT
  obtain ⟨⟨s, hs, -, hA⟩, ⟨c, hc, -, hB⟩, hC⟩ := hT
  have kA := termA hu hm hm1 h0 d ap hs hA
  have kB := termB hu hm hm1 h0 t1 d hc hB
  have kC := termC hu hm hm1 h0 t1 kA hC
  rw [vmat_len, rodr_len]
  have sV := series_near (p := (1 - Real.cos (len ω)) / len ω ^ 2)
    (q := (1 - Real.sin (len ω) / len ω) / len ω ^ 2) hu hY hV
  have sR := series_near (p := Real.sin (len ω) / len ω) (q := (1 - Real.cos (len ω)) / len ω ^ 2) hu hY hR
  set θ := len ω with hθ
  have jB := of_mul_sq h0 kB
  have jC := of_mul_sq h0 kC
  have c1 := Real.cos_le_one θ
  have c2 := Real.neg_one_le_cos θ
  have c3 := one_sub_cos_le h0.le
  have s2 := abs_le.1 (abs_sinc_le h0)
  set x := m / θ with hx
  have x0 : 0 ≤ x := div_nonneg hm h0.le
  have xm : x * θ = m := div_mul_cancel₀ m h0.ne'
  -- sizes of the computed factors
  have aB : |B| * θ ^ 2 ≤ 1 - Real.cos θ + (101 / 100 * m + 22 * F.u * θ) := by
    have : |B| * θ ^ 2 = |B * θ ^ 2| := by rw [abs_mul, abs_of_pos (show 0 < θ ^ 2 by positivity)]
    rw [this]
    have := abs_sub_abs_le_abs_sub (B * θ ^ 2) (1 - Real.cos θ)
    rw [abs_of_nonneg (a := 1 - Real.cos θ) (by linarith)] at this
    linarith
  have aC : |C| * θ ^ 2 ≤ 21 / 10 := by
    have : |C| * θ ^ 2 = |C * θ ^ 2| := by rw [abs_mul, abs_of_pos (show 0 < θ ^ 2 by positivity)]
    rw [this]
    have := abs_sub_abs_le_abs_sub (C * θ ^ 2) (1 - Real.sin θ / θ)
    rw [abs_of_nonneg (a := 1 - Real.sin θ / θ) (by linarith)] at this
    linarith
  have aA : |A| ≤ 102 / 100 := by
    have := abs_sub_abs_le_abs_sub A (Real.sin θ / θ)
    have := abs_sinc_le h0
    linarith
  have bB : |B| * θ ≤ 11 / 10 + 101 / 100 * x := by
    have : (|B| * θ) * θ ≤ (11 / 10 + 101 / 100 * x) * θ := by nlinarith [mul_nonneg u0 h0.le]
    exact le_of_mul_le_mul_right this h0
  have eB : |B - (1 - Real.cos θ) / θ ^ 2| * θ ≤ 101 / 100 * x + 22 * F.u := by
    have : (|B - (1 - Real.cos θ) / θ ^ 2| * θ) * θ ≤ (101 / 100 * x + 22 * F.u) * θ := by nlinarith
    exact le_of_mul_le_mul_right this h0
  refine ⟨h0, sV.trans ?_, sR.trans ?_⟩
  · have w1 := mul_le_mul_of_nonneg_left bB u0
    have w2 := mul_le_mul_of_nonneg_left aC u0
    linarith [mul_nonneg u0 x0, mul_le_mul_of_nonneg_right hu x0]
  · have w1 := mul_le_mul_of_nonneg_left (mul_le_mul_of_nonneg_right aA h0.le) u0
    have w2 : F.u * (|B| * θ ^ 2) ≤ F.u * (202 / 100 + 22 / 1000 * θ) :=
      mul_le_mul_of_nonneg_left (by nlinarith) u0
    have w3 := mul_le_mul_of_nonneg_right kA h0.le
    linarith [mul_nonneg u0 h0.le, mul_nonneg hm h0.le]

theorem sinc_ge {θ : ℝ} (h0 : 0 ≤ θ) : |1 - Real.sin θ / θ| * θ ≤ θ ^ 3 / 4 := by
  rcases h0.lt_or_eq with h | h
  · have h2 := Real.sin_gt_sub_cube h
    have h3 := (abs_le.1 (abs_sinc_le h)).2
    rw [abs_of_nonneg (by linarith), sub_mul, div_mul_cancel₀ _ h.ne']
    linarith [pow_pos h 3]
  · simp [← h]

/-- Small branch. -/
theorem small_near {m ε t a A B C : ℝ} {ω : V3} (hu : F.u ≤ 1 / 1000) (hε1 : ε ≤ 1 / 1000)
    (ht : FlDot F ω ω t) (hT : FlTwistTerms F m ε t a A B C) (hb : ¬ ε < t)
    {Y V R : M3} (hY : FlMul F (crossMatrix ω) (crossMatrix ω) Y)
    (hV : FlSeries F B C (crossMatrix ω) Y V) (hR : FlSeries F A B (crossMatrix ω) Y R) :
    len ω ^ 2 ≤ 101 / 100 * ε ∧ frob (V - vmat ω) ≤ 8 * F.u + len ω ∧
      frob (R - rodr ω) ≤ 9 * F.u + 6 / 5 * len ω ^ 2 := by
  have u0 := u_nonneg F
  have t1 := sqr_near hu ht
  have h0 := len_nonneg ω
  unfold FlTwistTerms at hT
  rw [if_neg hb] at hT
  obtain ⟨rfl, rfl, rfl⟩ := hT
  rw [vmat_len, rodr_len]
  have sV := series_near (p := (1 - Real.cos (len ω)) / len ω ^ 2)
    (q := (1 - Real.sin (len ω) / len ω) / len ω ^ 2) hu hY hV
  have sR := series_near (p := Real.sin (len ω) / len ω) (q := (1 - Real.cos (len ω)) / len ω ^ 2) hu hY hR
  set θ := len ω with hθ
  have hs : θ ^ 2 ≤ 101 / 100 * ε := by
    have := (abs_le.1 t1).1
    nlinarith [sq_nonneg θ]
  have h1 : θ ≤ 1 / 20 := by nlinarith
  have cB : |0 - (1 - Real.cos θ) / θ ^ 2| * θ ^ 2 ≤ θ ^ 2 / 2 := by
    rcases h0.lt_or_eq with h | h
    · refine (of_mul_sq (q := 0) h (e := θ ^ 2 / 2) ?_)
      rw [zero_mul, zero_sub, abs_neg, abs_of_nonneg (by linarith [Real.cos_le_one θ])]
      linarith [Real.one_sub_sq_div_two_le_cos (x := θ)]
    · simp [← h]
  have cB1 : |0 - (1 - Real.cos θ) / θ ^ 2| * θ ≤ θ / 2 := by
    rcases h0.lt_or_eq with h | h
    · have : (|0 - (1 - Real.cos θ) / θ ^ 2| * θ) * θ ≤ θ / 2 * θ := by nlinarith
      exact le_of_mul_le_mul_right this h
    · simp [← h]
  have cC : |0 - (1 - Real.sin θ / θ) / θ ^ 2| * θ ^ 2 ≤ θ ^ 2 / 4 := by
    rcases h0.lt_or_eq with h | h
    · refine (of_mul_sq (q := 0) h (e := θ ^ 2 / 4) ?_)
      rw [zero_mul, zero_sub, abs_neg]
      have := sinc_ge h0
      have : |1 - Real.sin θ / θ| * θ ≤ θ ^ 2 / 4 * θ := by nlinarith
      exact le_of_mul_le_mul_right this h
    · simp [← h]
  have cA := sinc_ge h0
  rw [abs_zero, zero_mul, zero_mul] at sV
  rw [abs_one, abs_zero, zero_mul] at sR
  refine ⟨hs, sV.trans ?_, sR.trans ?_⟩
  · nlinarith
  · have : θ ^ 3 ≤ θ ^ 2 / 20 := by nlinarith [sq_nonneg θ]
    nlinarith [mul_nonneg u0 h0, mul_le_mul_of_nonneg_left h1 u0, sq_nonneg θ]

theorem frob_vmat (ω : V3) : frob (vmat ω) ≤ 8 := by
  rw [vmat_len]
  set θ := len ω with hθ
  set X := crossMatrix ω with hX
  have h0 : 0 ≤ θ := len_nonneg ω
  have x1 : frob X ≤ 3 / 2 * θ := frob_cross ω
  have x0 := frob_nonneg X
  have x3 : frob (X * X) ≤ 9 / 4 * θ ^ 2 := (frob_mul_le X X).trans (by nlinarith)
  rcases h0.lt_or_eq with h | h
  · have t1 := frob_add_le (1 + ((1 - Real.cos θ) / θ ^ 2) • X) (((1 - Real.sin θ / θ) / θ ^ 2) • (X * X))
    have t2 := frob_add_le 1 (((1 - Real.cos θ) / θ ^ 2) • X)
    rw [frob_smul] at t1 t2
    have c1 := Real.cos_le_one θ
    have c3 := one_sub_cos_le h0
    have s2 := abs_le.1 (abs_sinc_le h)
    have k1 : |(1 - Real.cos θ) / θ ^ 2| * frob X ≤ 3 / 2 := by
      rw [abs_of_nonneg (div_nonneg (by linarith) (sq_nonneg θ)), div_mul_eq_mul_div, div_le_iff₀ (by positivity)]
      nlinarith [mul_le_mul c3 x1 x0 h0]
    have k2 : |(1 - Real.sin θ / θ) / θ ^ 2| * frob (X * X) ≤ 9 / 2 := by
      rw [abs_of_nonneg (div_nonneg (by linarith) (sq_nonneg θ)), div_mul_eq_mul_div, div_le_iff₀ (by positivity)]
      have : (1 - Real.sin θ / θ) * frob (X * X) ≤ 2 * (9 / 4 * θ ^ 2) :=
        mul_le_mul (by linarith) x3 (frob_nonneg _) (by norm_num)
      linarith
    linarith [frob_one]
  · rw [← h]
    simp only [ne_eq, OfNat.ofNat_ne_zero, not_false_eq_true, zero_pow, div_zero, zero_smul, add_zero]
    linarith [frob_one]

/-- The product with the translation. -/
theorem trans_near {ω v w : V3} {V : M3} {e : ℝ} (hu : F.u ≤ 1 / 1000) (he : frob (V - vmat ω) ≤ e)
    (hw : FlMulVec F V v w) : len (w - vmat ω *ᵥ v) ≤ (101 / 100 * e + 32 * F.u) * len v := by
  have u0 := u_nonneg F
  have v0 := len_nonneg v
  have h1 := mulVec_err hw
  have h2 : frob V ≤ 8 + e := by
    have := frob_add_le (V - vmat ω) (vmat ω)
    rw [sub_add_cancel] at this
    linarith [frob_vmat ω]
  have h3 := len_mulVec_le (V - vmat ω) v
  have e1 : w - vmat ω *ᵥ v = (w - V *ᵥ v) + (V - vmat ω) *ᵥ v := by
    rw [Matrix.sub_mulVec]
    abel
  rw [e1]
  have h4 := len_add_le (w - V *ᵥ v) ((V - vmat ω) *ᵥ v)
  have h5 := mul_le_mul_of_nonneg_right he v0
  have e0 : 0 ≤ e := (frob_nonneg _).trans he
  have h6 : growth F.u 3 * (frob V * len v) ≤ 4 * F.u * ((8 + e) * len v) :=
    mul_le_mul (growth3 hu) (mul_le_mul_of_nonneg_right h2 v0) (mul_nonneg (frob_nonneg V) v0) (by positivity)
  have h7 : 4 * F.u * (e * len v) ≤ 1 / 100 * (e * len v) :=
    mul_le_mul_of_nonneg_right (by linarith) (mul_nonneg e0 v0)
  nlinarith

end WG.Round
