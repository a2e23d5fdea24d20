import Verif.Model.RoundingLogRigid
import Verif.Lemmas.RoundingTwist
import Mathlib.Analysis.Real.Pi.Bounds

/-! # Rounding errors of the translation part of the logarithm -/

namespace WG.Round
open Matrix Spec

variable {F : Fl}

/-- The exact `A / 2 / B`. -/
noncomputable def cotQ (θ : ℝ) : ℝ := Real.sin θ / θ / 2 / ((1 - Real.cos θ) / θ ^ 2)

theorem vinv_len (ω : V3) : vinv ω = 1 + (-1 / 2 : ℝ) • crossMatrix ω +
    ((1 - cotQ (len ω)) / len ω ^ 2) • (crossMatrix ω * crossMatrix ω) := by
  unfold vinv cotQ
  rw [sqrt_normSq, normSq_eq_len, sub_eq_add_neg, ← neg_smul]
  norm_num

theorem one_sub_cos_ge {θ : ℝ} (h0 : 0 ≤ θ) (h1 : θ ≤ Real.pi) : θ ^ 2 / 5 ≤ 1 - Real.cos θ := by
  have h := Real.cos_le_one_sub_mul_cos_sq (x := θ) (by rwa [abs_of_nonneg h0])
  have p0 := Real.pi_pos
  have hp := Real.pi_lt_d2
  have h2 : 1 / 5 ≤ 2 / Real.pi ^ 2 := by
    rw [div_le_div_iff₀ (by norm_num) (by positivity)]
    nlinarith
  have := mul_le_mul_of_nonneg_right h2 (sq_nonneg θ)
  linarith

theorem cotQ_abs {θ : ℝ} (h0 : 0 < θ) (h1 : θ ≤ Real.pi) : |cotQ θ| ≤ 5 / 2 := by
  have hb := one_sub_cos_ge h0.le h1
  have h2 : 0 < θ ^ 2 := by positivity
  have hB : 1 / 5 ≤ (1 - Real.cos θ) / θ ^ 2 := by
    rw [le_div_iff₀ h2]
    linarith
  have hA := abs_sinc_le h0
  unfold cotQ
  rw [abs_div, abs_div, abs_two, abs_of_pos (a := (1 - Real.cos θ) / θ ^ 2) (by linarith),
    div_le_iff₀ (by linarith)]
  linarith

/-- The computed `A / 2 / B`. -/
theorem cotQ_near {θ B α e d : ℝ} (h0 : 0 < θ) (h1 : θ ≤ Real.pi)
    (hB : |B * θ ^ 2 - (1 - Real.cos θ)| ≤ e) (he : e ≤ θ ^ 2 / 50) (hα : |α - Real.sin θ / θ / 2| ≤ d) :
    B ≠ 0 ∧ |α / B - cotQ θ| ≤ 28 / 5 * d + 14 * (e / θ ^ 2) := by
  have h2 : 0 < θ ^ 2 := by positivity
  have hb := one_sub_cos_ge h0.le h1
  obtain ⟨b1, b2⟩ := abs_le.1 hB
  have βp : 9 / 50 * θ ^ 2 ≤ B * θ ^ 2 := by linarith
  have Bp : 9 / 50 ≤ B := le_of_mul_le_mul_right βp h2
  have bp : 0 < 1 - Real.cos θ := by linarith
  have d0 := (abs_nonneg _).trans hα
  have e0 := (abs_nonneg _).trans hB
  refine ⟨by linarith, ?_⟩
  have hq := cotQ_abs h0 h1
  have hq' : cotQ θ * (1 - Real.cos θ) = Real.sin θ / θ / 2 * θ ^ 2 := by
    unfold cotQ
    field_simp
  have e1 : α / B - cotQ θ = ((α - Real.sin θ / θ / 2) - cotQ θ * ((B * θ ^ 2 - (1 - Real.cos θ)) / θ ^ 2)) / B := by
    have : B ≠ 0 := by linarith
    have h3 : Real.sin θ / θ / 2 = cotQ θ * (1 - Real.cos θ) / θ ^ 2 := by rw [hq']; field_simp
    rw [h3]
    field_simp
    ring
  rw [e1, abs_div, abs_of_pos (a := B) (by linarith), div_le_iff₀ (by linarith)]
  have k1 := abs_sub (α - Real.sin θ / θ / 2) (cotQ θ * ((B * θ ^ 2 - (1 - Real.cos θ)) / θ ^ 2))
  have k2 : |cotQ θ * ((B * θ ^ 2 - (1 - Real.cos θ)) / θ ^ 2)| ≤ 5 / 2 * (e / θ ^ 2) := by
    rw [abs_mul, abs_div, abs_of_pos h2]
    exact mul_le_mul hq (div_le_div_of_nonneg_right hB h2.le) (by positivity) (by norm_num)
  have x0 : 0 ≤ e / θ ^ 2 := div_nonneg e0 h2.le
  nlinarith [mul_nonneg d0 (sub_nonneg.2 Bp), mul_nonneg x0 (sub_nonneg.2 Bp)]

/-- The factor of `cross2`. -/
theorem logFactor_near {m θ t a : ℝ} {k : Option ℝ} (hu : F.u ≤ 1 / 1000) (hm : 0 ≤ m) (hm1 : m ≤ 1 / 1000)
    (h0 : 0 < θ) (h1 : θ ≤ Real.pi) (hs : 101 / 100 * m + 22 * F.u * θ ≤ θ ^ 2 / 50)
    (ht : |t - θ ^ 2| ≤ 4 * F.u * θ ^ 2) (ha : a = F.rnd √t) (hk : FlLogFactor F m t a k) :
    ∃ k', k = some k' ∧ |k' * θ ^ 2 - (1 - cotQ θ)| ≤
      88 * F.u + 6 * m + 14 * ((101 / 100 * m + 22 * F.u * θ) / θ ^ 2) := by
  have u0 := u_nonneg F
  obtain ⟨-, d, ap⟩ := angle_near hu h0 ht ha
  obtain ⟨A, B, ⟨s, hs1, -, hA⟩, ⟨c, hc, -, hB⟩, hk⟩ := hk
  have kA := termA hu hm hm1 h0 d ap hs1 hA
  have kB := termB hu hm hm1 h0 ht d hc hB
  have s2 := abs_sinc_le h0
  have aA : |A| ≤ 102 / 100 := by
    have := abs_sub_abs_le_abs_sub A (Real.sin θ / θ)
    linarith
  have hα : |F.rnd (A / 2) - Real.sin θ / θ / 2| ≤ 9 * F.u + m := by
    have e1 := F.err (A / 2)
    rw [abs_div, abs_two] at e1
    have e2 : F.rnd (A / 2) - Real.sin θ / θ / 2 = (F.rnd (A / 2) - A / 2) + (A - Real.sin θ / θ) / 2 := by ring
    rw [e2]
    refine (abs_add_le _ _).trans ?_
    rw [abs_div, abs_two]
    nlinarith [mul_le_mul_of_nonneg_left aA u0]
  obtain ⟨B0, hq⟩ := cotQ_near h0 h1 kB hs hα
  rcases hk with ⟨h, -⟩ | ⟨-, hk⟩
  · exact absurd h B0
  refine ⟨_, hk, ?_⟩
  have x1 : (101 / 100 * m + 22 * F.u * θ) / θ ^ 2 ≤ 1 / 50 := by
    rw [div_le_iff₀ (by positivity)]
    linarith
  set x := (101 / 100 * m + 22 * F.u * θ) / θ ^ 2 with hx
  have q0 := cotQ_abs h0 h1
  set q := F.rnd (A / 2) / B with hqd
  have aq : |q| ≤ 29 / 10 := by
    have := abs_sub_abs_le_abs_sub q (cotQ θ)
    linarith
  have f1 := F.err q
  have r1 : |F.rnd q - cotQ θ| ≤ 54 * F.u + 28 / 5 * m + 14 * x := by
    have : F.rnd q - cotQ θ = (F.rnd q - q) + (q - cotQ θ) := by ring
    rw [this]
    refine (abs_add_le _ _).trans ?_
    nlinarith [mul_le_mul_of_nonneg_left aq u0]
  have a1 : |1 - F.rnd q| ≤ 39 / 10 := by
    have e1 : 1 - F.rnd q = (1 - cotQ θ) - (F.rnd q - cotQ θ) := by ring
    rw [e1]
    have := abs_sub (1 - cotQ θ) (F.rnd q - cotQ θ)
    have h3 := abs_sub 1 (cotQ θ)
    rw [abs_one] at h3
    linarith
  have f2 := F.err (1 - F.rnd q)
  have a2 : |F.rnd (1 - F.rnd q)| ≤ 4 := by
    have := abs_sub_abs_le_abs_sub (F.rnd (1 - F.rnd q)) (1 - F.rnd q)
    nlinarith [abs_nonneg (1 - F.rnd q)]
  have r2 : |F.rnd (1 - F.rnd q) - (1 - cotQ θ)| ≤ 58 * F.u + 28 / 5 * m + 14 * x := by
    have : F.rnd (1 - F.rnd q) - (1 - cotQ θ) =
        (F.rnd (1 - F.rnd q) - (1 - F.rnd q)) - (F.rnd q - cotQ θ) := by ring
    rw [this]
    refine (abs_sub _ _).trans ?_
    nlinarith [mul_le_mul_of_nonneg_left a1 u0]
  refine (quot_sq hu h0 ht r2 rfl).trans ?_
  nlinarith [mul_le_mul_of_nonneg_left a2 u0]

theorem frob_vinv {ω : V3} (h0 : 0 < len ω) (h1 : len ω ≤ Real.pi) : frob (vinv ω) ≤ 13 := by
  rw [vinv_len]
  set θ := len ω with hθ
  set X := crossMatrix ω with hX
  have x1 : frob X ≤ 3 / 2 * θ := frob_cross ω
  have x0 := frob_nonneg X
  have x3 : frob (X * X) ≤ 9 / 4 * θ ^ 2 := (frob_mul_le X X).trans (by nlinarith)
  have t1 := frob_add_le (1 + (-1 / 2 : ℝ) • X) (((1 - cotQ θ) / θ ^ 2) • (X * X))
  have t2 := frob_add_le 1 ((-1 / 2 : ℝ) • X)
  rw [frob_smul] at t1 t2
  have hp := Real.pi_lt_d2
  have k1 : |(-1 / 2 : ℝ)| = 1 / 2 := by norm_num
  rw [k1] at t2
  have h2 : 0 < θ ^ 2 := by positivity
  have k2 : |(1 - cotQ θ) / θ ^ 2| * frob (X * X) ≤ 63 / 8 := by
    rw [abs_div, abs_of_pos h2, div_mul_eq_mul_div, div_le_iff₀ h2]
    have h3 := abs_sub 1 (cotQ θ)
    rw [abs_one] at h3
    have : |1 - cotQ θ| * frob (X * X) ≤ 7 / 2 * (9 / 4 * θ ^ 2) :=
      mul_le_mul (by linarith [cotQ_abs h0 h1]) x3 (frob_nonneg _) (by norm_num)
    linarith
  linarith [frob_one]

theorem mulVec_near {V W : M3} {v w : V3} {e S : ℝ} (hu : F.u ≤ 1 / 1000) (he : frob (V - W) ≤ e)
    (hS : frob W ≤ S) (hw : FlMulVec F V v w) : len (w - W *ᵥ v) ≤ (101 / 100 * e + 4 * S * F.u) * len v := by
  have u0 := u_nonneg F
  have v0 := len_nonneg v
  have h1 := mulVec_err hw
  have h2 : frob V ≤ S + e := by
    have := frob_add_le (V - W) W
    rw [sub_add_cancel] at this
    linarith
  have h3 := len_mulVec_le (V - W) v
  have e1 : w - W *ᵥ v = (w - V *ᵥ v) + (V - W) *ᵥ v := by
    rw [Matrix.sub_mulVec]
    abel
  rw [e1]
  have h4 := len_add_le (w - V *ᵥ v) ((V - W) *ᵥ v)
  have h5 := mul_le_mul_of_nonneg_right he v0
  have e0 : 0 ≤ e := (frob_nonneg _).trans he
  have h6 : growth F.u 3 * (frob V * len v) ≤ 4 * F.u * ((S + e) * len v) :=
    mul_le_mul (growth3 hu) (mul_le_mul_of_nonneg_right h2 v0) (mul_nonneg (frob_nonneg V) v0) (by positivity)
  have h7 : 4 * F.u * (e * len v) ≤ 1 / 100 * (e * len v) :=
    mul_le_mul_of_nonneg_right (by linarith) (mul_nonneg e0 v0)
  linarith

theorem cotQ_small {θ : ℝ} (h0 : 0 < θ) (h1 : θ ≤ 1 / 2) : |1 - cotQ θ| ≤ θ ^ 2 / 4 := by
  have h2 : 0 < θ ^ 2 := by positivity
  have hc := abs_le.1 (Real.cos_bound (x := θ) (by rw [abs_of_pos h0]; linarith))
  rw [abs_of_pos h0] at hc
  have hs := Real.sin_gt_sub_cube h0
  have hs2 := Real.sin_le h0.le
  have hs4 : θ ^ 4 = θ ^ 2 * θ ^ 2 := by ring
  have q4 : θ ^ 2 ≤ 1 / 4 := by nlinarith
  have bp : 0 < 1 - Real.cos θ := by nlinarith
  have e : cotQ θ = θ * Real.sin θ / (2 * (1 - Real.cos θ)) := by
    unfold cotQ
    field_simp
  rw [e, abs_le]
  have bp2 : 0 < 2 * (1 - Real.cos θ) := by linarith
  have c1 := Real.one_sub_sq_div_two_le_cos (x := θ)
  have m1 : θ * Real.sin θ ≤ θ ^ 2 := by nlinarith
  have m2 : θ ^ 2 - θ ^ 2 * θ ^ 2 / 6 ≤ θ * Real.sin θ := by nlinarith [mul_lt_mul_of_pos_left hs h0]
  constructor
  · have : θ * Real.sin θ / (2 * (1 - Real.cos θ)) ≤ 1 + θ ^ 2 / 4 := by
      rw [div_le_iff₀ bp2]
      nlinarith [mul_nonneg h2.le h2.le]
    linarith
  · have : 1 - θ ^ 2 / 4 ≤ θ * Real.sin θ / (2 * (1 - Real.cos θ)) := by
      rw [le_div_iff₀ bp2]
      nlinarith [mul_nonneg h2.le h2.le]
    linarith

/-- Main branch. -/
theorem logV_near {ω : V3} {m k' : ℝ} {Y V : M3} (hu : F.u ≤ 1 / 1000) (hm : 0 ≤ m) (hm1 : m ≤ 1 / 1000)
    (h0 : 0 < len ω) (h1 : len ω ≤ Real.pi) (hs : 101 / 100 * m + 22 * F.u * len ω ≤ len ω ^ 2 / 50)
    (hk : |k' * len ω ^ 2 - (1 - cotQ (len ω))| ≤
      88 * F.u + 6 * m + 14 * ((101 / 100 * m + 22 * F.u * len ω) / len ω ^ 2))
    (hY : FlMul F (crossMatrix ω) (crossMatrix ω) Y) (hV : FlSeries F (-1 / 2) k' (crossMatrix ω) Y V) :
    frob (V - vinv ω) ≤ 300 * F.u + 14 * m + 32 * ((101 / 100 * m + 22 * F.u * len ω) / len ω ^ 2) := by
  have u0 := u_nonneg F
  have sV := series_near (p := (-1 / 2 : ℝ)) (q := (1 - cotQ (len ω)) / len ω ^ 2) hu hY hV
  rw [vinv_len]
  refine sV.trans ?_
  have hp := Real.pi_lt_d2
  have hj := of_mul_sq h0 hk
  have x1 : (101 / 100 * m + 22 * F.u * len ω) / len ω ^ 2 ≤ 1 / 50 := by
    rw [div_le_iff₀ (by positivity)]
    linarith
  have q0 := cotQ_abs h0 h1
  have xp : 0 ≤ (101 / 100 * m + 22 * F.u * len ω) / len ω ^ 2 := by positivity
  set x := (101 / 100 * m + 22 * F.u * len ω) / len ω ^ 2
  set θ := len ω
  have ak : |k'| * θ ^ 2 ≤ 4 := by
    have e1 : |k'| * θ ^ 2 = |k' * θ ^ 2| := by rw [abs_mul, abs_of_pos (show 0 < θ ^ 2 by positivity)]
    rw [e1]
    have h3 := abs_sub_abs_le_abs_sub (k' * θ ^ 2) (1 - cotQ θ)
    have h4 := abs_sub 1 (cotQ θ)
    rw [abs_one] at h4
    linarith
  have k1 : |(-1 / 2 : ℝ)| = 1 / 2 := by norm_num
  rw [k1, sub_self, abs_zero, zero_mul]
  have w1 := mul_le_mul_of_nonneg_left ak u0
  have w2 : F.u * θ ≤ F.u * 3.15 := mul_le_mul_of_nonneg_left (by linarith) u0
  linarith

/-- Small branch. -/
theorem logV_small {ω : V3} {V : M3} (hu : F.u ≤ 1 / 1000) (h1 : len ω ≤ 1 / 2)
    (hV : ∀ i j, FlSum F [((1 : M3) i j, 1), (-1 / 2, crossMatrix ω i j)] (V i j)) :
    frob (V - vinv ω) ≤ 10 * F.u + 3 / 5 * len ω ^ 2 := by
  have u0 := u_nonneg F
  have l0 := len_nonneg ω
  have x1 := frob_cross ω
  set X := crossMatrix ω with hX
  have x0 := frob_nonneg X
  have x3 : frob (X * X) ≤ 9 / 4 * len ω ^ 2 := (frob_mul_le X X).trans (by nlinarith)
  have g2 : growth F.u 2 ≤ 3 * F.u := by
    unfold growth
    nlinarith [mul_nonneg u0 u0]
  have r1 : frob (V - (1 + (-1 / 2 : ℝ) • X)) ≤ 3 * F.u * (2 + 1 / 2 * frob X) := by
    have h1 : frob (V - (1 + (-1 / 2 : ℝ) • X)) ≤ frob ((3 * F.u) • (absM 1 + absM ((-1 / 2 : ℝ) • X))) := by
      refine frob_mono fun i j => ?_
      have h2 := flSum_err (hV i j)
      simp only [sumOf, absOf, List.map_cons, List.map_nil, List.sum_cons, List.sum_nil, add_zero, mul_one,
        List.length_cons, List.length_nil, zero_add] at h2
      have h3 : (V - (1 + (-1 / 2 : ℝ) • X)) i j = V i j - ((1 : M3) i j + (-1 / 2) * X i j) := by
        simp only [Matrix.sub_apply, Matrix.add_apply, Matrix.smul_apply, smul_eq_mul]
      have h4 : ((3 * F.u) • (absM 1 + absM ((-1 / 2 : ℝ) • X))) i j =
          3 * F.u * (|(1 : M3) i j| + |(-1 / 2) * X i j|) := by
        simp only [Matrix.add_apply, Matrix.smul_apply, smul_eq_mul, absM, Matrix.of_apply]
      rw [h3, h4]
      exact (h2.trans (mul_le_mul_of_nonneg_right g2 (by positivity))).trans (le_abs_self _)
    refine h1.trans ?_
    rw [frob_smul, abs_of_nonneg (by positivity)]
    refine mul_le_mul_of_nonneg_left ?_ (by positivity)
    have h3 := frob_add_le (absM 1) (absM ((-1 / 2 : ℝ) • X))
    rw [frob_abs, frob_abs, frob_smul, show |(-1 / 2 : ℝ)| = 1 / 2 by norm_num] at h3
    linarith [frob_one]
  have r2 : frob (((1 - cotQ (len ω)) / len ω ^ 2) • (X * X)) ≤ 9 / 16 * len ω ^ 2 := by
    rw [frob_smul]
    rcases l0.lt_or_eq with h | h
    · have h2 : 0 < len ω ^ 2 := by positivity
      rw [abs_div, abs_of_pos h2, div_mul_eq_mul_div, div_le_iff₀ h2]
      have := mul_le_mul (cotQ_small h h1) x3 (frob_nonneg _) (by positivity)
      linarith
    · rw [← h]
      simp
  rw [vinv_len]
  have e : V - (1 + (-1 / 2 : ℝ) • X + ((1 - cotQ (len ω)) / len ω ^ 2) • (X * X)) =
      (V - (1 + (-1 / 2 : ℝ) • X)) + (-1 : ℝ) • (((1 - cotQ (len ω)) / len ω ^ 2) • (X * X)) := by
    rw [neg_one_smul]
    abel
  rw [e]
  have t1 := frob_add_le (V - (1 + (-1 / 2 : ℝ) • X)) ((-1 : ℝ) • (((1 - cotQ (len ω)) / len ω ^ 2) • (X * X)))
  rw [frob_smul, abs_neg, abs_one, one_mul] at t1
  nlinarith [mul_le_mul_of_nonneg_left x1 u0, mul_le_mul_of_nonneg_left h1 u0]

end WG.Round
