import Verif.Spec.RoundingDiv
import Verif.Lemmas.RoundingOutcome
import Verif.Lemmas.ExpLog
import Mathlib.Analysis.SpecialFunctions.Trigonometric.Bounds

/-! # Rounding errors of the exponential map -/

namespace WG.Round
open Matrix Spec

variable {F : Fl}

theorem normSq_eq_len (v : V3) : normSq v = len v ^ 2 := by
  rw [len_sq_dot]
  simp [normSq, dotProduct, Fin.sum_univ_three]

theorem sqrt_normSq (v : V3) : √(normSq v) = len v := by
  rw [normSq_eq_len, Real.sqrt_sq (len_nonneg v)]

theorem trueExp_eq (v : V3) : trueExp v = expQ v := by
  unfold trueExp expQ Quat.ofVec
  rw [sqrt_normSq]
  rfl

theorem trueExp_isUnit (v : V3) : (trueExp v).IsUnit := by
  by_cases h : v = 0
  · subst h
    simp [trueExp, Quat.IsUnit, len_zero]
  · rw [trueExp_eq]
    exact expQ_isUnit h

/-- Lengths of quaternions by scalar and vector part. -/
theorem len_coeffs_le {p q : Quat} {a b : ℝ} (h1 : |p.w - q.w| ≤ a) (h2 : len (p.vec - q.vec) ≤ b) :
    len (coeffs p - coeffs q) ≤ a + b := by
  have a0 := (abs_nonneg _).trans h1
  have b0 := (len_nonneg _).trans h2
  have e : len (coeffs p - coeffs q) ^ 2 = (p.w - q.w) ^ 2 + len (p.vec - q.vec) ^ 2 := by
    rw [len_sq_dot, len_sq_dot]
    simp [dotProduct, Fin.sum_univ_four, Fin.sum_univ_three, coeffs, Quat.vec]
    ring
  have h3 : (p.w - q.w) ^ 2 ≤ a ^ 2 := by
    rw [← sq_abs]
    exact pow_le_pow_left₀ (abs_nonneg _) h1 2
  have h4 := pow_le_pow_left₀ (len_nonneg _) h2 2
  exact abs_le_of_sq_le_sq' (by nlinarith) (by linarith) |>.2

/-- `1 - cos x ≤ x² / 2`. -/
theorem cos_sq (x : ℝ) : 2 - 2 * Real.cos x ≤ x ^ 2 := by
  have := Real.one_sub_sq_div_two_le_cos (x := x)
  linarith

/-- The exponential does not increase distances (a quaternion has half the angle). -/
theorem trueExp_lipschitz (v w : V3) : len (coeffs (trueExp w) - coeffs (trueExp v)) ≤ len (w - v) / 2 := by
  have hd : len (coeffs (trueExp w) - coeffs (trueExp v)) ^ 2 =
      2 - 2 * (Real.cos (len w / 2) * Real.cos (len v / 2) +
        (Real.sin (len w / 2) / len w) * (Real.sin (len v / 2) / len v) * (w ⬝ᵥ v)) := by
    have h1 := trueExp_isUnit v
    have h2 := trueExp_isUnit w
    unfold Quat.IsUnit at h1 h2
    rw [len_sq_dot]
    simp only [dotProduct, Fin.sum_univ_four, Fin.sum_univ_three, coeffs, Pi.sub_apply, trueExp,
      Matrix.cons_val_zero, Matrix.cons_val_one, Matrix.cons_val] at h1 h2 ⊢
    linear_combination h1 + h2
  have hl : len (w - v) ^ 2 = len w ^ 2 + len v ^ 2 - 2 * (w ⬝ᵥ v) := by
    rw [len_sq_dot, len_sq_dot, len_sq_dot]
    simp only [dotProduct, Fin.sum_univ_three, Pi.sub_apply]
    ring
  have hcs : |w ⬝ᵥ v| ≤ len w * len v := by
    have h := Finset.sum_mul_sq_le_sq_mul_sq Finset.univ w v
    refine abs_le_of_sq_le_sq ?_ (mul_nonneg (len_nonneg _) (len_nonneg _))
    rw [mul_pow, len_sq_dot, len_sq_dot]
    simpa [dotProduct, sq] using h
  have key : len (coeffs (trueExp w) - coeffs (trueExp v)) ^ 2 ≤ (len (w - v) / 2) ^ 2 := by
    rw [hd, div_pow, hl]
    set α := len w with hα
    set β := len v with hβ
    set d := w ⬝ᵥ v with hdd
    have α0 : 0 ≤ α := len_nonneg _
    have β0 : 0 ≤ β := len_nonneg _
    have k1 := cos_sq (α / 2 - β / 2)
    have k2 := cos_sq (α / 2 + β / 2)
    rw [Real.cos_sub] at k1
    rw [Real.cos_add] at k2
    rcases α0.eq_or_lt with h0 | hα0
    · have hd0 : d = 0 := by
        rw [← h0, zero_mul] at hcs
        exact abs_nonpos_iff.1 hcs
      rw [hd0, ← h0]
      have := cos_sq (β / 2)
      simp only [zero_div, Real.cos_zero, mul_zero, add_zero, one_mul]
      nlinarith
    rcases β0.eq_or_lt with h0 | hβ0
    · have hd0 : d = 0 := by
        rw [← h0, mul_zero] at hcs
        exact abs_nonpos_iff.1 hcs
      rw [hd0, ← h0]
      have := cos_sq (α / 2)
      simp only [zero_div, Real.cos_zero, mul_zero, add_zero, mul_one]
      nlinarith
    obtain ⟨c, hc⟩ : ∃ c, d = c * (α * β) := ⟨d / (α * β), by field_simp⟩
    have hab : 0 < α * β := mul_pos hα0 hβ0
    have hc1 : |c| ≤ 1 := by
      rw [hc, abs_mul, abs_of_pos hab] at hcs
      exact le_of_mul_le_mul_right (by linarith) hab
    obtain ⟨hc2, hc3⟩ := abs_le.1 hc1
    have e : Real.sin (α / 2) / α * (Real.sin (β / 2) / β) * d =
        Real.sin (α / 2) * Real.sin (β / 2) * c := by
      rw [hc]
      field_simp
    rw [e, hc]
    have m1 := mul_le_mul_of_nonneg_left k1 (show (0 : ℝ) ≤ (1 + c) / 2 by linarith)
    have m2 := mul_le_mul_of_nonneg_left k2 (show (0 : ℝ) ≤ (1 - c) / 2 by linarith)
    nlinarith
  exact abs_le_of_sq_le_sq' key (by have := len_nonneg (w - v); linarith) |>.2

theorem growth_le (hu : F.u ≤ 1 / 100) : growth F.u 3 ≤ 1 / 32 ∧ growth F.u 4 ≤ 1 / 20 := by
  have u0 := u_nonneg F
  unfold growth
  have h3 : (1 + F.u) ^ 3 ≤ (1 + 1 / 100) ^ 3 := pow_le_pow_left₀ (by linarith) (by linarith) 3
  have h4 : (1 + F.u) ^ 4 ≤ (1 + 1 / 100) ^ 4 := pow_le_pow_left₀ (by linarith) (by linarith) 4
  constructor
  · refine (sub_le_sub_right h3 1).trans ?_
    norm_num
  · refine (sub_le_sub_right h4 1).trans ?_
    norm_num

theorem vec_trueExp (v : V3) : (trueExp v).vec = (Real.sin (len v / 2) / len v) • v := by
  funext i
  fin_cases i <;> rfl

/-- The main branch of ExpMap. -/
theorem exp_big {m : ℝ} (hm : 0 ≤ m) {v : V3} {q : Quat} {t a s c sa : ℝ} (hg : growth F.u 4 < 1)
    (ht : FlDot F v v t) (ha : a = F.rnd √t)
    (h1 : |sa - Real.sin (F.rnd (a / 2))| ≤ m * |Real.sin (F.rnd (a / 2))|) (ha0 : a ≠ 0)
    (hs : s = F.rnd (sa / a)) (hc : |c - Real.cos (F.rnd (a / 2))| ≤ m * |Real.cos (F.rnd (a / 2))|)
    (hw : q.w = c) (hv : ∀ i, q.vec i = F.rnd (s * v i)) :
    len (coeffs q - coeffs (trueExp v)) ≤
      (1 + m) * (growth F.u 2 + growth F.u 4) / (1 - growth F.u 4) + 2 * m + growth F.u 5 * len v := by
  have u0 := u_nonneg F
  have hn := norm_near (F := F) (v := v) (v' := v) (A := 1) (S := len v) le_rfl le_rfl
    (by rw [sub_self, len_zero]; simp) ht ha
  rw [one_mul] at hn
  change |a - len v| ≤ growth F.u 4 * len v at hn
  set θ := len v with hθ
  set g := growth F.u 4 with hgg
  have g0 : 0 ≤ g := growth_nonneg F 4
  have θ0 : 0 ≤ θ := len_nonneg v
  have θp : 0 < θ := by
    rcases θ0.eq_or_lt with h | h
    · rw [← h, mul_zero, sub_zero] at hn
      exact absurd (abs_nonpos_iff.1 hn) ha0
    · exact h
  set x := F.rnd (a / 2) with hx
  have hx1 : |x - θ / 2| ≤ growth F.u 5 * θ / 2 := by
    have e1 := F.err (a / 2)
    rw [← hx] at e1
    have e2 : |a / 2 - θ / 2| ≤ g * θ / 2 := by
      rw [← sub_div, abs_div, abs_of_pos (two_pos : (0 : ℝ) < 2)]
      linarith
    have e3 : |a / 2| ≤ (1 + g) * θ / 2 := by
      have := abs_sub_abs_le_abs_sub (a / 2) (θ / 2)
      rw [abs_of_nonneg (by linarith : 0 ≤ θ / 2)] at this
      linarith
    have e4 := abs_sub_le x (a / 2) (θ / 2)
    have e5 := mul_le_mul_of_nonneg_left e3 u0
    have e6 : growth F.u 5 = (1 + g) * (1 + F.u) - 1 := by
      rw [hgg]
      unfold growth
      ring
    rw [e6]
    linarith
  have a1 : (1 - g) * θ ≤ |a| := by
    have := abs_sub_abs_le_abs_sub θ a
    rw [abs_sub_comm, abs_of_pos θp] at this
    linarith
  have d0 : 0 < 1 - g := by linarith
  have ap : 0 < |a| := abs_pos.2 ha0
  have s1 : |Real.sin x| ≤ 1 := Real.abs_sin_le_one x
  have c1 : |Real.cos x| ≤ 1 := Real.abs_cos_le_one x
  have k1 : |sa - Real.sin x| ≤ m := h1.trans (by nlinarith)
  have k2 : |sa| ≤ 1 + m := by
    have := abs_sub_abs_le_abs_sub sa (Real.sin x)
    linarith
  have k3 : |sa / a| * θ ≤ (1 + m) / (1 - g) := by
    rw [abs_div, div_mul_eq_mul_div, div_le_div_iff₀ ap d0]
    nlinarith [abs_nonneg sa, mul_le_mul k2 a1 (by positivity) (by linarith : (0 : ℝ) ≤ 1 + m)]
  -- the vector part
  have v1 : len (q.vec - s • v) ≤ F.u * (|s| * θ) := by
    rw [hθ, ← len_smul, ← abs_of_nonneg u0, ← len_smul]
    refine len_mono fun i => ?_
    rw [Pi.sub_apply, hv i, Pi.smul_apply F.u, smul_eq_mul, abs_mul F.u, abs_of_nonneg u0]
    exact F.err (s * v i)
  have s2 : |s - sa / a| ≤ F.u * |sa / a| := by
    rw [hs]
    exact F.err _
  have s3 : |s| ≤ (1 + F.u) * |sa / a| := by
    have := abs_sub_abs_le_abs_sub s (sa / a)
    linarith
  have v2 : len (s • v - (sa / a) • v) ≤ F.u * |sa / a| * θ := by
    rw [← sub_smul, len_smul]
    exact mul_le_mul_of_nonneg_right s2 θ0
  have v3 : len ((sa / a) • v - (Real.sin (θ / 2) / θ) • v) ≤
      (1 + m) * g / (1 - g) + m + growth F.u 5 * θ / 2 := by
    rw [← sub_smul, len_smul, ← hθ]
    have e : |sa / a - Real.sin (θ / 2) / θ| * θ =
        |sa * (θ - a) / a + (sa - Real.sin x) + (Real.sin x - Real.sin (θ / 2))| := by
      rw [← abs_of_pos θp, ← abs_mul, abs_of_pos θp]
      congr 1
      field_simp
      ring
    rw [e]
    refine (abs_add_le _ _).trans (add_le_add ((abs_add_le _ _).trans (add_le_add ?_ k1)) ?_)
    · rw [abs_div, abs_mul, abs_sub_comm, div_le_div_iff₀ ap d0]
      have := mul_le_mul k2 hn (abs_nonneg _) (by linarith)
      have h5 := mul_le_mul_of_nonneg_right this d0.le
      have h6 := mul_le_mul_of_nonneg_left a1 (mul_nonneg (by linarith : (0 : ℝ) ≤ 1 + m) g0)
      nlinarith
    · exact (Real.abs_sin_sub_sin_le _ _).trans hx1
  have e : q.vec - (trueExp v).vec = (q.vec - s • v) + (s • v - (sa / a) • v) +
      ((sa / a) • v - (Real.sin (θ / 2) / θ) • v) := by
    rw [vec_trueExp]
    abel
  have v4 : len (q.vec - (trueExp v).vec) ≤ (1 + m) * (growth F.u 2 + g) / (1 - g) + m +
      growth F.u 5 * θ / 2 := by
    rw [e]
    have n1 := (len_add_le ((q.vec - s • v) + (s • v - (sa / a) • v)) _).trans
      (add_le_add ((len_add_le _ _).trans (add_le_add v1 v2)) v3)
    have n2 : F.u * (|s| * θ) + F.u * |sa / a| * θ ≤ growth F.u 2 * ((1 + m) / (1 - g)) := by
      have g2 : growth F.u 2 = F.u * (1 + F.u) + F.u := by
        unfold growth
        ring
      have n3 : F.u * (|s| * θ) ≤ F.u * ((1 + F.u) * |sa / a| * θ) :=
        mul_le_mul_of_nonneg_left (mul_le_mul_of_nonneg_right s3 θ0) u0
      have n4 := mul_le_mul_of_nonneg_left k3 (growth_nonneg F 2)
      rw [g2] at n4 ⊢
      linarith
    have n5 : (1 + m) * (growth F.u 2 + g) / (1 - g) =
        growth F.u 2 * ((1 + m) / (1 - g)) + (1 + m) * g / (1 - g) := by ring
    linarith
  have w1 : |q.w - (trueExp v).w| ≤ m + growth F.u 5 * θ / 2 := by
    rw [hw]
    change |c - Real.cos (θ / 2)| ≤ _
    have := abs_sub_le c (Real.cos x) (Real.cos (θ / 2))
    have h7 := (Real.abs_cos_sub_cos_le x (θ / 2)).trans hx1
    have h8 : |c - Real.cos x| ≤ m := hc.trans (by nlinarith)
    linarith
  refine (len_coeffs_le w1 v4).trans (le_of_eq ?_)
  ring

/-- Rounding of a multiple of the squared length. -/
theorem part_near {t θ k g : ℝ} (hk : 0 < k) (t0 : 0 ≤ t) (hd : |t - θ ^ 2| ≤ g * θ ^ 2) :
    |F.rnd (t / k) - θ ^ 2 / k| ≤ ((1 + g) * (1 + F.u) - 1) * (θ ^ 2 / k) := by
  have u0 := u_nonneg F
  have e1 := F.err (t / k)
  rw [abs_of_nonneg (div_nonneg t0 hk.le)] at e1
  have e2 : |t / k - θ ^ 2 / k| ≤ g * (θ ^ 2 / k) := by
    rw [← sub_div, abs_div, abs_of_pos hk, ← mul_div_assoc]
    exact div_le_div_of_nonneg_right hd hk.le
  have e3 : t / k ≤ (1 + g) * (θ ^ 2 / k) := by
    have := (abs_le.1 e2).2
    linarith
  have e4 := abs_sub_le (F.rnd (t / k)) (t / k) (θ ^ 2 / k)
  have e5 := mul_le_mul_of_nonneg_left e3 u0
  linarith

/-- The length is small in the small-angle branch. -/
theorem small_angle {ε t θ : ℝ} (hε1 : ε ≤ 1 / 2) (hu : F.u ≤ 1 / 100) (θ0 : 0 ≤ θ)
    (hd : |t - θ ^ 2| ≤ growth F.u 3 * θ ^ 2) (hb : F.rnd (t * t) ≤ ε) :
    0 ≤ t ∧ θ ≤ √√(2 * ε) ∧ θ ≤ 1 := by
  obtain ⟨g3, -⟩ := growth_le hu
  have d1 := (abs_le.1 hd).1
  have m1 := mul_le_mul_of_nonneg_right g3 (sq_nonneg θ)
  have e2 : (31 / 32) * θ ^ 2 ≤ t := by linarith
  have t0 : 0 ≤ t := le_trans (by positivity) e2
  have θ4 : θ ^ 4 ≤ 2 * ε := by
    have e1 := (abs_le.1 (F.err (t * t))).1
    rw [abs_of_nonneg (mul_nonneg t0 t0)] at e1
    have e3 : ((31 / 32) * θ ^ 2) * ((31 / 32) * θ ^ 2) ≤ t * t := mul_le_mul e2 e2 (by positivity) t0
    have e5 := mul_le_mul_of_nonneg_right hu (mul_nonneg t0 t0)
    have e6 : ((31 / 32) * θ ^ 2) * ((31 / 32) * θ ^ 2) = (31 / 32) ^ 2 * θ ^ 4 := by ring
    rw [e6] at e3
    norm_num at e3
    linarith [pow_nonneg θ0 4]
  refine ⟨t0, ?_, ?_⟩
  · refine Real.le_sqrt_of_sq_le (Real.le_sqrt_of_sq_le ?_)
    refine le_trans (le_of_eq ?_) θ4
    ring
  · by_contra h
    have h : 1 < θ := not_le.1 h
    have : 1 < θ ^ 4 := one_lt_pow₀ h (by norm_num)
    linarith

/-- The factor of the vector in the small-angle branch. -/
theorem small_scale {p θ g s : ℝ} (hu : F.u ≤ 1 / 100) (θ0 : 0 ≤ θ) (θ1 : θ ≤ 1) (g0 : 0 ≤ g)
    (g1 : g ≤ 1 / 20) (h : |p - θ ^ 2 / 48| ≤ g * (θ ^ 2 / 48)) (hs : s = F.rnd (1 / 2 + p)) :
    |s| ≤ 2 ∧ |s * θ - Real.sin (θ / 2)| ≤ F.u + g / 48 + θ ^ 3 / 24 := by
  have u0 := u_nonneg F
  have θ21 : θ ^ 2 ≤ 1 := pow_le_one₀ θ0 θ1
  have q4 : g * (θ ^ 2 / 48) ≤ g / 48 := by
    have := mul_le_mul_of_nonneg_left θ21 g0
    linarith
  obtain ⟨p2, p3⟩ := abs_le.1 h
  have θ20 := sq_nonneg θ
  have pp : |1 / 2 + p| ≤ 1 := by
    rw [abs_le]
    constructor <;> linarith
  have s1 : |s - (1 / 2 + p)| ≤ F.u := by
    rw [hs]
    exact (F.err _).trans (mul_le_of_le_one_right u0 pp)
  have k0 : |(1 / 2 + θ ^ 2 / 48) * θ - Real.sin (θ / 2)| ≤ θ ^ 3 / 24 := by
    have e1 := Real.sin_le (x := θ / 2) (by linarith)
    have e2 := abs_le.1 (Real.abs_sub_sin_le (θ / 2))
    rw [abs_of_nonneg (by linarith : 0 ≤ θ / 2)] at e2
    have e3 : (θ / 2) ^ 3 / 6 = θ ^ 3 / 48 := by ring
    rw [e3] at e2
    have e4 : (1 / 2 + θ ^ 2 / 48) * θ = θ / 2 + θ ^ 3 / 48 := by ring
    rw [e4, abs_le]
    have := pow_nonneg θ0 3
    constructor <;> linarith [e2.1, e2.2]
  constructor
  · have := abs_sub_abs_le_abs_sub s (1 / 2 + p)
    linarith
  · have e : s * θ - Real.sin (θ / 2) = (s - (1 / 2 + p)) * θ + (p - θ ^ 2 / 48) * θ +
        ((1 / 2 + θ ^ 2 / 48) * θ - Real.sin (θ / 2)) := by ring
    rw [e]
    refine (abs_add_le _ _).trans (add_le_add ((abs_add_le _ _).trans (add_le_add ?_ ?_)) k0)
    · rw [abs_mul, abs_of_nonneg θ0]
      exact (mul_le_of_le_one_right (abs_nonneg _) θ1).trans s1
    · rw [abs_mul, abs_of_nonneg θ0]
      exact (mul_le_of_le_one_right (abs_nonneg _) θ1).trans (h.trans q4)

/-- The scalar part in the small-angle branch. -/
theorem small_cos {r θ g c : ℝ} (θ0 : 0 ≤ θ) (θ1 : θ ≤ 1) (g0 : 0 ≤ g) (g1 : g ≤ 1 / 20)
    (h : |r - θ ^ 2 / 8| ≤ g * (θ ^ 2 / 8)) (hc : c = F.rnd (1 - r)) :
    |c - Real.cos (θ / 2)| ≤ F.u + g / 8 + θ ^ 4 * (5 / 1536) := by
  have u0 := u_nonneg F
  have θ21 : θ ^ 2 ≤ 1 := pow_le_one₀ θ0 θ1
  have q4 : g * (θ ^ 2 / 8) ≤ g / 8 := by
    have := mul_le_mul_of_nonneg_left θ21 g0
    linarith
  have q5 : g * (θ ^ 2 / 8) ≤ θ ^ 2 / 8 := mul_le_of_le_one_left (by positivity) (by linarith)
  obtain ⟨r2, r3⟩ := abs_le.1 h
  have rr : |1 - r| ≤ 1 := by
    rw [abs_le]
    constructor <;> linarith
  have e1 : |c - (1 - r)| ≤ F.u := by
    rw [hc]
    exact (F.err _).trans (mul_le_of_le_one_right u0 rr)
  have e2 := Real.cos_bound (x := θ / 2) (by rw [abs_of_nonneg (by linarith)]; linarith)
  rw [abs_of_nonneg (by linarith : 0 ≤ θ / 2), abs_sub_comm] at e2
  have e3 : c - Real.cos (θ / 2) = (c - (1 - r)) + (θ ^ 2 / 8 - r) +
      ((1 - (θ / 2) ^ 2 / 2) - Real.cos (θ / 2)) := by ring
  rw [e3]
  rw [abs_sub_comm] at h
  have e4 := (abs_add_le (c - (1 - r) + (θ ^ 2 / 8 - r)) _).trans
    (add_le_add ((abs_add_le _ _).trans (add_le_add e1 (h.trans q4))) e2)
  refine e4.trans (le_of_eq ?_)
  ring

/-- The small-angle branch of ExpMap. -/
theorem exp_small {ε : ℝ} (hε1 : ε ≤ 1 / 2) (hu : F.u ≤ 1 / 100) {v : V3} {q : Quat}
    {t s c : ℝ} (ht : FlDot F v v t) (hb : F.rnd (t * t) ≤ ε)
    (hs : s = F.rnd (1 / 2 + F.rnd (t / 48))) (hc : c = F.rnd (1 - F.rnd (t / 8)))
    (hw : q.w = c) (hv : ∀ i, q.vec i = F.rnd (s * v i)) :
    len (coeffs q - coeffs (trueExp v)) ≤ 4 * F.u + growth F.u 4 / 6 + √√(2 * ε) ^ 3 / 22 := by
  have u0 := u_nonneg F
  have g4 := (growth_le hu).2
  have hd := flDot_err ht
  rw [← sq, Fintype.card_fin] at hd
  have hd2 : |t - len v ^ 2| ≤ growth F.u 3 * len v ^ 2 := by
    rw [len_sq_dot v] at hd ⊢
    exact hd
  have θ0 : 0 ≤ len v := len_nonneg v
  have gs : growth F.u 4 = (1 + growth F.u 3) * (1 + F.u) - 1 := by
    unfold growth
    ring
  obtain ⟨t0, θr, θ1⟩ := small_angle hε1 hu θ0 hd2 hb
  have p1 := part_near (F := F) (k := 48) (by norm_num) t0 hd2
  have r1 := part_near (F := F) (k := 8) (by norm_num) t0 hd2
  rw [← gs] at p1 r1
  have gp4 := growth_nonneg F 4
  obtain ⟨s2, k0⟩ := small_scale hu θ0 θ1 gp4 g4 p1 hs
  have w0 := small_cos θ0 θ1 gp4 g4 r1 hc
  have v1 : len (q.vec - s • v) ≤ F.u * (|s| * len v) := by
    rw [← len_smul, ← abs_of_nonneg u0, ← len_smul]
    refine len_mono fun i => ?_
    rw [Pi.sub_apply, hv i, Pi.smul_apply F.u, smul_eq_mul, abs_mul F.u, abs_of_nonneg u0]
    exact F.err (s * v i)
  have v2 : len (s • v - (Real.sin (len v / 2) / len v) • v) ≤
      F.u + growth F.u 4 / 48 + len v ^ 3 / 24 := by
    rw [← sub_smul, len_smul]
    rcases θ0.eq_or_lt with h | h
    · rw [← h, mul_zero]
      positivity
    have e : |s - Real.sin (len v / 2) / len v| * len v = |s * len v - Real.sin (len v / 2)| := by
      have : s * len v - Real.sin (len v / 2) = (s - Real.sin (len v / 2) / len v) * len v := by
        field_simp
      rw [this, abs_mul, abs_of_pos h]
    rw [e]
    exact k0
  have v3 : len (q.vec - (trueExp v).vec) ≤ 3 * F.u + growth F.u 4 / 48 + len v ^ 3 / 24 := by
    have e : q.vec - (trueExp v).vec =
        (q.vec - s • v) + (s • v - (Real.sin (len v / 2) / len v) • v) := by
      rw [vec_trueExp]
      abel
    rw [e]
    have := (len_add_le _ _).trans (add_le_add v1 v2)
    have h6 : F.u * (|s| * len v) ≤ F.u * 2 :=
      mul_le_mul_of_nonneg_left ((mul_le_of_le_one_right (abs_nonneg s) θ1).trans s2) u0
    linarith
  have w1 : |q.w - (trueExp v).w| ≤ F.u + growth F.u 4 / 8 + len v ^ 4 * (5 / 1536) := by
    rw [hw]
    exact w0
  refine (len_coeffs_le w1 v3).trans ?_
  have h3 : len v ^ 3 ≤ √√(2 * ε) ^ 3 := pow_le_pow_left₀ θ0 θr 3
  have h4 : len v ^ 4 ≤ len v ^ 3 := by
    rw [pow_succ _ 3]
    exact mul_le_of_le_one_right (pow_nonneg θ0 3) θ1
  linarith [pow_nonneg θ0 3]

/-- ExpMap in floating point. -/
theorem exp_near {m ε : ℝ} (hm : 0 ≤ m) (hε1 : ε ≤ 1 / 2) (hu : F.u ≤ 1 / 100) {v : V3} {q : Quat}
    (h : FlExp F m ε v q) : len (coeffs q - coeffs (trueExp v)) ≤ expError F.u m ε (len v) := by
  obtain ⟨t, a, s, c, ht, ha, h, hw, hv⟩ := h
  unfold expError
  split_ifs at h with hb
  · obtain ⟨⟨sa, h1, ha0, hs⟩, hc⟩ := h
    refine (exp_big hm ?_ ht ha h1 ha0 hs hc hw hv).trans (le_max_left _ _)
    have := (growth_le hu).2
    linarith
  · exact (exp_small hε1 hu ht (not_lt.1 hb) h.1 h.2 hw hv).trans (le_max_right _ _)

theorem expError_mono (F : Fl) {m ε θ θ' : ℝ} (h : θ ≤ θ') :
    expError F.u m ε θ ≤ expError F.u m ε θ' := by
  unfold expError
  exact max_le_max (by linarith [mul_le_mul_of_nonneg_left h (growth_nonneg F 5)]) le_rfl

theorem rnd_ne_zero (hu : F.u < 1) {x : ℝ} (hx : x ≠ 0) : F.rnd x ≠ 0 := by
  intro h
  have := F.err x
  rw [h, zero_sub, abs_neg] at this
  nlinarith [abs_pos.2 hx]

/-- There is an outcome. -/
theorem flExp_exists {m ε : ℝ} (hm : 0 ≤ m) (hε : 0 ≤ ε) (hu : F.u ≤ 1 / 100) (v : V3) :
    ∃ q, FlExp F m ε v q := by
  obtain ⟨t, ht⟩ := flDot_exists (F := F) v v
  have fin : ∀ s c : ℝ, ∃ q : Quat, q.w = c ∧ ∀ i, q.vec i = F.rnd (s * v i) := fun s c =>
    ⟨⟨c, F.rnd (s * v 0), F.rnd (s * v 1), F.rnd (s * v 2)⟩, rfl, fun i => by fin_cases i <;> rfl⟩
  by_cases hb : ε < F.rnd (t * t)
  · have ht0 : 0 < t := by
      have hd := flDot_err ht
      rw [← sq, len_sq_dot, Fintype.card_fin] at hd
      have g3 := (growth_le hu).1
      have h0 : 0 ≤ v ⬝ᵥ v := by
        rw [← len_sq_dot]
        exact sq_nonneg _
      have h1 := (abs_le.1 hd).1
      have h2 := mul_le_mul_of_nonneg_right g3 h0
      rcases (show 0 ≤ t by linarith).eq_or_lt with h | h
      · rw [← h, mul_zero, rnd_zero] at hb
        linarith
      · exact h
    have ha : F.rnd √t ≠ 0 := rnd_ne_zero (by linarith) (Real.sqrt_pos.2 ht0).ne'
    obtain ⟨q, h1, h2⟩ := fin (F.rnd (Real.sin (F.rnd (F.rnd √t / 2)) / F.rnd √t))
      (Real.cos (F.rnd (F.rnd √t / 2)))
    refine ⟨q, t, _, _, _, ht, rfl, ?_, h1, h2⟩
    rw [if_pos hb]
    refine ⟨⟨_, ?_, ha, rfl⟩, ?_⟩
    · rw [sub_self, abs_zero]
      exact mul_nonneg hm (abs_nonneg _)
    · rw [sub_self, abs_zero]
      exact mul_nonneg hm (abs_nonneg _)
  · obtain ⟨q, h1, h2⟩ := fin (F.rnd (1 / 2 + F.rnd (t / 48))) (F.rnd (1 - F.rnd (t / 8)))
    refine ⟨q, t, _, _, _, ht, rfl, ?_, h1, h2⟩
    rw [if_neg hb]
    exact ⟨rfl, rfl⟩

/-- Without rounding, the code in exact arithmetic. -/
theorem flExp_exact (hu : F.u = 0) {ε : ℝ} {v : V3} {q : Quat} :
    FlExp F 0 ε v q ↔ expRel ε v = some q := by
  have hn : v ⬝ᵥ v = normSq v := by
    rw [normSq_eq_len, len_sq_dot]
  have hq : ∀ s c : ℝ, (q.w = c ∧ ∀ i, q.vec i = F.rnd (s * v i)) ↔ Quat.ofVec c (s • v) = q := by
    intro s c
    constructor
    · rintro ⟨h1, h2⟩
      have e0 := h2 0
      have e1 := h2 1
      have e2 := h2 2
      rw [rnd_exact hu] at e0 e1 e2
      obtain ⟨w, x, y, z⟩ := q
      cases h1
      cases e0
      cases e1
      cases e2
      rfl
    · rintro rfl
      refine ⟨rfl, fun i => ?_⟩
      rw [rnd_exact hu]
      fin_cases i <;> rfl
  unfold expRel
  by_cases hb : ε < normSq v * normSq v
  · simp only [gt_iff_lt, if_pos hb]
    constructor
    · rintro ⟨t, a, s, c, ht, ha, h, h1⟩
      rw [flDot_exact hu ht, hn] at ha h
      rw [rnd_exact hu] at ha
      rw [rnd_exact hu, if_pos hb, rnd_exact hu, zero_mul, zero_mul] at h
      obtain ⟨⟨sa, h3, h4, h5⟩, h6⟩ := h
      rw [sub_eq_zero.1 (abs_nonpos_iff.1 h3), rnd_exact hu] at h5
      subst ha h5
      rw [← sub_eq_zero.1 (abs_nonpos_iff.1 h6)]
      unfold rdiv
      rw [if_neg h4]
      exact congrArg some ((hq _ _).1 h1)
    · intro h
      unfold rdiv at h
      split_ifs at h with h0
      · cases h
      have h := Option.some.inj h
      obtain ⟨t, ht⟩ := flDot_exists (F := F) v v
      have ht' := flDot_exact hu ht
      rw [hn] at ht'
      subst ht'
      refine ⟨_, _, _, _, ht, rfl, ?_, (hq _ _).2 h⟩
      rw [rnd_exact hu, rnd_exact hu, if_pos hb, rnd_exact hu]
      refine ⟨⟨_, ?_, h0, (rnd_exact hu _).symm⟩, ?_⟩
      · rw [sub_self, abs_zero, zero_mul]
      · rw [sub_self, abs_zero, zero_mul]
  · simp only [gt_iff_lt, if_neg hb]
    constructor
    · rintro ⟨t, a, s, c, ht, ha, h, h1⟩
      rw [flDot_exact hu ht, hn, rnd_exact hu, if_neg hb, rnd_exact hu, rnd_exact hu, rnd_exact hu,
        rnd_exact hu] at h
      obtain ⟨rfl, rfl⟩ := h
      exact congrArg some ((hq _ _).1 h1)
    · intro h
      have h := Option.some.inj h
      obtain ⟨t, ht⟩ := flDot_exists (F := F) v v
      have ht' := flDot_exact hu ht
      rw [hn] at ht'
      subst ht'
      refine ⟨_, _, _, _, ht, rfl, ?_, (hq _ _).2 h⟩
      rw [rnd_exact hu, if_neg hb, rnd_exact hu, rnd_exact hu, rnd_exact hu, rnd_exact hu]
      exact ⟨rfl, rfl⟩

end WG.Round
