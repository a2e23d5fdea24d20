import Verif.Lemmas.RoundingLogRigid
import Verif.Props.RoundingTwist

/-!
# C79: the translation part of the logarithm of a rigid transform in floating-point arithmetic
-/

namespace WG
open Matrix Spec Round

variable {ε : ℝ} {F : Fl}

theorem vinv_zero : vinv 0 = 1 := by
  unfold vinv
  simp [crossMatrix_zero]

/-- The linear velocity from the motion. -/
theorem linear_of_motion {ξ : Twist} {T : Rigid} (hT : T.hom = NormedSpace.exp (twistMat ξ))
    (h1 : len ξ.rot ≤ Real.pi) : ξ.trans = vinv ξ.rot *ᵥ T.t := by
  rw [((motion_exp_iff T ξ).1 hT).2, mulVec_mulVec]
  by_cases h : ξ.rot = 0
  · rw [h, vinv_zero, vmat_zero, one_mul, one_mulVec]
  · have h0 : 0 < len ξ.rot := by
      rw [← sqrt_normSq]
      exact sqrt_normSq_pos h
    have hb := one_sub_cos_ge h0.le h1
    have : 0 < len ξ.rot ^ 2 := by positivity
    rw [(vinv_mul_vmat h (by rw [sqrt_normSq]; linarith)).1, one_mulVec]

/-- **C79.** For a motion through an angle `θ` up to a half turn with `100 m + 1100 u θ ≤ θ²`, from the rotation
vector and the translation of the motion: every outcome is finite and within the fraction
`360 u + 15 m + 34 m / θ² + 730 u / θ + ε` of the length of the translation of the linear velocity. -/
theorem c79_error (hu : F.u ≤ 1 / 1000) {m : ℝ} (hm : 0 ≤ m) (hm1 : m ≤ 1 / 1000) (hε : 0 ≤ ε)
    (hε1 : ε ≤ 1 / 1000) {ξ : Fin 3 ⊕ Fin 3 → ℝ} {T : Rigid} (hT : T.hom = NormedSpace.exp (twistMat ξ))
    {θ : ℝ} (hθ : θ = len (fun i => ξ (.inl i))) (h0 : 0 < θ) (h1 : θ ≤ Real.pi)
    (hs : 100 * m + 1100 * F.u * θ ≤ θ ^ 2) {z : Option V3}
    (h : FlLogTrans F m ε (fun i => ξ (.inl i)) T.t z) : ∃ w, z = some w ∧
      len (w - fun i => ξ (.inr i)) ≤ (360 * F.u + 15 * m + 34 * (m / θ ^ 2) + 730 * (F.u / θ) + ε) * len T.t := by
  have u0 := u_nonneg F
  change θ = len (Twist.rot ξ) at hθ
  subst hθ
  change FlLogTrans F m ε (Twist.rot ξ) T.t z at h
  have hv := linear_of_motion hT h1
  have t0 := len_nonneg T.t
  have h2 : 0 < len (Twist.rot ξ) ^ 2 := by positivity
  have a1 : 0 ≤ m / len (Twist.rot ξ) ^ 2 := by positivity
  have a2 : 0 ≤ F.u / len (Twist.rot ξ) := by positivity
  obtain ⟨t, a, ht, ha, h⟩ := h
  change ∃ w, z = some w ∧ len (w - Twist.trans ξ) ≤ _
  rw [hv]
  have hsum : (101 / 100 * m + 22 * F.u * len (Twist.rot ξ)) / len (Twist.rot ξ) ^ 2 =
      101 / 100 * (m / len (Twist.rot ξ) ^ 2) + 22 * (F.u / len (Twist.rot ξ)) := by
    field_simp
  by_cases hb : ε < t
  · rw [if_pos hb] at h
    obtain ⟨k, hk, h⟩ := h
    have hs' : 101 / 100 * m + 22 * F.u * len (Twist.rot ξ) ≤ len (Twist.rot ξ) ^ 2 / 50 := by linarith
    obtain ⟨k', rfl, hk'⟩ := logFactor_near hu hm hm1 h0 h1 hs' (sqr_near hu ht) ha hk
    rcases h with ⟨h, -⟩ | ⟨k2, e, Y, V, hY, hV, w, hw, rfl⟩
    · exact absurd h (by simp)
    · cases e
      refine ⟨w, rfl, (mulVec_near hu (logV_near hu hm hm1 h0 h1 hs' hk' hY hV) (frob_vinv h0 h1) hw).trans
        (mul_le_mul_of_nonneg_right ?_ t0)⟩
      rw [hsum]
      linarith
  · rw [if_neg hb] at h
    obtain ⟨V, hV, w, hw, rfl⟩ := h
    have hq : len (Twist.rot ξ) ^ 2 ≤ 101 / 100 * ε := by
      have := (abs_le.1 (sqr_near hu ht)).1
      nlinarith
    refine ⟨w, rfl, (mulVec_near hu (logV_small hu (by nlinarith) hV) (frob_vinv h0 h1) hw).trans
      (mul_le_mul_of_nonneg_right ?_ t0)⟩
    linarith

/-- **C79.** Below the switch: within `70 u + ε`. -/
theorem c79_small (hu : F.u ≤ 1 / 1000) {m : ℝ} (hε1 : ε ≤ 1 / 1000) {ξ : Fin 3 ⊕ Fin 3 → ℝ} {T : Rigid}
    (hT : T.hom = NormedSpace.exp (twistMat ξ)) (hs : (1 + 4 * F.u) * len (fun i => ξ (.inl i)) ^ 2 ≤ ε)
    {z : Option V3} (h : FlLogTrans F m ε (fun i => ξ (.inl i)) T.t z) :
    ∃ w, z = some w ∧ len (w - fun i => ξ (.inr i)) ≤ (70 * F.u + ε) * len T.t := by
  have u0 := u_nonneg F
  change (1 + 4 * F.u) * len (Twist.rot ξ) ^ 2 ≤ ε at hs
  change FlLogTrans F m ε (Twist.rot ξ) T.t z at h
  have l0 := len_nonneg (Twist.rot ξ)
  have hq : len (Twist.rot ξ) ^ 2 ≤ ε := by nlinarith [mul_nonneg u0 (sq_nonneg (len (Twist.rot ξ)))]
  have h1 : len (Twist.rot ξ) ≤ 1 / 2 := by nlinarith
  have hv := linear_of_motion hT (by linarith [Real.pi_gt_three])
  obtain ⟨t, a, ht, ha, h⟩ := h
  have ht' := (abs_le.1 (sqr_near hu ht)).2
  rw [if_neg (by linarith)] at h
  obtain ⟨V, hV, w, hw, rfl⟩ := h
  change ∃ w', _ ∧ len (w' - Twist.trans ξ) ≤ _
  rw [hv]
  have hf : frob (vinv (Twist.rot ξ)) ≤ 13 := by
    by_cases h0 : Twist.rot ξ = 0
    · rw [h0, vinv_zero]
      linarith [frob_one]
    · refine frob_vinv ?_ (by linarith [Real.pi_gt_three])
      rw [← sqrt_normSq]
      exact sqrt_normSq_pos h0
  refine ⟨w, rfl, (mulVec_near hu (logV_small hu h1 hV) hf hw).trans
    (mul_le_mul_of_nonneg_right ?_ (len_nonneg _))⟩
  linarith [sq_nonneg (len (Twist.rot ξ))]

/-- **C79.** In double precision, for angles from `2⁻²⁰` to a half turn. -/
theorem c79_double {ξ : Fin 3 ⊕ Fin 3 → ℝ} {T : Rigid} (hT : T.hom = NormedSpace.exp (twistMat ξ))
    {θ : ℝ} (hθ : θ = len (fun i => ξ (.inl i))) (h0 : 1 / 2 ^ 20 ≤ θ) (h1 : θ ≤ Real.pi) {z : Option V3}
    (h : FlLogTrans (ieee 52) (1 / 2 ^ 52) (1 / 2 ^ 52) (fun i => ξ (.inl i)) T.t z) :
    ∃ w, z = some w ∧
      len (w - fun i => ξ (.inr i)) ≤ (200 + 365 / θ + 34 / θ ^ 2) / 2 ^ 52 * len T.t := by
  have hu := ieee52_u
  have hp : 0 < θ := lt_of_lt_of_le (by norm_num) h0
  obtain ⟨w, hz, hw⟩ := c79_error (F := ieee 52) (by rw [hu]; norm_num) (by norm_num) (by norm_num) (by norm_num)
    (by norm_num) hT hθ hp h1 (by
      rw [hu]
      have : θ * (1 / 2 ^ 20) ≤ θ * θ := mul_le_mul_of_nonneg_left h0 hp.le
      nlinarith) h
  refine ⟨w, hz, hw.trans (mul_le_mul_of_nonneg_right ?_ (len_nonneg _))⟩
  rw [hu]
  have e1 : (1 / 2 ^ 52 : ℝ) / θ ^ 2 = 1 / 2 ^ 52 * (1 / θ ^ 2) := by ring
  have e2 : (1 / 2 ^ 53 : ℝ) / θ = 1 / 2 ^ 53 * (1 / θ) := by ring
  have e3 : 365 / θ = 365 * (1 / θ) := by ring
  have e4 : 34 / θ ^ 2 = 34 * (1 / θ ^ 2) := by ring
  rw [e1, e2, e3, e4]
  have : 0 ≤ 1 / θ := by positivity
  linarith

/-- Next to the switch: the rounded angle (helper). -/
theorem switch_angle (hu : F.u ≤ 1 / 10000) (hε : 0 < ε) (hε1 : ε ≤ 1 / 1000) {θ t : ℝ} (h0 : 0 < θ)
    (hθ : θ ^ 2 = 81 / 64 * ε) (ht : |t - θ ^ 2| ≤ 4 * F.u * θ ^ 2) :
    ε < t ∧ 0 < F.rnd √t ∧ |F.rnd √t - θ| ≤ 6 * F.u * θ ∧
      |Real.cos (F.rnd √t) - (1 - 81 / 128 * ε)| ≤ 1 / 100 * ε ∧ 99 / 100 ≤ Real.cos (F.rnd √t) := by
  have u0 := u_nonneg F
  obtain ⟨-, d, ap⟩ := angle_near (by linarith) h0 ht rfl
  obtain ⟨d1, d2⟩ := abs_le.1 d
  set a := F.rnd √t
  have hlt : ε < t := by
    have := (abs_le.1 ht).1
    rw [hθ] at this
    nlinarith
  have hθ1 : θ ≤ 1 / 20 := by nlinarith
  have k1 : a ≤ 1.0006 * θ := by nlinarith
  have k2 : 0.9994 * θ ≤ a := by nlinarith
  have s1 : a ^ 2 ≤ 1.0013 * θ ^ 2 := by nlinarith
  have s2 : 0.9987 * θ ^ 2 ≤ a ^ 2 := by nlinarith
  rw [hθ] at s1 s2
  have a1 : a ^ 2 ≤ 1.3 * ε := by linarith
  have hc := abs_le.1 (Real.cos_bound (x := a) (by rw [abs_of_pos ap]; nlinarith))
  rw [abs_of_pos ap] at hc
  have a4 : a ^ 4 ≤ 0.0017 * ε := by
    have : a ^ 4 = a ^ 2 * a ^ 2 := by ring
    rw [this]
    nlinarith [sq_nonneg a]
  refine ⟨hlt, ap, d, abs_le.2 ⟨by linarith, by linarith⟩, by linarith⟩

/-- The squared length of a vector along the first axis (helper). -/
theorem len_axis {θ : ℝ} (h0 : 0 ≤ θ) : len (![θ, 0, 0] : V3) = θ := by
  rw [← sqrt_normSq]
  simp only [normSq, Matrix.cons_val_zero, Matrix.cons_val_one, Matrix.cons_val]
  rw [show θ * θ + 0 * 0 + 0 * 0 = θ ^ 2 by ring, Real.sqrt_sq h0]

/-- **C79.** Next to the switch nothing is guaranteed: for the angle with square `81 / 64 ε`, if the error of
`std::cos` may be `0.7 ε` (less than twice the spacing of the numbers below one), there is an outcome that is infinite or not a
number. -/
theorem c79_infinite (hu : F.u ≤ 1 / 10000) (hε : 0 < ε) (hε1 : ε ≤ 1 / 1000) {m : ℝ} (hm : 7 / 10 * ε ≤ m)
    (t : V3) : FlLogTrans F m ε ![9 / 8 * √ε, 0, 0] t none := by
  have se := Real.sqrt_pos.2 hε
  have h0 : 0 < 9 / 8 * √ε := by positivity
  obtain ⟨t2, ht⟩ := flDot_exists (F := F) (![9 / 8 * √ε, 0, 0] : V3) ![9 / 8 * √ε, 0, 0]
  have ht' := sqr_near (by linarith) ht
  rw [len_axis h0.le] at ht'
  obtain ⟨hlt, ap, -, hc, hc1⟩ := switch_angle hu hε hε1 h0 (by rw [mul_pow, Real.sq_sqrt hε.le]; norm_num) ht'
  refine ⟨t2, _, ht, rfl, ?_⟩
  rw [if_pos hlt]
  refine ⟨none, ⟨_, _, ⟨Real.sin (F.rnd √t2), ?_, ap.ne', rfl⟩, ⟨1, ?_, by linarith, rfl⟩, .inl ⟨?_, rfl⟩⟩, .inl ⟨rfl, rfl⟩⟩
  · rw [sub_self, abs_zero]
    have : 0 ≤ m := by linarith
    positivity
  · rw [abs_of_pos (a := Real.cos (F.rnd √t2)) (by linarith),
      abs_of_nonneg (a := 1 - Real.cos (F.rnd √t2)) (by linarith [Real.cos_le_one (F.rnd √t2)])]
    have := (abs_le.1 hc).1
    nlinarith
  · rw [sub_self, rnd_zero, zero_div, rnd_zero]

/-- The error of one rounding (helper). -/
theorem rnd_within (hu : F.u ≤ 1 / 10000) {x b : ℝ} (hx : |x| ≤ b) : |F.rnd x - x| ≤ b / 10000 := by
  have := (F.err x).trans (mul_le_mul hu hx (abs_nonneg _) (by norm_num))
  linarith

/-- Next to the switch: a factor with the correctly rounded cosine (helper). -/
theorem switch_factor (hu : F.u ≤ 1 / 10000) (hε : 0 < ε) (hε1 : ε ≤ 1 / 1000) {m θ t : ℝ} (hm : ε / 4 ≤ m)
    (h0 : 0 < θ) (hθ : θ ^ 2 = 81 / 64 * ε) (ht : |t - θ ^ 2| ≤ 4 * F.u * θ ^ 2) :
    ∃ k, FlLogFactor F m t (F.rnd √t) (some k) ∧ k * θ ^ 2 ≤ -0.247 ∧ -0.283 ≤ k * θ ^ 2 := by
  have u0 := u_nonneg F
  have hθ1 : θ ≤ 1 / 20 := by nlinarith
  obtain ⟨hlt, ap, da, hc, hc1⟩ := switch_angle hu hε hε1 h0 hθ ht
  generalize F.rnd √t = a at *
  obtain ⟨A, hA⟩ : ∃ A, A = F.rnd (Real.sin a / a) := ⟨_, rfl⟩
  obtain ⟨B, hB⟩ : ∃ B, B = F.rnd (F.rnd (1 - (1 - ε / 2)) / t) := ⟨_, rfl⟩
  obtain ⟨α, hα⟩ : ∃ α, α = F.rnd (A / 2) := ⟨_, rfl⟩
  obtain ⟨q, hq⟩ : ∃ q, q = F.rnd (α / B) := ⟨_, rfl⟩
  obtain ⟨k1, hk1⟩ : ∃ k1, k1 = F.rnd (1 - q) := ⟨_, rfl⟩
  obtain ⟨k, hk⟩ : ∃ k, k = F.rnd (k1 / t) := ⟨_, rfl⟩
  have kA := termA (m := 0) (s := Real.sin a) (by linarith) le_rfl (by norm_num) h0 da ap (by simp) hA
  have sA : 0.999 ≤ Real.sin θ / θ := by
    rw [le_div_iff₀ h0]
    have := Real.sin_gt_sub_cube h0
    nlinarith [sq_nonneg θ]
  have A1 : 0.997 ≤ A := by linarith [(abs_le.1 kA).1]
  have A2 : A ≤ 1.002 := by linarith [(abs_le.1 kA).2, (abs_le.1 (abs_sinc_le h0)).2]
  have he : 1 - (1 - ε / 2) = ε / 2 := by ring
  have b1 := rnd_within hu (x := ε / 2) (b := ε / 2) (abs_of_pos (by positivity)).le
  have hB' := hB
  rw [he] at hB'
  have kB := quot_sq (by linarith) h0 ht b1 hB'
  rw [hθ] at kB
  have b2 : |F.rnd (ε / 2)| ≤ ε := by
    rw [abs_le] at b1 ⊢
    constructor <;> linarith
  have b3 : 6 * F.u * |F.rnd (ε / 2)| ≤ 6 * (1 / 10000) * ε :=
    mul_le_mul (by linarith) b2 (abs_nonneg _) (by norm_num)
  obtain ⟨kB1, kB2⟩ := abs_le.1 kB
  have B1 : 0.394 ≤ B := le_of_mul_le_mul_right (by linarith) hε
  have B2 : B ≤ 0.396 := le_of_mul_le_mul_right (by linarith) hε
  clear kB kB1 kB2 b1 b2 b3 hB' he kA sA da
  have f1 := abs_le.1 (rnd_within hu (x := A / 2) (b := 1) (by rw [abs_le]; constructor <;> linarith))
  rw [← hα] at f1
  have α1 : 0.498 ≤ α := by linarith [f1.1]
  have α2 : α ≤ 0.502 := by linarith [f1.2]
  have Bp : 0 < B := by linarith
  have q1 : 1.25 ≤ α / B := by rw [le_div_iff₀ Bp]; linarith
  have q2 : α / B ≤ 1.28 := by rw [div_le_iff₀ Bp]; linarith
  have f2 := abs_le.1 (rnd_within hu (x := α / B) (b := 2) (by rw [abs_le]; constructor <;> linarith))
  rw [← hq] at f2
  have f3 := abs_le.1 (rnd_within hu (x := 1 - q) (b := 1) (by rw [abs_le]; constructor <;> linarith [f2.1, f2.2]))
  rw [← hk1] at f3
  have k11 : k1 ≤ -0.248 := by linarith [f3.2, f2.1]
  have k12 : -0.282 ≤ k1 := by linarith [f3.1, f2.2]
  have kk := quot_sq (b := k1) (b1 := k1) (e := 0) (q := k) (by linarith) h0 ht
    (by rw [sub_self, abs_zero]) hk
  have kk' : |k * θ ^ 2 - k1| ≤ 0.001 := by
    have : 6 * F.u * |k1| ≤ 6 * (1 / 10000) * 1 :=
      mul_le_mul (by linarith) (by rw [abs_le]; constructor <;> linarith) (abs_nonneg _) (by norm_num)
    linarith
  refine ⟨k, ⟨A, B, ⟨Real.sin a, ?_, ap.ne', hA⟩, ⟨1 - ε / 2, ?_, by linarith, hB⟩,
      .inr ⟨Bp.ne', by rw [hk, hk1, hq, hα]⟩⟩, by linarith [(abs_le.1 kk').2], by linarith [(abs_le.1 kk').1]⟩
  · rw [sub_self, abs_zero]
    have : 0 ≤ m := by linarith
    positivity
  · rw [abs_of_pos (a := Real.cos a) (by linarith), abs_le]
    have := abs_le.1 hc
    constructor <;> nlinarith

/-- The second component of the inverse series applied to the second axis (helper). -/
theorem series_axis (θ k : ℝ) : ((1 + (-1 / 2 : ℝ) • crossMatrix (![θ, 0, 0] : V3) +
    k • (crossMatrix (![θ, 0, 0] : V3) * crossMatrix ![θ, 0, 0])) *ᵥ (![0, 1, 0] : V3)) 1 = 1 - k * θ ^ 2 := by
  simp [mulVec, dotProduct, Fin.sum_univ_three, crossMatrix, Matrix.mul_apply]
  ring

/-- The inverse series in floating point, applied to the second axis (helper). -/
theorem switch_series (hu : F.u ≤ 1 / 10000) {θ k : ℝ} (h0 : 0 < θ) (hθ1 : θ ≤ 1 / 20)
    (g1 : k * θ ^ 2 ≤ -0.247) (g2 : -0.283 ≤ k * θ ^ 2) {Y V : M3} {w : V3}
    (hY : FlMul F (crossMatrix (![θ, 0, 0] : V3)) (crossMatrix ![θ, 0, 0]) Y)
    (hV : FlSeries F (-1 / 2) k (crossMatrix (![θ, 0, 0] : V3)) Y V) (hw : FlMulVec F V ![0, 1, 0] w) :
    1.24 ≤ w 1 := by
  have u0 := u_nonneg F
  have gk : |k| * θ ^ 2 ≤ 0.283 := by
    have : |k| * θ ^ 2 = |k * θ ^ 2| := by rw [abs_mul, abs_of_nonneg (sq_nonneg θ)]
    rw [this, abs_le]
    constructor <;> linarith
  have sV := series_near (p := (-1 / 2 : ℝ)) (q := k) (by linarith) hY hV
  have x1 := frob_cross (![θ, 0, 0] : V3)
  have e1 := series_axis θ k
  rw [len_axis h0.le] at x1
  rw [len_axis h0.le, sub_self, sub_self, abs_zero, zero_mul, zero_mul, mul_zero, mul_zero, add_zero, add_zero,
    show |(-1 / 2 : ℝ)| = 1 / 2 by norm_num] at sV
  clear hY hV
  generalize crossMatrix (![θ, 0, 0] : V3) = X at *
  have fW : frob (1 + (-1 / 2 : ℝ) • X + k • (X * X)) ≤ 4 := by
    have x0 := frob_nonneg X
    have x3 : frob (X * X) ≤ 9 / 4 * θ ^ 2 := (frob_mul_le X X).trans (by nlinarith)
    have t1 := frob_add_le (1 + (-1 / 2 : ℝ) • X) (k • (X * X))
    have t2 := frob_add_le 1 ((-1 / 2 : ℝ) • X)
    rw [frob_smul] at t1 t2
    rw [show |(-1 / 2 : ℝ)| = 1 / 2 by norm_num] at t2
    have := mul_le_mul_of_nonneg_left x3 (abs_nonneg k)
    linarith [frob_one]
  have sV' : frob (V - (1 + (-1 / 2 : ℝ) • X + k • (X * X))) ≤ 0.002 := by
    refine sV.trans ?_
    have : F.u * (8 + 6 * (1 / 2 * θ) + 20 * (|k| * θ ^ 2)) ≤ 1 / 10000 * 20 :=
      mul_le_mul hu (by linarith) (by positivity) (by norm_num)
    linarith
  have hl : len (![0, 1, 0] : V3) = 1 := by
    rw [← sqrt_normSq]
    simp [normSq]
  have fin := mulVec_near (by linarith) sV' fW hw
  rw [hl, mul_one] at fin
  have fin1 := (abs_le_len _ 1).trans fin
  rw [Pi.sub_apply, e1] at fin1
  have := (abs_le.1 fin1).1
  linarith

/-- **C79.** The same with a cosine as good as it can be: if the error may be `ε / 4`, half the spacing of the
numbers next to one, there is an outcome off by more than a fifth of the translation. -/
theorem c79_loss (hu : F.u ≤ 1 / 10000) (hε : 0 < ε) (hε1 : ε ≤ 1 / 1000) {m : ℝ} (hm : ε / 4 ≤ m)
    {v : V3} {T : Rigid} (hT : T.hom = NormedSpace.exp (twistMat (Sum.elim ![9 / 8 * √ε, 0, 0] v)))
    (ht : T.t = ![0, 1, 0]) :
    ∃ w, FlLogTrans F m ε ![9 / 8 * √ε, 0, 0] T.t (some w) ∧ 1 / 5 < w 1 - v 1 := by
  have se := Real.sqrt_pos.2 hε
  have h0 : 0 < 9 / 8 * √ε := by positivity
  have hθ : (9 / 8 * √ε) ^ 2 = 81 / 64 * ε := by rw [mul_pow, Real.sq_sqrt hε.le]; norm_num
  generalize 9 / 8 * √ε = θ at *
  have hθ1 : θ ≤ 1 / 20 := by nlinarith
  obtain ⟨t2, hd⟩ := flDot_exists (F := F) (![θ, 0, 0] : V3) ![θ, 0, 0]
  have hd' := sqr_near (by linarith) hd
  rw [len_axis h0.le] at hd'
  obtain ⟨hlt, -⟩ := switch_angle hu hε hε1 h0 hθ hd'
  obtain ⟨k, hk, g1, g2⟩ := switch_factor hu hε hε1 hm h0 hθ hd'
  obtain ⟨Y, hY⟩ := flMul_exists (F := F) (crossMatrix (![θ, 0, 0] : V3)) (crossMatrix ![θ, 0, 0])
  obtain ⟨V, hV⟩ := flSeries_exists (F := F) (-1 / 2) k (crossMatrix (![θ, 0, 0] : V3)) Y
  choose w hw using fun i => flDot_exists (F := F) (fun j => V i j) T.t
  have hv : v = vinv ![θ, 0, 0] *ᵥ T.t := by
    have := linear_of_motion (ξ := Sum.elim ![θ, 0, 0] v) hT (by
      change len (![θ, 0, 0] : V3) ≤ _
      rw [len_axis h0.le]
      linarith [Real.pi_gt_three])
    exact this
  have ev : v 1 = 1 - (1 - cotQ θ) := by
    rw [hv, ht, vinv_len, len_axis h0.le, series_axis, div_mul_cancel₀ _ (by positivity)]
  have hq := (abs_le.1 (cotQ_small h0 (by linarith))).1
  refine ⟨w, ⟨t2, _, hd, rfl, ?_⟩, ?_⟩
  · rw [if_pos hlt]
    exact ⟨some k, hk, .inr ⟨k, rfl, Y, V, hY, hV, w, hw, rfl⟩⟩
  · rw [ht] at hw
    have := switch_series hu h0 hθ1 g1 g2 hY hV hw
    rw [ev]
    nlinarith

/-- **C79.** Without rounding errors the outcome is the value of the exact model. -/
theorem c79_exact (hu : F.u = 0) (hε : 0 ≤ ε) (ω t : V3) (z : Option V3) :
    FlLogTrans F 0 ε ω t z ↔ logTrans ε ω t = z := by
  have hser : ∀ {p q : ℝ} {X Y M : M3}, FlSeries F p q X Y M → M = 1 + p • X + q • Y := by
    intro p q X Y M h
    ext i j
    have := flSum_err (h i j)
    rw [growth_zero hu, zero_mul] at this
    have := sub_eq_zero.mp (abs_nonpos_iff.mp this)
    rw [this]
    simp [sumOf]
    ring
  have key : ∀ {z}, FlLogTrans F 0 ε ω t z → logTrans ε ω t = z := by
    rintro z ⟨t2, a, hd, ha, h⟩
    have e1 : t2 = normSq ω := by
      rw [flDot_exact hu hd, normSq_eq_len, len_sq_dot]
    rw [rnd_exact hu, e1] at ha
    rw [e1] at h
    unfold logTrans
    by_cases hb : ε < normSq ω
    · rw [if_pos hb] at h
      obtain ⟨k, ⟨A, B, ⟨s, hs, ha0, hA⟩, ⟨c, hc, ht0, hB⟩, hk⟩, h⟩ := h
      rw [zero_mul] at hs hc
      have hs := sub_eq_zero.mp (abs_nonpos_iff.mp hs)
      have hc := sub_eq_zero.mp (abs_nonpos_iff.mp hc)
      simp only [rnd_exact hu] at hA hB hk
      subst ha hs hc hA hB
      rcases hk with ⟨hB0, rfl⟩ | ⟨hB0, rfl⟩
      · rcases h with ⟨-, rfl⟩ | ⟨k', hk', -⟩
        · simp [hb, rdiv, ha0, ht0, hB0]
        · exact absurd hk' (by simp)
      · rcases h with ⟨hk', -⟩ | ⟨k', hk', Y, V, hY, hV, w, hw, rfl⟩
        · exact absurd hk' (by simp)
        · cases hk'
          have ew : w = V *ᵥ t := by
            ext i
            exact flDot_exact hu (hw i)
          rw [flMul_exact hu hY] at hV
          rw [ew, hser hV]
          have e2 : (-1 / 2 : ℝ) • crossMatrix ω = -((1 / 2 : ℝ) • crossMatrix ω) := by
            rw [← neg_smul]; norm_num
          rw [e2, ← sub_eq_add_neg]
          simp [hb, rdiv, ha0, ht0, hB0]
    · rw [if_neg hb] at h
      obtain ⟨V, hV, w, hw, rfl⟩ := h
      have ew : w = V *ᵥ t := by
        ext i
        exact flDot_exact hu (hw i)
      have eV : V = 1 - (1 / 2 : ℝ) • crossMatrix ω := by
        ext i j
        have := flSum_err (hV i j)
        rw [growth_zero hu, zero_mul] at this
        have := sub_eq_zero.mp (abs_nonpos_iff.mp this)
        rw [this]
        simp [sumOf]
        ring
      rw [ew, eV]
      simp [hb]
  refine ⟨key, fun h => ?_⟩
  obtain ⟨z', h'⟩ : ∃ z', FlLogTrans F 0 ε ω t z' := by
    obtain ⟨t2, hd⟩ := flDot_exists (F := F) ω ω
    by_cases hb : ε < t2
    · have t0 : 0 < t2 := lt_of_le_of_lt hε hb
      have a0 : F.rnd √t2 ≠ 0 := rnd_ne_zero (by rw [hu]; norm_num) (Real.sqrt_pos.2 t0).ne'
      by_cases hB : F.rnd (F.rnd (1 - Real.cos (F.rnd √t2)) / t2) = 0
      · exact ⟨none, t2, _, hd, rfl, by
          rw [if_pos hb]
          exact ⟨none, ⟨_, _, ⟨_, by rw [sub_self, abs_zero, zero_mul], a0, rfl⟩,
            ⟨_, by rw [sub_self, abs_zero, zero_mul], t0.ne', rfl⟩, .inl ⟨hB, rfl⟩⟩, .inl ⟨rfl, rfl⟩⟩⟩
      · obtain ⟨Y, hY⟩ := flMul_exists (F := F) (crossMatrix ω) (crossMatrix ω)
        obtain ⟨V, hV⟩ := flSeries_exists (F := F) (-1 / 2) (F.rnd (F.rnd (1 - F.rnd (F.rnd
          (F.rnd (Real.sin (F.rnd √t2) / F.rnd √t2) / 2) / F.rnd (F.rnd (1 - Real.cos (F.rnd √t2)) / t2))) / t2))
          (crossMatrix ω) Y
        choose w hw using fun i => flDot_exists (F := F) (fun j => V i j) t
        exact ⟨some w, t2, _, hd, rfl, by
          rw [if_pos hb]
          exact ⟨some _, ⟨_, _, ⟨_, by rw [sub_self, abs_zero, zero_mul], a0, rfl⟩,
            ⟨_, by rw [sub_self, abs_zero, zero_mul], t0.ne', rfl⟩, .inr ⟨hB, rfl⟩⟩,
            .inr ⟨_, rfl, Y, V, hY, hV, w, hw, rfl⟩⟩⟩
    · choose V hV using fun i j => flSum_exists (F := F) [((1 : M3) i j, 1), (-1 / 2, crossMatrix ω i j)] (by simp)
      choose w hw using fun i => flDot_exists (F := F) (fun j => V i j) t
      exact ⟨some w, t2, _, hd, rfl, by
        rw [if_neg hb]
        exact ⟨V, hV, w, hw, rfl⟩⟩
  have := key h'
  rw [h] at this
  rw [this]
  exact h'

/-- For example: half a turn about the third axis while moving, in double precision. -/
example {T : Rigid} (hT : T.hom = NormedSpace.exp (twistMat (Sum.elim ![0, 0, 3] ![1, 2, 3]))) {z : Option V3}
    (h : FlLogTrans (ieee 52) (1 / 2 ^ 52) (1 / 2 ^ 52) ![0, 0, 3] T.t z) :
    ∃ w, z = some w ∧ len (w - ![1, 2, 3]) ≤ 1 / 2 ^ 43 * len T.t := by
  have hl : (3 : ℝ) = len (![0, 0, 3] : V3) := by
    rw [← sqrt_normSq]
    simp only [normSq, Matrix.cons_val_zero, Matrix.cons_val_one, Matrix.cons_val]
    rw [show (0 * 0 + 0 * 0 + 3 * 3 : ℝ) = 3 ^ 2 by norm_num, Real.sqrt_sq (by norm_num)]
  obtain ⟨w, hz, hw⟩ := c79_double (ξ := Sum.elim ![0, 0, 3] ![1, 2, 3]) hT hl (by norm_num)
    Real.pi_gt_three.le h
  refine ⟨w, hz, hw.trans (mul_le_mul_of_nonneg_right ?_ (len_nonneg _))⟩
  norm_num

/-- For example: in double precision, a cosine with a relative error up to `2⁻⁵²` can give no number. -/
example : FlLogTrans (ieee 52) (1 / 2 ^ 52) (1 / 2 ^ 52) ![9 / 8 * √(1 / 2 ^ 52), 0, 0] ![0, 1, 0] none :=
  c79_infinite (by rw [ieee52_u]; norm_num) (by norm_num) (by norm_num) (by norm_num) _

end WG
