import Verif.Lemmas.RoundingTwist
import Verif.Lemmas.Expression
import Verif.Props.RoundingLog

/-!
# C78: the exponential of a twist in floating-point arithmetic
-/

namespace WG
open Matrix Spec Round

variable {ε : ℝ} {F : Fl}

/-- **C78.** Every outcome of `exp(x)` has the last row `0 0 0 1`, and its rotation block is within
`(80 u + 3 m) (1 + θ) + 2 ε` of the rotation of the motion, in whichever branch. -/
theorem c78_rotation (hu : F.u ≤ 1 / 1000) {m : ℝ} (hm : 0 ≤ m) (hm1 : m ≤ 1 / 1000) (hε : 0 ≤ ε)
    (hε1 : ε ≤ 1 / 1000) {ξ : Fin 3 ⊕ Fin 3 → ℝ} {T : Rigid} (hT : T.hom = NormedSpace.exp (twistMat ξ))
    {z : M4} (h : FlExpTwist F m ε ξ z) :
    z 3 = ![0, 0, 0, 1] ∧
      frob (rotBlock z - T.R) ≤ (80 * F.u + 3 * m) * (1 + len (fun i => ξ (.inl i))) + 2 * ε := by
  have u0 := u_nonneg F
  obtain ⟨hR, -⟩ := (motion_exp_iff T ξ).1 hT
  obtain ⟨t, a, A, B, C, ht, ha, hABC, Y, V, R, hY, hV, hRR, w, hw, rfl⟩ := h
  refine ⟨by ext j; fin_cases j <;> rfl, ?_⟩
  rw [rotBlock_mk4, hR]
  have l0 := len_nonneg (Twist.rot ξ)
  change _ ≤ (80 * F.u + 3 * m) * (1 + len (Twist.rot ξ)) + 2 * ε
  by_cases hb : ε < t
  · have := (big_near hu hm hm1 hε ht ha hABC hb hY hV hRR).2.2
    linarith
  · obtain ⟨h1, -, h2⟩ := small_near hu hε1 ht hABC hb hY hV hRR
    have : 0 ≤ 3 * m * (1 + len (Twist.rot ξ)) := by positivity
    nlinarith [mul_nonneg u0 l0]

/-- **C78.** The translation of every outcome is within the fraction `210 u + 4 m + 2 m / √ε + 2 √ε` of the
length of the linear velocity of the translation of the motion. -/
theorem c78_translation (hu : F.u ≤ 1 / 1000) {m : ℝ} (hm : 0 ≤ m) (hm1 : m ≤ 1 / 1000) (hε : 0 < ε)
    (hε1 : ε ≤ 1 / 1000) {ξ : Fin 3 ⊕ Fin 3 → ℝ} {T : Rigid} (hT : T.hom = NormedSpace.exp (twistMat ξ))
    {z : M4} (h : FlExpTwist F m ε ξ z) :
    len (transBlock z - T.t) ≤ (210 * F.u + 4 * m + 2 * (m / √ε) + 2 * √ε) * len (fun i => ξ (.inr i)) := by
  have u0 := u_nonneg F
  obtain ⟨-, hR⟩ := (motion_exp_iff T ξ).1 hT
  obtain ⟨t, a, A, B, C, ht, ha, hABC, Y, V, R, hY, hV, hRR, w, hw, rfl⟩ := h
  rw [transBlock_mk4, hR]
  have l0 := len_nonneg (Twist.rot ξ)
  have v0 := len_nonneg (Twist.trans ξ)
  have se := Real.sqrt_pos.2 hε
  have sq := Real.sq_sqrt hε.le
  have d0 : 0 ≤ m / √ε := div_nonneg hm se.le
  change _ ≤ _ * len (Twist.trans ξ)
  by_cases hb : ε < t
  · obtain ⟨p, e, -⟩ := big_near hu hm hm1 hε.le ht ha hABC hb hY hV hRR
    refine (trans_near hu e hw).trans (mul_le_mul_of_nonneg_right ?_ v0)
    have t1 := (abs_le.1 (sqr_near hu ht)).2
    have k : √ε ≤ 101 / 100 * len (Twist.rot ξ) := by
      refine abs_le_of_sq_le_sq' ?_ (by positivity) |>.2
      nlinarith [sq_nonneg (len (Twist.rot ξ))]
    have k2 : m / len (Twist.rot ξ) ≤ 101 / 100 * (m / √ε) := by
      rw [← mul_div_assoc, div_le_div_iff₀ p se]
      nlinarith [mul_le_mul_of_nonneg_left k hm]
    linarith
  · obtain ⟨h1, e, -⟩ := small_near hu hε1 ht hABC hb hY hV hRR
    refine (trans_near hu e hw).trans (mul_le_mul_of_nonneg_right ?_ v0)
    have k : len (Twist.rot ξ) ≤ 3 / 2 * √ε := by
      refine abs_le_of_sq_le_sq' ?_ (by positivity) |>.2
      nlinarith
    linarith

/-- **C78.** Away from the switch nothing is lost: the fraction is `210 u + 4 m + 2 m / θ`. -/
theorem c78_large (hu : F.u ≤ 1 / 1000) {m : ℝ} (hm : 0 ≤ m) (hm1 : m ≤ 1 / 1000) (hε : 0 ≤ ε)
    (hε1 : ε ≤ 1 / 1000) {ξ : Fin 3 ⊕ Fin 3 → ℝ} (hl : 101 / 100 * ε < len (fun i => ξ (.inl i)) ^ 2)
    {T : Rigid} (hT : T.hom = NormedSpace.exp (twistMat ξ)) {z : M4} (h : FlExpTwist F m ε ξ z) :
    len (transBlock z - T.t) ≤
      (210 * F.u + 4 * m + 2 * (m / len (fun i => ξ (.inl i)))) * len (fun i => ξ (.inr i)) := by
  have u0 := u_nonneg F
  obtain ⟨-, hR⟩ := (motion_exp_iff T ξ).1 hT
  obtain ⟨t, a, A, B, C, ht, ha, hABC, Y, V, R, hY, hV, hRR, w, hw, rfl⟩ := h
  rw [transBlock_mk4, hR]
  change _ ≤ (_ + 2 * (m / len (Twist.rot ξ))) * len (Twist.trans ξ)
  by_cases hb : ε < t
  · obtain ⟨p, e, -⟩ := big_near hu hm hm1 hε ht ha hABC hb hY hV hRR
    refine (trans_near hu e hw).trans (mul_le_mul_of_nonneg_right ?_ (len_nonneg _))
    have := div_nonneg hm p.le
    linarith
  · obtain ⟨h1, -⟩ := small_near hu hε1 ht hABC hb hY hV hRR
    exact absurd hl (not_lt.2 h1)

/-- **C78.** In double precision: the translation within `2⁻²³` of the length of the linear velocity, the
rotation block within `45 (1 + θ)` times the machine epsilon. -/
theorem c78_double {ξ : Fin 3 ⊕ Fin 3 → ℝ} {T : Rigid} (hT : T.hom = NormedSpace.exp (twistMat ξ)) {z : M4}
    (h : FlExpTwist (ieee 52) (1 / 2 ^ 52) (1 / 2 ^ 52) ξ z) :
    len (transBlock z - T.t) ≤ 1 / 2 ^ 23 * len (fun i => ξ (.inr i)) ∧
      frob (rotBlock z - T.R) ≤ 45 / 2 ^ 52 * (1 + len (fun i => ξ (.inl i))) := by
  have hu := ieee52_u
  have hs : √(1 / 2 ^ 52 : ℝ) = 1 / 2 ^ 26 := by
    rw [show (1 / 2 ^ 52 : ℝ) = (1 / 2 ^ 26) ^ 2 by norm_num]
    exact Real.sqrt_sq (by norm_num)
  have l0 := len_nonneg (Twist.rot ξ)
  refine ⟨(c78_translation (F := ieee 52) (by rw [hu]; norm_num) (by norm_num) (by norm_num) (by norm_num)
    (by norm_num) hT h).trans (mul_le_mul_of_nonneg_right ?_ (len_nonneg _)),
    (c78_rotation (F := ieee 52) (by rw [hu]; norm_num) (by norm_num) (by norm_num) (by norm_num)
    (by norm_num) hT h).2.trans ?_⟩
  · rw [hu, hs]
    norm_num
  · rw [hu]
    change _ ≤ 45 / 2 ^ 52 * (1 + len (Twist.rot ξ))
    change _ * (1 + len (Twist.rot ξ)) + _ ≤ _
    nlinarith

/-- **C78.** In double precision, a point moved by the computed transform: `exp(x) * p`. -/
theorem c78_moved {ξ : Fin 3 ⊕ Fin 3 → ℝ} {T : Rigid} (hT : T.hom = NormedSpace.exp (twistMat ξ)) {z : M4}
    (h : FlExpTwist (ieee 52) (1 / 2 ^ 52) (1 / 2 ^ 52) ξ z) {p w : V3}
    (hw : FlBin (ieee 52) (.transform .mat) z p w) :
    len (w - (T.R *ᵥ p + T.t)) ≤ 51 / 2 ^ 52 * (1 + len (fun i => ξ (.inl i))) * len p +
      1 / 2 ^ 22 * len (fun i => ξ (.inr i)) := by
  obtain ⟨ht, hR⟩ := c78_double hT h
  obtain ⟨eR, et⟩ := (motion_exp_iff T ξ).1 hT
  obtain ⟨r, hr, ha⟩ := hw
  have hr' : FlMulVec (ieee 52) (rotBlock z) p r := hr
  have ha' : FlAdd (ieee 52) r (transBlock z) w := ha
  have hu := ieee52_u
  have g3 : growth (ieee 52).u 3 ≤ 4 * (ieee 52).u := growth3 (by rw [hu]; norm_num)
  have e1 := mulVec_err hr'
  have e2 := flAdd_err ha'
  rw [hu] at g3 e1 e2
  change _ ≤ _ * (1 + len (Twist.rot ξ)) * _ + _ * len (Twist.trans ξ)
  change _ ≤ _ * len (Twist.trans ξ) at ht
  change _ ≤ _ * (1 + len (Twist.rot ξ)) at hR
  have p0 := len_nonneg p
  have v0 := len_nonneg (Twist.trans ξ)
  have l0 := len_nonneg (Twist.rot ξ)
  set θ := len (Twist.rot ξ)
  set v := len (Twist.trans ξ)
  have fR : frob T.R ≤ 2 := by
    rw [eR]
    have h3 := frob_orth (IsRotation.transpose_mul_self (rodr_rotation (Twist.rot ξ)))
    nlinarith [frob_nonneg (rodr (Twist.rot ξ))]
  have fz : frob (rotBlock z) ≤ 2 + 45 / 2 ^ 52 * (1 + θ) := by
    have := frob_add_le (rotBlock z - T.R) T.R
    rw [sub_add_cancel] at this
    linarith
  have ft : len (transBlock z) ≤ 9 * v := by
    have h1 := len_add_le (transBlock z - T.t) T.t
    rw [sub_add_cancel] at h1
    have h2 : len T.t ≤ 8 * v := by
      rw [et]
      exact (len_mulVec_le _ _).trans (mul_le_mul_of_nonneg_right (frob_vmat _) v0)
    nlinarith
  have k1 : len (r - rotBlock z *ᵥ p) ≤ 4 * (1 / 2 ^ 53) * ((2 + 45 / 2 ^ 52 * (1 + θ)) * len p) :=
    e1.trans (mul_le_mul g3 (mul_le_mul_of_nonneg_right fz p0) (mul_nonneg (frob_nonneg _) p0) (by norm_num))
  have k2 : len (rotBlock z *ᵥ p) ≤ (2 + 45 / 2 ^ 52 * (1 + θ)) * len p :=
    (len_mulVec_le _ _).trans (mul_le_mul_of_nonneg_right fz p0)
  have k3 : len ((rotBlock z - T.R) *ᵥ p) ≤ 45 / 2 ^ 52 * (1 + θ) * len p :=
    (len_mulVec_le _ _).trans (mul_le_mul_of_nonneg_right hR p0)
  have k4 : len (r + transBlock z) ≤ len (r - rotBlock z *ᵥ p) + len (rotBlock z *ᵥ p) + 9 * v := by
    have h1 := len_add_le r (transBlock z)
    have h2 := len_add_le (r - rotBlock z *ᵥ p) (rotBlock z *ᵥ p)
    rw [sub_add_cancel] at h2
    linarith
  have e : w - (T.R *ᵥ p + T.t) = (w - (r + transBlock z)) + (r - rotBlock z *ᵥ p) +
      ((rotBlock z - T.R) *ᵥ p + (transBlock z - T.t)) := by
    rw [Matrix.sub_mulVec]
    abel
  rw [e]
  have t1 := len_add_le ((w - (r + transBlock z)) + (r - rotBlock z *ᵥ p))
    ((rotBlock z - T.R) *ᵥ p + (transBlock z - T.t))
  have t2 := len_add_le (w - (r + transBlock z)) (r - rotBlock z *ᵥ p)
  have t3 := len_add_le ((rotBlock z - T.R) *ᵥ p) (transBlock z - T.t)
  have q : 0 ≤ θ * len p := mul_nonneg l0 p0
  linarith

/-- A point turned about the first axis by `2⁻²⁷` while moving along the second: an outcome of `exp(x) * p`
exists, and is within `2⁻²¹` of the true one. -/
example {T : Rigid} (hT : T.hom = NormedSpace.exp (twistMat (Sum.elim ![1 / 2 ^ 27, 0, 0] ![0, 1, 0])))
    {z : M4} (h : FlExpTwist (ieee 52) (1 / 2 ^ 52) (1 / 2 ^ 52) (Sum.elim ![1 / 2 ^ 27, 0, 0] ![0, 1, 0]) z) :
    ∃ w, FlBin (ieee 52) (.transform .mat) z ![1, 0, 0] w ∧ len (w - (T.R *ᵥ ![1, 0, 0] + T.t)) ≤ 1 / 2 ^ 21 := by
  choose r hr using fun i => flDot_exists (F := ieee 52) (fun k => rotBlock z i k) (![1, 0, 0] : V3)
  have hw : FlBin (ieee 52) (.transform .mat) z ![1, 0, 0] fun i => (ieee 52).rnd (r i + transBlock z i) :=
    ⟨r, hr, fun i => rfl⟩
  refine ⟨_, hw, (c78_moved hT h hw).trans ?_⟩
  have hv : len (fun i => (Sum.elim ![1 / 2 ^ 27, 0, 0] ![0, 1, 0] : Fin 3 ⊕ Fin 3 → ℝ) (.inr i)) = 1 := by
    unfold len
    simp [dotProduct, Fin.sum_univ_three]
  have hp : len (![1, 0, 0] : V3) = 1 := by
    unfold len
    simp [dotProduct, Fin.sum_univ_three]
  have hl : len (fun i => (Sum.elim ![1 / 2 ^ 27, 0, 0] ![0, 1, 0] : Fin 3 ⊕ Fin 3 → ℝ) (.inl i)) = 1 / 2 ^ 27 := by
    unfold len
    simp only [dotProduct, Fin.sum_univ_three, Sum.elim_inl, Matrix.cons_val_zero, Matrix.cons_val_one,
      Matrix.cons_val, mul_zero, add_zero]
    exact Real.sqrt_mul_self (by norm_num)
  rw [hv, hp, hl]
  norm_num

theorem flSeries_exists (p q : ℝ) (X Y : M3) : ∃ M, FlSeries F p q X Y M := by
  choose M hM using fun i j => flSum_exists (F := F) [((1 : M3) i j, 1), (p, X i j), (q, Y i j)] (by simp)
  exact ⟨M, hM⟩

/-- **C78.** Whatever the twist, `exp` has an outcome: no division by zero is forced. -/
theorem c78_exists (hu : F.u < 1) {m : ℝ} (hm : 0 ≤ m) (hε : 0 ≤ ε) (x : Twist) : ∃ z, FlExpTwist F m ε x z := by
  obtain ⟨t, ht⟩ := flDot_exists (F := F) x.rot x.rot
  have hT : ∃ A B C, FlTwistTerms F m ε t (F.rnd √t) A B C := by
    unfold FlTwistTerms
    by_cases hb : ε < t
    · simp only [if_pos hb]
      have t0 : 0 < t := lt_of_le_of_lt hε hb
      exact ⟨_, _, _, ⟨_, by rw [sub_self, abs_zero]; positivity, rnd_ne_zero hu (Real.sqrt_pos.2 t0).ne', rfl⟩,
        ⟨_, by rw [sub_self, abs_zero]; positivity, t0.ne', rfl⟩, rfl⟩
    · simp only [if_neg hb]
      exact ⟨_, _, _, rfl, rfl, rfl⟩
  obtain ⟨A, B, C, hT⟩ := hT
  obtain ⟨Y, hY⟩ := flMul_exists (F := F) (crossMatrix x.rot) (crossMatrix x.rot)
  obtain ⟨V, hV⟩ := flSeries_exists (F := F) B C (crossMatrix x.rot) Y
  obtain ⟨R, hR⟩ := flSeries_exists (F := F) A B (crossMatrix x.rot) Y
  choose w hw using fun i => flDot_exists (F := F) (fun k => V i k) x.trans
  exact ⟨_, t, _, A, B, C, ht, rfl, hT, Y, V, R, hY, hV, hR, w, hw, rfl⟩

/-- **C78.** The loss near the switch is real: when the square of the angle `θ` is at most the machine epsilon,
turning about the first axis while moving along the second with velocity one, no outcome moves along the third
axis at all, while the motion moves by more than `θ / 3`. -/
theorem c78_loss (hu : F.u ≤ 1 / 1000) {m θ : ℝ} (h0 : 0 < θ) (h1 : θ ≤ 1)
    (hs : (1 + 4 * F.u) * θ ^ 2 ≤ ε) {T : Rigid}
    (hT : T.hom = NormedSpace.exp (twistMat (Sum.elim ![θ, 0, 0] ![0, 1, 0]))) {z : M4}
    (h : FlExpTwist F m ε (Sum.elim ![θ, 0, 0] ![0, 1, 0]) z) : z 2 3 = 0 ∧ θ / 3 < T.t 2 := by
  have hl : len (![θ, 0, 0] : V3) = θ := by
    rw [← sqrt_normSq]
    simp only [normSq, Matrix.cons_val_zero, Matrix.cons_val_one, Matrix.cons_val]
    rw [show θ * θ + 0 * 0 + 0 * 0 = θ ^ 2 by ring, Real.sqrt_sq h0.le]
  constructor
  · obtain ⟨t, a, A, B, C, ht, ha, hABC, Y, V, R, hY, hV, hRR, w, hw, rfl⟩ := h
    have t1 := (abs_le.1 (sqr_near hu ht)).2
    change t - len (![θ, 0, 0] : V3) ^ 2 ≤ 4 * F.u * len (![θ, 0, 0] : V3) ^ 2 at t1
    rw [hl] at t1
    unfold FlTwistTerms at hABC
    rw [if_neg (by linarith)] at hABC
    obtain ⟨-, rfl, rfl⟩ := hABC
    have hV1 : V 2 1 = 0 := by
      have := flSum_err (hV 2 1)
      simpa [sumOf, absOf] using this
    have := flDot_abs (hw 2)
    change w 2 = 0
    simpa [dotProduct, Fin.sum_univ_three, Twist.trans, hV1] using this
  · rw [((motion_exp_iff T _).1 hT).2, vmat_len]
    change θ / 3 < ((1 + ((1 - Real.cos (len (![θ, 0, 0] : V3))) / len (![θ, 0, 0] : V3) ^ 2) •
      crossMatrix ![θ, 0, 0] + ((1 - Real.sin (len (![θ, 0, 0] : V3)) / len (![θ, 0, 0] : V3)) /
        len (![θ, 0, 0] : V3) ^ 2) • (crossMatrix ![θ, 0, 0] * crossMatrix ![θ, 0, 0])) *ᵥ (![0, 1, 0] : V3)) 2
    rw [hl]
    have hc : Real.cos θ < 1 - θ ^ 2 / 3 := by
      have := (abs_le.1 (Real.cos_bound (x := θ) (by rw [abs_of_pos h0]; exact h1))).2
      rw [abs_of_pos h0] at this
      have h2 : 0 < θ ^ 2 := by positivity
      have h4 : θ ^ 4 ≤ θ ^ 2 := pow_le_pow_of_le_one h0.le h1 (by norm_num)
      linarith
    simp [mulVec, dotProduct, Fin.sum_univ_three, crossMatrix, Matrix.mul_apply]
    rw [div_mul_eq_mul_div, lt_div_iff₀ (by positivity)]
    nlinarith

/-- In double precision, turning by `2⁻²⁷` about the first axis: the outcome exists, and it misses the
displacement along the third axis, more than `2⁻²⁹` of the velocity. -/
example : ∃ z, FlExpTwist (ieee 52) (1 / 2 ^ 52) (1 / 2 ^ 52) (Sum.elim ![1 / 2 ^ 27, 0, 0] ![0, 1, 0]) z ∧
    z 2 3 = 0 ∧ ∀ T : Rigid, T.hom = NormedSpace.exp (twistMat (Sum.elim ![1 / 2 ^ 27, 0, 0] ![0, 1, 0])) →
      1 / 2 ^ 29 < T.t 2 ∧ T.t 2 ≤ 1 / 2 ^ 23 := by
  have hu := ieee52_u
  obtain ⟨z, hz⟩ := c78_exists (F := ieee 52) (m := 1 / 2 ^ 52) (ε := 1 / 2 ^ 52) (by rw [hu]; norm_num)
    (by norm_num) (by norm_num) (Sum.elim ![1 / 2 ^ 27, 0, 0] ![0, 1, 0])
  have hv : len (fun i => (Sum.elim ![1 / 2 ^ 27, 0, 0] ![0, 1, 0] : Fin 3 ⊕ Fin 3 → ℝ) (.inr i)) = 1 := by
    unfold len
    simp [dotProduct, Fin.sum_univ_three]
  have key := fun {T : Rigid} hT => c78_loss (F := ieee 52) (m := 1 / 2 ^ 52) (ε := 1 / 2 ^ 52)
    (θ := 1 / 2 ^ 27) (T := T) (by rw [hu]; norm_num) (by norm_num) (by norm_num) (by rw [hu]; norm_num) hT hz
  obtain ⟨T₀, h₀⟩ : ∃ T : Rigid, T.hom = NormedSpace.exp (twistMat (Sum.elim ![1 / 2 ^ 27, 0, 0] ![0, 1, 0])) :=
    ⟨⟨_, _⟩, (motion_exp_iff _ _).2 ⟨rfl, rfl⟩⟩
  have z0 := (key h₀).1
  refine ⟨z, hz, z0, fun T hT => ⟨lt_trans (by norm_num) (key hT).2, ?_⟩⟩
  have hd := (c78_double hT hz).1
  rw [hv, mul_one] at hd
  have e : transBlock z 2 = 0 := z0
  have := (abs_le_len (transBlock z - T.t) 2).trans hd
  rw [Pi.sub_apply, e, zero_sub, abs_neg] at this
  exact (le_abs_self _).trans this

/-- **C78.** Without rounding errors the outcomes are the values of the exact model `expTwist`. -/
theorem c78_exact (hu : F.u = 0) (hε : 0 ≤ ε) (x : Twist) (z : M4) :
    FlExpTwist F 0 ε x z ↔ expTwist ε x = some z := by
  have hser : ∀ {p q : ℝ} {X Y M : M3}, FlSeries F p q X Y M → M = 1 + p • X + q • Y := by
    intro p q X Y M h
    ext i j
    have := flSum_err (h i j)
    rw [growth_zero hu, zero_mul] at this
    have := sub_eq_zero.mp (abs_nonpos_iff.mp this)
    rw [this]
    simp [sumOf]
    ring
  have key : ∀ {z : M4}, FlExpTwist F 0 ε x z → expTwist ε x = some z := by
    rintro z ⟨t, a, A, B, C, ht, ha, hABC, Y, V, R, hY, hV, hRR, w, hw, rfl⟩
    have e1 : t = normSq x.rot := by
      rw [flDot_exact hu ht, normSq_eq_len, len_sq_dot]
    have ew : w = V *ᵥ x.trans := by
      ext i
      exact flDot_exact hu (hw i)
    rw [flMul_exact hu hY] at hV hRR
    rw [rnd_exact hu, e1] at ha
    rw [e1] at hABC
    rw [ew, hser hV, hser hRR]
    unfold FlTwistTerms at hABC
    unfold expTwist
    by_cases hb : ε < normSq x.rot
    · rw [if_pos hb] at hABC
      obtain ⟨⟨s, hs, ha0, hA⟩, ⟨c, hc, ht0, hB⟩, hC⟩ := hABC
      rw [zero_mul] at hs hc
      have hs := sub_eq_zero.mp (abs_nonpos_iff.mp hs)
      have hc := sub_eq_zero.mp (abs_nonpos_iff.mp hc)
      rw [rnd_exact hu] at hA
      rw [rnd_exact hu, rnd_exact hu] at hB hC
      subst ha hs hc hA hB hC
      simp [hb, rdiv, ha0, ht0]
    · rw [if_neg hb] at hABC
      obtain ⟨rfl, rfl, rfl⟩ := hABC
      simp [hb]
  refine ⟨key, fun h => ?_⟩
  obtain ⟨z', h'⟩ := c78_exists (F := F) (ε := ε) (m := 0) (by rw [hu]; norm_num) le_rfl hε x
  have := key h'
  rw [h] at this
  rw [Option.some.inj this]
  exact h'

end WG
