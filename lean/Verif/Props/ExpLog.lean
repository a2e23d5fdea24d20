import Verif.Props.Rotation
import Verif.Lemmas.LogEval
import Mathlib.Analysis.Real.Pi.Bounds
import Mathlib.Analysis.SpecialFunctions.Trigonometric.Bounds

/-!
# C06, C07, C08, C09: exponential and logarithm
-/

namespace WG
open Matrix Spec

variable {ε : ℝ} {s : Memory} {e f g : SExpr}

/-- **C06.** Above the small-angle threshold `exp(φ)` is a valid (unit) quaternion whose rotation is
Rodrigues' `I + sin t / t [φ] + (1 - cos t) / t² [φ]²`, `t = |φ|`. -/
theorem c06_formula (hε : 0 < ε) {φ : V3} (he : Means ε s e (.vec .relrot φ)) (hr : ε < sqLen φ ^ 2) :
    Yields ε s (.un .exp e) (.rot (1 + (Real.sin √(sqLen φ) / √(sqLen φ)) • hat φ +
      ((1 - Real.cos √(sqLen φ)) / sqLen φ) • (hat φ * hat φ))) := by
  have := c01_evaluation_meaning hε (.expRot he (Or.inr hr))
  rwa [← rodr_exp, rodr, ← hat_eq, ← sqLen_eq] at this

/-- **C06.** It is the rotation by the angle `|φ|` about the direction of `φ`. -/
theorem c06_axis_angle (hε : 0 < ε) {n : V3} {t : ℝ} (hn : sqLen n = 1)
    (he : Means ε s e (.vec .relrot (t • n))) (hr : t = 0 ∨ ε < t ^ 4) :
    Yields ε s (.un .exp e) (.rot (rotAbout t n)) := by
  have := c01_evaluation_meaning hε (.expRot he (by
    rcases hr with rfl | h
    · exact Or.inl (zero_smul _ _)
    · right
      have : sqLen (t • n) = t ^ 2 := by
        rw [sqLen_eq, normSq_smul, ← sqLen_eq, hn]; ring
      rw [this]; calc ε < t ^ 4 := h
        _ = (t ^ 2) ^ 2 := by ring))
  rwa [hat_eq, crossMatrix_smul, ← hat_eq] at this

/-- **C06.** `exp(0)` is the identity. -/
theorem c06_zero (hε : 0 < ε) (he : Means ε s e (.vec .relrot (0 : V3))) :
    Yields ε s (.un .exp e) (.rot 1) := by
  have := c01_evaluation_meaning hε (.expRot he (Or.inl rfl))
  rwa [← rodr_exp, rodr_zero] at this

theorem exp_hat_neg (φ : V3) : NormedSpace.exp (hat (-φ)) = (NormedSpace.exp (hat φ))⁻¹ := by
  rw [hat_eq, crossMatrix_neg, ← hat_eq]
  exact Matrix.exp_neg _

theorem sqLen_neg (φ : V3) : sqLen (-φ) = sqLen φ := by simp [sqLen]

/-- **C06.** `exp(-φ)` is the inverse of `exp(φ)`. -/
theorem c06_neg (hε : 0 < ε) {φ : V3} (he : Means ε s e (.vec .relrot φ))
    (hr : φ = 0 ∨ ε < sqLen φ ^ 2) :
    ∃ R, Yields ε s (.un .exp (-e)) (.rot R) ∧ Yields ε s (SExpr.un .exp e)⁻¹ (.rot R) :=
  ⟨(NormedSpace.exp (hat φ))⁻¹, by
    rw [← exp_hat_neg]
    refine c01_evaluation_meaning hε (.expRot (.neg he) ?_)
    rcases hr with rfl | h
    · exact Or.inl neg_zero
    · exact Or.inr (by rwa [show sqLen (-φ) = sqLen φ from sqLen_neg φ]),
    c01_evaluation_meaning hε (.inverseRot (.expRot he hr))⟩

theorem exp_hat_add (a b : ℝ) (φ : V3) :
    NormedSpace.exp (hat ((a + b) • φ)) = NormedSpace.exp (hat (a • φ)) * NormedSpace.exp (hat (b • φ)) := by
  simp only [hat_eq, crossMatrix_smul, add_smul, crossMatrix_add]
  exact Matrix.exp_add_of_commute _ _ (((Commute.refl (crossMatrix φ)).smul_left a).smul_right b)

/-- **C06.** `exp((a+b) φ) = exp(a φ) exp(b φ)` outside the small-angle region; `a`, `b` are scalar
expressions. -/
theorem c06_add (hε : 0 < ε) {φ : V3} {x y : Fin 1 → ℝ} {a b : SExpr}
    (ha : Means ε s a (.vec .scalar x)) (hb : Means ε s b (.vec .scalar y))
    (he : Means ε s e (.vec .relrot φ))
    (h1 : x 0 • φ = 0 ∨ ε < sqLen (x 0 • φ) ^ 2) (h2 : y 0 • φ = 0 ∨ ε < sqLen (y 0 • φ) ^ 2)
    (h3 : (x 0 + y 0) • φ = 0 ∨ ε < sqLen ((x 0 + y 0) • φ) ^ 2) :
    ∃ R, Yields ε s (.un .exp ((a + b) * e)) (.rot R) ∧
      Yields ε s (SExpr.un .exp (a * e) * SExpr.un .exp (b * e)) (.rot R) :=
  ⟨NormedSpace.exp (hat (x 0 • φ)) * NormedSpace.exp (hat (y 0 • φ)), by
    rw [← exp_hat_add]
    exact c01_evaluation_meaning hε (.expRot (.mulScalarVec (.addVec ha hb) he) h3),
    c01_evaluation_meaning hε (.mulRot (.expRot (.mulScalarVec ha he) h1)
      (.expRot (.mulScalarVec hb he) h2))⟩

theorem exp_value (hε : 0 < ε) {φ : V3} (he : Means ε s e (.vec .relrot φ)) :
    (SExpr.un .exp e).value ε s = (expRel ε φ).map fun q => ⟨.rot .quat, q⟩ := by
  obtain ⟨t, ht, hg⟩ := means_acc hε he
  obtain ⟨p, rfl, hp⟩ := hg.vec
  unfold SExpr.value
  rw [show (SExpr.un .exp e).elab ε = some ⟨.rot .quat, Expr.un (L := geoLib ε) 0 .expRel p⟩ by
    simp only [SExpr.elab, ht]; rfl]
  change (Expr.eval (L := geoLib ε) s (Expr.un (L := geoLib ε) 0 .expRel p)).map _ = _
  rw [eval_un 0 .expRel p hp]
  rfl

/-- The exact unit quaternion of the rotation vector `φ` (the one close to `1`). -/
noncomputable def exactQuat (φ : V3) : Quat :=
  ⟨Real.cos (√(sqLen φ) / 2), Real.sin (√(sqLen φ) / 2) / √(sqLen φ) * φ 0,
    Real.sin (√(sqLen φ) / 2) / √(sqLen φ) * φ 1, Real.sin (√(sqLen φ) / 2) / √(sqLen φ) * φ 2⟩

theorem abs_le_sqrt_normSq (φ : V3) (i : Fin 3) : |φ i| ≤ √(normSq φ) := by
  apply Real.abs_le_sqrt
  unfold normSq
  fin_cases i <;> simp <;>
    nlinarith [mul_self_nonneg (φ 0), mul_self_nonneg (φ 1), mul_self_nonneg (φ 2)]

theorem small_vec_bound {θ x : ℝ} (h0 : 0 ≤ θ) (h1 : θ ≤ 1) (hx : |x| ≤ θ) :
    |(1 / 2 + θ ^ 2 / 48) * x - Real.sin (θ / 2) / θ * x| ≤ θ ^ 3 / 20 := by
  rcases h0.eq_or_lt with rfl | hp
  · have : x = 0 := by simpa using hx
    simp [this]
  · have hb := Real.sin_bound (x := θ / 2) (by rw [abs_of_nonneg (by linarith)]; linarith)
    rw [abs_of_nonneg (show 0 ≤ θ / 2 by linarith)] at hb
    have e : (1 / 2 + θ ^ 2 / 48) * x - Real.sin (θ / 2) / θ * x =
        (θ / 2 + θ ^ 3 / 48 - Real.sin (θ / 2)) * (x / θ) := by field_simp
    rw [e, abs_mul]
    have h2 : |x / θ| ≤ 1 := by
      rw [abs_div, abs_of_pos hp]; exact (div_le_one hp).mpr hx
    have h3 : |θ / 2 + θ ^ 3 / 48 - Real.sin (θ / 2)| ≤ θ ^ 3 / 20 := by
      rw [abs_le] at hb ⊢
      have p3 : 0 ≤ θ ^ 3 := by positivity
      have p4 : θ ^ 4 ≤ θ ^ 3 := by nlinarith
      constructor <;> nlinarith
    calc _ ≤ θ ^ 3 / 20 * 1 := mul_le_mul h3 h2 (abs_nonneg _) (by positivity)
      _ = _ := by ring

/-- **C07 (partial).** Below the threshold, `exp` agrees with the exact quaternion to fourth order in
its real part and to third order in its vector part.  Missing: fourth order in the vector part, which
is false (`c07_fourth_order_false`). -/
theorem c07_third_order_partial (hε : 0 < ε) (hε1 : ε ≤ 1) {φ : V3} (he : Means ε s e (.vec .relrot φ))
    (hr : sqLen φ ^ 2 ≤ ε) :
    ∃ q : Quat, (SExpr.un .exp e).value ε s = some ⟨.rot .quat, q⟩ ∧
      |q.w - (exactQuat φ).w| ≤ √(sqLen φ) ^ 4 / 300 ∧
      |q.x - (exactQuat φ).x| ≤ √(sqLen φ) ^ 3 / 20 ∧
      |q.y - (exactQuat φ).y| ≤ √(sqLen φ) ^ 3 / 20 ∧
      |q.z - (exactQuat φ).z| ≤ √(sqLen φ) ^ 3 / 20 := by
  rw [exp_value hε he]
  have hr' : normSq φ * normSq φ ≤ ε := by rw [← sqLen_eq]; nlinarith
  rw [expRel_small hr']
  refine ⟨_, rfl, ?_⟩
  have hθ : sqLen φ = √(normSq φ) ^ 2 := by
    rw [sqLen_eq]; exact (Real.sq_sqrt (normSq_nonneg φ)).symm
  have hθ' : normSq φ = √(normSq φ) ^ 2 := (Real.sq_sqrt (normSq_nonneg φ)).symm
  have h0 : 0 ≤ √(normSq φ) := Real.sqrt_nonneg _
  have h1 : √(normSq φ) ≤ 1 := by
    rw [hθ'] at hr'
    by_contra hc
    push Not at hc
    nlinarith [mul_pos (show 0 < √(normSq φ) ^ 2 by positivity) (show 0 < √(normSq φ) ^ 2 by positivity),
      pow_lt_pow_left₀ hc (by norm_num) (n := 4) (by norm_num)]
  have hx := abs_le_sqrt_normSq φ
  unfold exactQuat
  rw [sqLen_eq]
  have hs := fun i => small_vec_bound h0 h1 (hx i)
  rw [← hθ'] at hs
  refine ⟨?_, hs 0, hs 1, hs 2⟩
  have hb := Real.cos_bound (x := √(normSq φ) / 2) (by rw [abs_of_nonneg (by linarith)]; linarith)
  rw [abs_of_nonneg (show 0 ≤ √(normSq φ) / 2 by linarith)] at hb
  change |1 - normSq φ / 8 - Real.cos (√(normSq φ) / 2)| ≤ _
  have p4 : 0 ≤ √(normSq φ) ^ 4 := by positivity
  have e : 1 - normSq φ / 8 = 1 - (√(normSq φ) / 2) ^ 2 / 2 := by
    linear_combination -1 / 8 * hθ'
  rw [e, abs_sub_comm]
  nlinarith

/-- **C07 (negation).** The vector part does not agree to fourth order, whatever the constant: the
sign of the cubic term is wrong (`+ angle²/48`). -/
theorem c07_fourth_order_false (hε : 0 < ε) :
    ¬ ∃ C : ℝ, ∀ φ : V3, sqLen φ ^ 2 ≤ ε → ∀ q : Quat,
      ((SExpr.un .exp (.leaf 1 0 (.vec .relrot))).value ε
        (fun _ τ => match τ with | .vec .relrot => φ | τ => demo 0 τ) = some ⟨.rot .quat, q⟩) →
      |q.x - (exactQuat φ).x| ≤ C * √(sqLen φ) ^ 4 := by
  rintro ⟨C, h⟩
  -- a small rotation about `x`
  obtain ⟨t, ht0, ht1, htε, htC⟩ : ∃ t : ℝ, 0 < t ∧ t ≤ 1 ∧ t ^ 4 ≤ ε ∧ C * t < 1 / 48 := by
    refine ⟨min 1 (min ε (1 / (48 * (|C| + 1)) / 2)), ?_, ?_, ?_, ?_⟩
    · positivity
    · exact min_le_left _ _
    · have a : min 1 (min ε (1 / (48 * (|C| + 1)) / 2)) ≤ 1 := min_le_left _ _
      have b : min 1 (min ε (1 / (48 * (|C| + 1)) / 2)) ≤ ε := (min_le_right _ _).trans (min_le_left _ _)
      have c : 0 ≤ min 1 (min ε (1 / (48 * (|C| + 1)) / 2)) := by positivity
      set m := min 1 (min ε (1 / (48 * (|C| + 1)) / 2))
      calc m ^ 4 = m * m ^ 3 := by ring
        _ ≤ m * 1 := mul_le_mul_of_nonneg_left (pow_le_one₀ c a) c
        _ ≤ ε := by linarith
    · have b : min 1 (min ε (1 / (48 * (|C| + 1)) / 2)) ≤ 1 / (48 * (|C| + 1)) / 2 :=
        (min_le_right _ _).trans (min_le_right _ _)
      have c : 0 ≤ min 1 (min ε (1 / (48 * (|C| + 1)) / 2)) := by positivity
      have d : 0 < |C| + 1 := by positivity
      calc C * min 1 (min ε (1 / (48 * (|C| + 1)) / 2))
          ≤ (|C| + 1) * min 1 (min ε (1 / (48 * (|C| + 1)) / 2)) :=
            mul_le_mul_of_nonneg_right (by linarith [le_abs_self C]) c
        _ ≤ (|C| + 1) * (1 / (48 * (|C| + 1)) / 2) := mul_le_mul_of_nonneg_left b d.le
        _ = 1 / 96 := by field_simp; norm_num
        _ < 1 / 48 := by norm_num
  have hn : sqLen ![t, 0, 0] = t ^ 2 := by simp [sqLen, dotProduct, Fin.sum_univ_three]; ring
  have hs : √(sqLen ![t, 0, 0]) = t := by rw [hn]; exact Real.sqrt_sq ht0.le
  have hsm : normSq ![t, 0, 0] * normSq ![t, 0, 0] ≤ ε := by
    rw [← sqLen_eq, hn]; linarith [show t ^ 2 * t ^ 2 = t ^ 4 by ring]
  have key := h ![t, 0, 0] (by rw [hn]; linarith [show (t ^ 2) ^ 2 = t ^ 4 by ring]) _ (by
    rw [exp_value hε (φ := ![t, 0, 0]) (Means.leaf 1 0 (.vec .relrot) trivial), expRel_small hsm]
    rfl)
  rw [hs, ← sqLen_eq, hn] at key
  change |(1 / 2 + t ^ 2 / 48) * t - (exactQuat ![t, 0, 0]).x| ≤ _ at key
  unfold exactQuat at key
  rw [hs] at key
  change |(1 / 2 + t ^ 2 / 48) * t - Real.sin (t / 2) / t * t| ≤ _ at key
  rw [div_mul_cancel₀ _ ht0.ne'] at key
  have hsin : Real.sin (t / 2) ≤ t / 2 := Real.sin_le (by linarith)
  have h1 := le_trans (le_abs_self _) key
  have h2 : t ^ 3 / 48 ≤ C * t * t ^ 3 := by nlinarith
  have h3 : 0 < t ^ 3 := by positivity
  nlinarith

/-- **C07 (negation).** The quaternion returned in the small-angle branch is never a unit quaternion,
except at zero: its squared norm is `1 + 7/192 a² + a³/2304`, `a = |φ|²`. -/
theorem c07_small_not_unit (hε : 0 < ε) {φ : V3} (he : Means ε s e (.vec .relrot φ))
    (hr : sqLen φ ^ 2 ≤ ε) (h0 : φ ≠ 0) :
    ∃ q : Quat, (SExpr.un .exp e).value ε s = some ⟨.rot .quat, q⟩ ∧ ¬ ValidRot .quat q ∧
      q.w ^ 2 + q.x ^ 2 + q.y ^ 2 + q.z ^ 2 = 1 + 7 / 192 * sqLen φ ^ 2 + sqLen φ ^ 3 / 2304 := by
  rw [exp_value hε he, expRel_small (by rw [← sqLen_eq]; nlinarith)]
  have e : (Quat.ofVec (1 - normSq φ / 8) ((1 / 2 + normSq φ / 48) • φ)).w ^ 2 +
      (Quat.ofVec (1 - normSq φ / 8) ((1 / 2 + normSq φ / 48) • φ)).x ^ 2 +
      (Quat.ofVec (1 - normSq φ / 8) ((1 / 2 + normSq φ / 48) • φ)).y ^ 2 +
      (Quat.ofVec (1 - normSq φ / 8) ((1 / 2 + normSq φ / 48) • φ)).z ^ 2 =
      1 + 7 / 192 * sqLen φ ^ 2 + sqLen φ ^ 3 / 2304 := by
    rw [ofVec_normSq, normSq_smul, sqLen_eq]; ring
  refine ⟨_, rfl, ?_, e⟩
  intro hv
  have hu := (validRot_quat _).mp hv
  unfold Quat.IsUnit at hu
  rw [hu] at e
  have hp : 0 < sqLen φ := by
    rw [sqLen_eq]; exact lt_of_le_of_ne (normSq_nonneg φ) (normSq_ne h0).symm
  nlinarith [pow_pos hp 2, pow_pos hp 3]

/-! ### Logarithm of rotations -/

theorem sqLen_gt_of_sq {φ : V3} (hε1 : ε ≤ 1) (h : φ = 0 ∨ ε < sqLen φ ^ 2) : φ = 0 ∨ ε < sqLen φ := by
  rcases h with h | h
  · exact Or.inl h
  · right
    have h0 : 0 ≤ sqLen φ := by rw [sqLen_eq]; exact normSq_nonneg φ
    by_contra hc
    push Not at hc
    nlinarith

/-- **C08.** `log(exp(φ)) = φ` for `|φ| < π` outside the small-angle region. -/
theorem c08_log_exp (hε : 0 < ε) (hε1 : ε ≤ 1) {φ : V3} (he : Means ε s e (.vec .relrot φ))
    (hπ : sqLen φ < Real.pi ^ 2) (hr : φ = 0 ∨ ε < sqLen φ ^ 2) :
    Yields ε s (.un .log (.un .exp e)) (.vec .relrot φ) :=
  c01_evaluation_meaning hε (.logRot (.expRot he hr) hπ (sqLen_gt_of_sq hε1 hr))

/-- A rotation that is not a half-turn has a rotation vector shorter than `π`, of length its
angle. -/
theorem exists_rotvec {R : M3} (hR : IsRotation R) (h : angle R ≠ Real.pi) :
    ∃ φ : V3, R = NormedSpace.exp (hat φ) ∧ sqLen φ < Real.pi ^ 2 ∧ sqLen φ = angle R ^ 2 ∧
      (R = 1 ↔ φ = 0) := by
  by_cases h1 : R = 1
  · refine ⟨0, by rw [h1, ← rodr_exp, rodr_zero], ?_, ?_, by simp [h1]⟩
    · simp [sqLen, Real.pi_pos]
    · rw [h1]
      simp [sqLen, angle, Matrix.trace, Fin.sum_univ_three]
      norm_num
  · have hc := angle_ne_pi h
    have ha : 0 < angle R := by
      rw [rotOfAngle]
      rcases (Real.arccos_nonneg (cosAngle R)).eq_or_lt with h' | h'
      · exfalso
        apply h1
        have h2 : cosAngle R = 1 := le_antisymm hR.cosAngle_le.2 (by
          have := Real.cos_arccos hR.cosAngle_le.1 hR.cosAngle_le.2
          rw [← h', Real.cos_zero] at this; exact this.le)
        have hax : axial R = 0 := normSq_eq_zero.mp (by rw [hR.normSq_axial, h2]; norm_num)
        have hr := hR.rodrigues
        rw [hax, crossMatrix_zero, h2] at hr
        have : (2 : ℝ) • (R - 1) = 0 := by
          rw [show (2 : ℝ) = 1 + 1 by norm_num]; simpa using hr
        have := (smul_eq_zero.mp this).resolve_left (by norm_num)
        exact sub_eq_zero.mp this
      · exact h'
    obtain ⟨v, -, hv, hlen, hrod⟩ := rodr_log (ε := angle R ^ 2 / 2) hR (by positivity) (by
      rw [← rotOfAngle]; nlinarith [pow_pos ha 2]) hc
    rw [← rotOfAngle] at hlen
    have hsq : sqLen v = angle R ^ 2 := by rw [sqLen_eq, ← hlen, Real.sq_sqrt (normSq_nonneg v)]
    refine ⟨v, by rw [← rodr_exp, hrod], ?_, hsq, by simp [h1, hv]⟩
    rw [hsq]
    have : angle R < Real.pi := lt_of_le_of_ne (Real.arccos_le_pi _) h
    nlinarith [Real.pi_pos]

/-- **C08 (partial).** `exp(log(R)) = R` for every valid rotation outside the small-angle region, in any
representation.  Missing: half-turns, where it is false (`c08_half_turn_fails`). -/
theorem c08_exp_log_partial (hε : 0 < ε) (hε1 : ε ≤ 1) {R : M3} (he : Means ε s e (.rot R))
    (hr : R = 1 ∨ ε < angle R ^ 4) (hπ : angle R ≠ Real.pi) :
    Yields ε s (.un .exp (.un .log e)) (.rot R) := by
  obtain ⟨φ, rfl, h1, h2, h3⟩ := exists_rotvec (Means.rotation_valid hε he) hπ
  have hr' : φ = 0 ∨ ε < sqLen φ ^ 2 := by
    rcases hr with h | h
    · exact Or.inl (h3.mp h)
    · exact Or.inr (by rw [h2]; calc ε < _ := h
        _ = _ := by ring)
  exact c01_evaluation_meaning hε (.expRot (.logRot he h1 (sqLen_gt_of_sq hε1 hr')) hr')

/-- **C08 (negation).** For every half-turn, in any representation, `log(R)` divides by `sin π = 0`: it
has no finite value, so neither has `exp(log(R))`. -/
theorem c08_half_turn_fails (hε : 0 < ε) (hε1 : ε ≤ 1) {R : M3} (he : Means ε s e (.rot R))
    (hπ : angle R = Real.pi) : (SExpr.un .log e).value ε s = none := by
  rw [log_value_rot hε he]
  have hR := Means.rotation_valid hε he
  have hc : cosAngle R = -1 := by
    rw [← Real.cos_arccos hR.cosAngle_le.1 hR.cosAngle_le.2, ← rotOfAngle, hπ, Real.cos_pi]
  rw [logMat_halfTurn (by nlinarith [Real.pi_gt_three]) hR hc]
  rfl

/-- **C08 (negation).** With floating-point `acos` and `sin`, where `sin(acos(-1))` is a small nonzero
number, the logarithm of *every* half-turn is the zero vector, so `exp(log(R))` is the identity. -/
theorem c08_half_turn_floating (acosF : ℝ → Option ℝ) (sinF : ℝ → ℝ) {a : ℝ}
    (ha : acosF (-1) = some a) (hs : sinF a ≠ 0) {R : M3} (hR : IsRotation R)
    (hπ : angle R = Real.pi) : logMatWith acosF sinF ε R = some 0 := by
  have hc : cosAngle R = -1 := by
    rw [← Real.cos_arccos hR.cosAngle_le.1 hR.cosAngle_le.2, ← rotOfAngle, hπ, Real.cos_pi]
  have hax : axial R = 0 := normSq_eq_zero.mp (by rw [hR.normSq_axial, hc]; norm_num)
  have hsym : R - Rᵀ = 0 := by
    have := crossMatrix_axial R
    rw [hax, crossMatrix_zero] at this
    have := (smul_eq_zero.mp this.symm).resolve_left (by norm_num)
    exact this
  have hu : ∀ k : ℝ, uncrossMatrix (k • (0 : M3)) = 0 := by intro k; vec3 [uncrossMatrix]
  unfold logMatWith
  have hc' : (R 0 0 + R 1 1 + R 2 2 - 1) / 2 = -1 := hc
  rw [hc', ha, hsym]
  simp only [rdiv, hu]
  rw [if_neg (mul_ne_zero two_ne_zero hs)]
  change (if a * a > ε then some 0 else some 0) = _
  split <;> rfl

/-- The result of `log` is the shortest rotation vector: its length is the rotation angle. -/
theorem c08_log_length (hε : 0 < ε) {R : M3} (he : Means ε s e (.rot R))
    (hr : R = 1 ∨ ε < angle R ^ 2) (hπ : angle R ≠ Real.pi) :
    ∃ φ : V3, Yields ε s (.un .log e) (.vec .relrot φ) ∧ √(sqLen φ) = angle R ∧
      R = NormedSpace.exp (hat φ) := by
  obtain ⟨φ, h0, h1, h2, h3⟩ := exists_rotvec (Means.rotation_valid hε he) hπ
  refine ⟨φ, c01_evaluation_meaning hε (.logRot (h0 ▸ he) h1 ?_), ?_, h0⟩
  · rcases hr with h | h
    · exact Or.inl (h3.mp h)
    · exact Or.inr (by rwa [h2])
  · rw [h2]; exact Real.sqrt_sq (Real.arccos_nonneg _)

/-! ### Rigid transforms -/

/-- The motion with a given twist exists and is unique. -/
theorem exists_exp_motion (ξ : Fin 3 ⊕ Fin 3 → ℝ) :
    ∃ T : Rigid, T.hom = NormedSpace.exp (twistMat ξ) :=
  ⟨⟨rodr (Twist.rot ξ), vmat (Twist.rot ξ) *ᵥ Twist.trans ξ⟩, (motion_exp_iff _ _).mpr ⟨rfl, rfl⟩⟩

/-- **C09.** `log(exp(ξ)) = ξ` for every twist with rotation angle zero or in the regular range. -/
theorem c09_log_exp (hε : 0 < ε) {ξ : Fin 3 ⊕ Fin 3 → ℝ} (he : Means ε s e (.vec .twist ξ))
    (hπ : sqLen (angular ξ) < Real.pi ^ 2) (hr : angular ξ = 0 ∨ ε < sqLen (angular ξ)) :
    Yields ε s (.un .log (.un .exp e)) (.vec .twist ξ) := by
  obtain ⟨T, hT⟩ := exists_exp_motion ξ
  exact c01_evaluation_meaning hε (.logMotion (.expMotion he hT hr) hT hπ hr)

/-- A rigid motion whose rotation is not a half-turn has a twist. -/
theorem exists_twist {T : Rigid} (hR : IsRotation T.R) (h : angle T.R ≠ Real.pi) :
    ∃ ξ : Fin 3 ⊕ Fin 3 → ℝ, T.hom = NormedSpace.exp (twistMat ξ) ∧
      sqLen (angular ξ) < Real.pi ^ 2 ∧ sqLen (angular ξ) = angle T.R ^ 2 ∧
      (T.R = 1 ↔ angular ξ = 0) := by
  obtain ⟨φ, h0, h1, h2, h3⟩ := exists_rotvec hR h
  obtain ⟨u, hu⟩ : ∃ u : V3, vmat φ *ᵥ u = T.t := by
    by_cases hφ : φ = 0
    · exact ⟨T.t, by rw [hφ, vmat_zero, one_mulVec]⟩
    · have hl : √(normSq φ) < Real.pi := lt_pi_of_sqLen h1
      refine ⟨vinv φ *ᵥ T.t, ?_⟩
      rw [Matrix.mulVec_mulVec, (vinv_mul_vmat hφ (cos_ne_of_lt_pi hφ hl)).2, Matrix.one_mulVec]
  refine ⟨Twist.mk φ u, (motion_exp_iff _ _).mpr ⟨by rw [h0, ← rodr_exp]; rfl, hu.symm⟩, h1, h2, h3⟩

/-- **C09.** `exp(log(T)) = T` for every rigid transform, in both storage classes, whose rotation is
the identity or has a regular angle. -/
theorem c09_exp_log (hε : 0 < ε) {T : Rigid} (he : Means ε s e (.motion T))
    (hr : T.R = 1 ∨ ε < angle T.R ^ 2) (hπ : angle T.R ≠ Real.pi) :
    Yields ε s (.un .exp (.un .log e)) (.motion T) := by
  obtain ⟨ξ, h0, h1, h2, h3⟩ := exists_twist (Means.motion_valid hε he) hπ
  have hr' : angular ξ = 0 ∨ ε < sqLen (angular ξ) := by
    rcases hr with h | h
    · exact Or.inl (h3.mp h)
    · exact Or.inr (by rwa [h2])
  exact c01_evaluation_meaning hε (.expMotion (.logMotion he h0 h1 hr') h0 hr')

/-- **C09 (outside the regular range).** In the small-angle branch the exponential of a twist with
nonzero rotation is *not* a rigid transform: its rotation block `I + [ω]` is never orthogonal. -/
theorem c09_small_twist_not_rigid (hε : 0 < ε) {ξ : Fin 3 ⊕ Fin 3 → ℝ}
    (he : Means ε s e (.vec .twist ξ)) (h0 : angular ξ ≠ 0) (hr : sqLen (angular ξ) ≤ ε) :
    ∃ m : M4, (SExpr.un .exp e).value ε s = some ⟨.rigid .mat, m⟩ ∧ ¬ ValidRigid .mat m := by
  obtain ⟨t, ht, hg⟩ := means_acc hε he
  obtain ⟨p, rfl, hp⟩ := hg.vec
  refine ⟨mk4 (1 + crossMatrix (Twist.rot ξ)) (Twist.trans ξ), ?_, ?_⟩
  · unfold SExpr.value
    rw [show (SExpr.un .exp e).elab ε = some ⟨.rigid .mat, Expr.un (L := geoLib ε) 0 .expTwist p⟩ by
      simp only [SExpr.elab, ht]; rfl]
    change (Expr.eval (L := geoLib ε) s (Expr.un (L := geoLib ε) 0 .expTwist p)).map _ = _
    rw [eval_un 0 .expTwist p hp]
    change (expTwist ε ξ).map _ = _
    rw [expTwist_small (x := ξ) (by rw [← sqLen_eq]; exact hr)]
    rfl
  · intro hv
    have hrot := ((validRigid_mat _).mp hv).1
    have hb : rotBlock (mk4 (1 + crossMatrix (Twist.rot ξ)) (Twist.trans ξ)) =
        1 + crossMatrix (Twist.rot ξ) := congrArg Rigid.R (den_mk4 _ _)
    rw [hb] at hrot
    have h1 := hrot.1
    rw [Matrix.transpose_add, Matrix.transpose_one, crossMatrix_transpose] at h1
    have h2 : crossMatrix (Twist.rot ξ) * crossMatrix (Twist.rot ξ) = 0 := by
      have : (1 + crossMatrix (Twist.rot ξ)) * (1 + -crossMatrix (Twist.rot ξ)) =
          1 - crossMatrix (Twist.rot ξ) * crossMatrix (Twist.rot ξ) := by noncomm_ring
      rw [this] at h1
      exact sub_eq_self.mp h1
    have h3 : Matrix.trace (crossMatrix (Twist.rot ξ) * crossMatrix (Twist.rot ξ)) =
        -2 * normSq (Twist.rot ξ) := by
      simp [crossMatrix, Matrix.trace, Fin.sum_univ_three, Matrix.mul_apply, normSq]; ring
    rw [h2] at h3
    exact normSq_ne (show Twist.rot ξ ≠ 0 from h0) (by simpa using h3.symm)

/-! ### Non-vacuity -/

theorem demo_rel_regular : dblEps < sqLen (demo 1 (.vec .relrot)) ^ 2 ∧
    sqLen (demo 1 (.vec .relrot)) < Real.pi ^ 2 := by
  have h1 := dblEps_lt
  have h2 := Real.pi_gt_three
  change dblEps < sqLen (fun _ => 1) ^ 2 ∧ sqLen (fun _ => 1) < _
  simp only [sqLen, dotProduct, Finset.sum_const, Finset.card_univ, Fintype.card_fin]
  constructor <;> norm_num <;> nlinarith

example : Yields dblEps demo (.un .log (.un .exp (lf (.vec .relrot)))) (.vec .relrot fun _ => 1) :=
  c08_log_exp dblEps_pos dblEps_lt.le (demo_means (.vec .relrot)) demo_rel_regular.2
    (Or.inr demo_rel_regular.1)

theorem demo_angle : angle (rotDen .mat (demo 1 (.rot .mat))) = Real.pi / 2 := by
  change angle !![0, -1, 0; 1, 0, 0; 0, 0, 1] = _
  simp [angle, Matrix.trace, Fin.sum_univ_three]

theorem demo_angle_regular : dblEps < angle (rotDen .mat (demo 1 (.rot .mat))) ^ 4 ∧
    angle (rotDen .mat (demo 1 (.rot .mat))) ≠ Real.pi := by
  have h1 := dblEps_lt
  have h2 := Real.pi_gt_three
  rw [demo_angle]
  constructor
  · have : (1 : ℝ) < Real.pi / 2 := by linarith
    have := one_lt_pow₀ this (n := 4) (by norm_num)
    linarith
  · linarith

example : Yields dblEps demo (.un .exp (.un .log (lf (.rot .mat))))
    (.rot !![0, -1, 0; 1, 0, 0; 0, 0, 1]) :=
  c08_exp_log_partial dblEps_pos dblEps_lt.le (demo_means (.rot .mat)) (Or.inr demo_angle_regular.1)
    demo_angle_regular.2

/-- A memory holding the half-turn about `z`. -/
noncomputable def demoHalf : Memory := fun a τ => match τ with
  | .rot .mat => (!![-1, 0, 0; 0, -1, 0; 0, 0, 1] : M3)
  | τ => demo a τ

theorem demoHalf_valid : IsRotation (!![-1, 0, 0; 0, -1, 0; 0, 0, 1] : M3) := by
  constructor
  · mat3 []
  · simp [Matrix.det_fin_three]

/-- The half-turn about `z` meets the hypotheses of `c08_half_turn_fails`. -/
example : (SExpr.un .log (lf (.rot .mat))).value dblEps demoHalf = none :=
  c08_half_turn_fails dblEps_pos dblEps_lt.le (Means.leaf _ _ (.rot .mat) demoHalf_valid) (by
    change angle !![-1, 0, 0; 0, -1, 0; 0, 0, 1] = _
    have : ((!![-1, 0, 0; 0, -1, 0; 0, 0, 1] : M3).trace - 1) / 2 = -1 := by
      rw [Matrix.trace_fin_three]; simp; norm_num
    rw [angle, this, Real.arccos_neg_one])

theorem demo_rigid_regular : dblEps < angle (rigidDen .mat (demo 1 (.rigid .mat))).R ^ 2 ∧
    angle (rigidDen .mat (demo 1 (.rigid .mat))).R ≠ Real.pi := by
  have e : (rigidDen .mat (demo 1 (.rigid .mat))).R = rotDen .mat (demo 1 (.rot .mat)) :=
    congrArg Rigid.R (den_mk4 _ _)
  rw [e, demo_angle]
  have h1 := dblEps_lt
  have h2 := Real.pi_gt_three
  constructor
  · nlinarith
  · linarith

example : ∃ T, Yields dblEps demo (.un .exp (.un .log (lf (.rigid .mat)))) (.motion T) :=
  ⟨_, c09_exp_log dblEps_pos (demo_means (.rigid .mat)) (Or.inr demo_rigid_regular.1)
    demo_rigid_regular.2⟩

example := c06_formula dblEps_pos (demo_means (.vec .relrot)) demo_rel_regular.1

example := c06_neg dblEps_pos (demo_means (.vec .relrot)) (.inr demo_rel_regular.1)

/-- Two radians about `z`. -/
example := c06_axis_angle (s := fun _ τ => match τ with | .vec .relrot => ((2 : ℝ) • ![0, 0, 1] : V3) | τ => demo 0 τ)
  dblEps_pos (n := ![0, 0, 1]) (t := 2) (by simp [sqLen, dotProduct, Fin.sum_univ_three])
  (Means.leaf 1 0 (.vec .relrot) trivial)
  (.inr (by norm_num; linarith [dblEps_lt]))

example : Yields dblEps demo (.un .exp (lf (.vec .relrot) - lf (.vec .relrot))) (.rot 1) := by
  have h := Means.subVec (demo_means (.vec .relrot)) (demo_means (.vec .relrot))
  rw [sub_self] at h
  exact c06_zero dblEps_pos h

/-- The turns by once and once more the same vector. -/
example := c06_add dblEps_pos (demo_means (.vec .scalar)) (demo_means (.vec .scalar))
  (demo_means (.vec .relrot)) (.inr (by
    change dblEps < sqLen ((1 : ℝ) • fun _ => 1) ^ 2
    rw [one_smul]; exact demo_rel_regular.1)) (.inr (by
    change dblEps < sqLen ((1 : ℝ) • fun _ => 1) ^ 2
    rw [one_smul]; exact demo_rel_regular.1)) (.inr (by
    change dblEps < sqLen (((1 : ℝ) + 1) • fun _ => 1) ^ 2
    simp [sqLen, dotProduct, Fin.sum_univ_three]
    norm_num; linarith [dblEps_lt]))

/-- A memory with a rotation vector and a twist in the small-angle branches. -/
noncomputable def demoSmall : Memory := fun a τ => match τ with
  | .vec .relrot => (![dblEps, 0, 0] : V3)
  | .vec .twist => (Sum.elim ![dblEps, 0, 0] ![1, 2, 3] : Fin 3 ⊕ Fin 3 → ℝ)
  | τ => demo a τ

theorem demoSmall_le : sqLen ![dblEps, 0, 0] ≤ dblEps ∧ sqLen ![dblEps, 0, 0] ^ 2 ≤ dblEps := by
  have h : sqLen ![dblEps, 0, 0] = dblEps * dblEps := by
    simp [sqLen, dotProduct, Fin.sum_univ_three]
  have h1 := dblEps_pos
  have h2 := dblEps_lt
  have h3 : dblEps * dblEps ≤ dblEps := by nlinarith
  rw [h]
  exact ⟨h3, by nlinarith [mul_pos h1 h1]⟩

theorem demoSmall_ne : (![dblEps, 0, 0] : V3) ≠ 0 := fun h => dblEps_pos.ne' (congrFun h 0)

example := c07_third_order_partial dblEps_pos dblEps_lt.le
  (Means.leaf (s := demoSmall) 1 0 (.vec .relrot) trivial) demoSmall_le.2

example := c07_small_not_unit dblEps_pos (Means.leaf (s := demoSmall) 1 0 (.vec .relrot) trivial)
  demoSmall_le.2 demoSmall_ne

example := c09_small_twist_not_rigid dblEps_pos (Means.leaf (s := demoSmall) 1 0 (.vec .twist) trivial)
  demoSmall_ne demoSmall_le.1

/-- A library whose `acos(-1)` is 3.14. -/
example := c08_half_turn_floating (ε := dblEps) (fun _ => some 3.14) Real.sin (a := 3.14) rfl
  (Real.sin_pos_of_pos_of_lt_pi (by norm_num) Real.pi_gt_d2).ne' demoHalf_valid (by
    have : ((!![-1, 0, 0; 0, -1, 0; 0, 0, 1] : M3).trace - 1) / 2 = -1 := by
      rw [Matrix.trace_fin_three]; simp; norm_num
    rw [angle, this, Real.arccos_neg_one])

example := c08_log_length dblEps_pos (demo_means (.rot .mat)) (.inr (by
  have h1 := dblEps_lt
  have h2 := Real.pi_gt_three
  rw [demo_angle]; nlinarith)) demo_angle_regular.2

theorem demo_twist_regular : sqLen (angular (demo 1 (.vec .twist))) < Real.pi ^ 2 ∧
    dblEps < sqLen (angular (demo 1 (.vec .twist))) := by
  have h1 := dblEps_lt
  have h2 := Real.pi_gt_three
  change sqLen (fun _ => 1) < _ ∧ _ < sqLen (fun _ => 1)
  simp only [sqLen, dotProduct, Finset.sum_const, Finset.card_univ, Fintype.card_fin]
  constructor <;> norm_num <;> nlinarith

example := c09_log_exp dblEps_pos (demo_means (.vec .twist)) demo_twist_regular.1
  (.inr demo_twist_regular.2)

end WG
