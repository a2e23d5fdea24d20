import Verif.Lemmas.RoundingLog
import Verif.Lemmas.RoundingOutcome
import Verif.Props.RoundingDiv
import Verif.Props.Fuzzy

/-!
# C74: the logarithm of a rotation matrix in floating-point arithmetic
-/

namespace WG
open Matrix Spec Round Real

variable {ε : ℝ} {F : Fl}

/-- Entries of the exponential, without a case distinction. -/
theorem exp_hat_rodr (φ : V3) : NormedSpace.exp (hat φ) = rodr φ := by
  by_cases h : φ = 0
  · rw [h, rodr_zero, hat_eq, crossMatrix_zero, NormedSpace.exp_zero]
  · exact (rodr_eq_exp h).symm

/-- **C74.** For a rotation through at most 120 degrees, every outcome of `log(R)` of a matrix whose
coefficients are within `η` of the rotation is within `21 η + 92 u + 32 m + 6 ε` of the rotation vector, in
every coefficient: whichever branch is taken, also if the argument of `std::acos` is rounded to a number
greater than one. -/
theorem c74_log (hu : F.u ≤ 1 / 1000) {m : ℝ} (hm : 0 ≤ m) (hm1 : m ≤ 1 / 1000) (hε : 0 < ε)
    (hε1 : ε ≤ 1 / 1000) {η : ℝ} (hη : η ≤ 1 / 1000) {φ : V3} (hφ : √(sqLen φ) ≤ 2 * π / 3) {M : M3}
    (hM : ∀ i j, |M i j - (NormedSpace.exp (hat φ) : M3) i j| ≤ η) {ψ : V3} (h : FlLog F m ε M ψ) (i : Fin 3) :
    |ψ i - φ i| ≤ 21 * η + 92 * F.u + 32 * m + 6 * ε :=
  Round.log_near hu hm hm1 hε hε1 hη hφ (fun i j => by rw [← exp_hat_rodr]; exact hM i j) h i

/-- **C74.** In double precision, of a matrix whose coefficients are the rounded ones of the rotation. -/
theorem c74_double {φ : V3} (hφ : √(sqLen φ) ≤ 2 * π / 3) {M : M3}
    (hM : ∀ i j, M i j = (ieee 52).rnd ((NormedSpace.exp (hat φ) : M3) i j)) {ψ : V3}
    (h : FlLog (ieee 52) (1 / 2 ^ 52) (1 / 2 ^ 52) M ψ) (i : Fin 3) : |ψ i - φ i| ≤ 95 / 2 ^ 52 := by
  have hu := ieee52_u
  refine (c74_log (F := ieee 52) (by rw [hu]; norm_num) (by norm_num) (by norm_num) (by norm_num) (by norm_num)
    (η := 1 / 2 ^ 53) (by norm_num) hφ (fun i j => ?_) h i).trans ?_
  · rw [hM]
    refine ((ieee 52).err _).trans ?_
    rw [hu]
    have : |(NormedSpace.exp (hat φ) : M3) i j| ≤ 1 := by
      rw [exp_hat_rodr]
      exact abs_entry_le (rodr_rotation φ) i j
    linarith
  · rw [hu]
    norm_num

/-- **C74.** Whatever the matrix, `log` has an outcome: no division by zero is forced. -/
theorem c74_exists (hε : 0 ≤ ε) (hu : F.u < 1) {m : ℝ} (hm : 0 < m) (hm1 : m ≤ 1) (M : M3) : ∃ ψ, FlLog F m ε M ψ := by
  obtain ⟨t, ht⟩ := flSum_exists (F := F) [(M 0 0, 1), (M 1 1, 1), (M 2 2, 1)] (by simp)
  set c := F.rnd (F.rnd (t - 1) / 2) with hc
  by_cases hd : -1 ≤ c ∧ c ≤ 1
  · have t0 := arccos_nonneg c
    have t1 := arccos_le_pi c
    have key : |(1 - m) * arccos c - arccos c| ≤ m * |arccos c| := by
      rw [show (1 - m) * arccos c - arccos c = -(m * arccos c) by ring, abs_neg, abs_mul, abs_of_pos hm]
    by_cases hb : ε < F.rnd ((1 - m) * arccos c * ((1 - m) * arccos c))
    · by_cases h0 : F.rnd (2 * sin ((1 - m) * arccos c)) = 0
      · -- the sine is zero: the angle is zero
        have hs : sin ((1 - m) * arccos c) = 0 := by
          by_contra hne
          have e := F.err (2 * sin ((1 - m) * arccos c))
          rw [h0, zero_sub, abs_neg] at e
          have : 0 < |2 * sin ((1 - m) * arccos c)| := abs_pos.2 (by simpa using hne)
          nlinarith
        have ha : (1 - m) * arccos c = 0 := by
          by_contra hne
          have p : 0 ≤ (1 - m) * arccos c := mul_nonneg (by linarith) t0
          have q : (1 - m) * arccos c < π := by nlinarith [pi_pos]
          exact absurd hs (sin_pos_of_pos_of_lt_pi (lt_of_le_of_ne p (Ne.symm hne)) q).ne'
        rw [ha, mul_zero, rnd_zero] at hb
        exact absurd hb (not_lt.2 hε)
      · exact ⟨_, t, c, ht, hc, Or.inr ⟨hd, _, key, by
          rw [if_pos hb]
          exact ⟨_, by rw [sub_self, abs_zero]; positivity, h0, rfl⟩⟩⟩
    · exact ⟨_, t, c, ht, hc, Or.inr ⟨hd, _, key, by rw [if_neg hb]⟩⟩
  · exact ⟨_, t, c, ht, hc, Or.inl ⟨hd, rfl⟩⟩

/-- **C74.** Without rounding errors the outcomes are the values of the model of C17. -/
theorem c74_exact (hu : F.u = 0) (M : M3) (ψ : V3) : FlLog F 0 ε M ψ ↔ logMat ε M = some ψ := by
  have hr := rnd_exact hu
  have hk : ∀ k, flSkew F k M = uncrossMatrix (k • (M - Mᵀ)) := by
    intro k
    unfold flSkew
    congr 1
    ext i j
    simp [hr]
  have hs : ∀ t, FlSum F [(M 0 0, 1), (M 1 1, 1), (M 2 2, 1)] t ↔ t = M 0 0 + M 1 1 + M 2 2 := by
    intro t
    have h1 : ∀ {t}, FlSum F [(M 0 0, 1), (M 1 1, 1), (M 2 2, 1)] t → t = M 0 0 + M 1 1 + M 2 2 := by
      intro t h
      have := flSum_err h
      rw [growth_zero hu, zero_mul, abs_nonpos_iff, sub_eq_zero] at this
      rw [this]
      simp [sumOf]
      ring
    refine ⟨h1, fun h => ?_⟩
    obtain ⟨z, hz⟩ := flSum_exists (F := F) [(M 0 0, 1), (M 1 1, 1), (M 2 2, 1)] (by simp)
    rw [h, ← h1 hz]
    exact hz
  unfold FlLog logMat logMatWith racos
  simp only [hr, hs, hk]
  constructor
  · rintro ⟨t, c, rfl, rfl, h⟩
    rcases h with ⟨hd, rfl⟩ | ⟨hd, a, ha, h⟩
    · rw [if_neg hd]
    · rw [if_pos hd]
      rw [zero_mul, abs_nonpos_iff, sub_eq_zero] at ha
      subst ha
      simp only [gt_iff_lt]
      split_ifs at h ⊢ with hb
      · obtain ⟨sa, hsa, h0, rfl⟩ := h
        rw [zero_mul, abs_nonpos_iff, sub_eq_zero] at hsa
        subst hsa
        simp [rdiv, h0]
      · rw [h]
  · intro h
    refine ⟨_, _, rfl, rfl, ?_⟩
    split_ifs at h with hd
    · right
      refine ⟨hd, _, by rw [sub_self, abs_zero, zero_mul], ?_⟩
      simp only [gt_iff_lt] at h
      split_ifs at h ⊢ with hb
      · obtain ⟨k, hk, h⟩ := Option.bind_eq_some_iff.mp h
        unfold rdiv at hk
        split_ifs at hk with h0
        exact ⟨_, by rw [sub_self, abs_zero, zero_mul], h0, by
          rw [Option.some.inj hk]; exact (Option.some.inj h).symm⟩
      · exact (Option.some.inj h).symm
    · exact Or.inl ⟨hd, (Option.some.inj h).symm⟩

/-- **C74.** The bound on the angle is needed: the only outcome for a symmetric matrix, such as an exact half
turn, is zero, at distance `π` from the logarithms of the half turn. -/
theorem c74_symmetric {m : ℝ} {M : M3} (hM : Mᵀ = M) {ψ : V3} (h : FlLog F m ε M ψ) : ψ = 0 := by
  have hk : ∀ k, flSkew F k M = 0 := by
    intro k
    unfold flSkew
    ext i
    have : ∀ i j, M i j - M j i = 0 := fun i j => by
      rw [sub_eq_zero]
      exact (congrFun (congrFun hM j) i).trans rfl
    fin_cases i <;> simp [uncrossMatrix, this, rnd_zero]
  obtain ⟨t, c, -, -, ⟨-, rfl⟩ | ⟨-, a, -, h⟩⟩ := h
  · exact hk _
  · split_ifs at h with hb
    · obtain ⟨sa, -, -, rfl⟩ := h
      exact hk _
    · rw [h]
      exact hk _

/-- `exp(φ)`, converted to the rotation matrix on which `log` works. -/
noncomputable def expMatOf (ε : ℝ) (a : ℕ) : Expr (geoLib ε) (.rot .mat) :=
  Expr.un (L := geoLib ε) 0 (Un.convRot .quat .mat) (expOf ε a)

/-- `log` of the computed exponential, given the error of the exponential. -/
theorem log_of_exp {φ : V3} (hφ : √(sqLen φ) ≤ 2 * π / 3) {q : Quat} {d : ℝ} (hd : d ≤ 1 / 2 ^ 40)
    (hq : len (coeffs q - coeffs (trueExp φ)) ≤ d) {M : M3} (hM : FlToMatrix (ieee 52) q M) {ψ : V3}
    (h : FlLog (ieee 52) (1 / 2 ^ 52) (1 / 2 ^ 52) M ψ) (i : Fin 3) : |ψ i - φ i| ≤ 211 * d + 1 / 2 ^ 43 := by
  have hu := ieee52_u
  have d0 : 0 ≤ d := (len_nonneg _).trans hq
  obtain ⟨hunit, hmat⟩ := c68_exp_meaning φ
  obtain ⟨-, -, hf⟩ := conv_near (F := ieee 52) hunit (A := 1 + d) (by linarith) (by linarith) hM
  have hg : growth (ieee 52).u 4 ≤ 5 / 2 ^ 53 := by
    unfold growth
    rw [hu]
    norm_num
  have hb : convFactor (ieee 52).u (1 + d) - 1 ≤ 1001 / 100 * d + 31 / 2 ^ 53 := by
    have g0 := growth_nonneg (ieee 52) 4
    unfold convFactor
    have h2 : d * d ≤ d * (1 / 2 ^ 40) := mul_le_mul_of_nonneg_left hd d0
    have h3 : growth (ieee 52).u 4 * (1 + d) ^ 2 ≤ 5 / 2 ^ 53 * (1 + 1 / 2 ^ 40) ^ 2 :=
      mul_le_mul hg (pow_le_pow_left₀ (by linarith) (by linarith) 2) (by positivity) (by positivity)
    norm_num at h2 h3 ⊢
    nlinarith
  refine (c74_log (F := ieee 52) (by rw [hu]; norm_num) (by norm_num) (by norm_num) (by norm_num) (by norm_num)
    (η := 1001 / 100 * d + 31 / 2 ^ 53) ?_ hφ (fun i j => ?_) h i).trans ?_
  · norm_num at hd ⊢
    linarith
  · rw [← hmat]
    exact (abs_le_len (fun p : Fin 3 × Fin 3 => (M - (trueExp φ).toMatrix) p.1 p.2) (i, j)).trans (hf.trans hb)
  · rw [hu]
    norm_num
    linarith

/-- **C74.** `log(exp(φ))` in double precision, through the quaternion that `exp` returns and the matrix it is
converted to: within `2⁻³⁴` of `φ` in every coefficient. -/
theorem c74_round_trip (s : Store (geoLib (1 / 2 ^ 52))) (a : ℕ)
    (hφ : √(sqLen (s a (.vec .relrot) : V3)) ≤ 2 * π / 3) {M : M3}
    (hM : ComputesD (ieee 52) (1 / 2 ^ 52) s (expMatOf (1 / 2 ^ 52) a) M) {ψ : V3}
    (h : FlLog (ieee 52) (1 / 2 ^ 52) (1 / 2 ^ 52) M ψ) (i : Fin 3) :
    |ψ i - (s a (.vec .relrot) : V3) i| ≤ 1 / 2 ^ 34 := by
  obtain ⟨q, hq, hM⟩ := hM
  have h1 := c68_exp s a hq
  have hl : len (s a (.vec .relrot) : Fin 3 → ℝ) ≤ 21 / 10 := by
    have := pi_lt_d2
    refine le_trans (le_of_eq ?_) (hφ.trans (by linarith))
    unfold len sqLen
    congr 1
  refine (log_of_exp hφ (d := 1 / 2 ^ 42 + 1 / 2 ^ 47) (by norm_num) (h1.trans ?_) hM h i).trans (by norm_num)
  norm_num
  linarith

/-- **C74.** If the rotation is not among the small ones for which `exp` uses the series, within `2⁻³⁹`. -/
theorem c74_round_trip_large (s : Store (geoLib (1 / 2 ^ 52))) (a : ℕ)
    (hφ : √(sqLen (s a (.vec .relrot) : V3)) ≤ 2 * π / 3)
    (hl : 1 / 2 ^ 50 ≤ len (s a (.vec .relrot) : Fin 3 → ℝ) ^ 4) {M : M3}
    (hM : ComputesD (ieee 52) (1 / 2 ^ 52) s (expMatOf (1 / 2 ^ 52) a) M) {ψ : V3}
    (h : FlLog (ieee 52) (1 / 2 ^ 52) (1 / 2 ^ 52) M ψ) (i : Fin 3) :
    |ψ i - (s a (.vec .relrot) : V3) i| ≤ 1 / 2 ^ 39 := by
  obtain ⟨q, hq, hM⟩ := hM
  have h1 := c68_exp_large s a hl hq
  have hl : len (s a (.vec .relrot) : Fin 3 → ℝ) ≤ 21 / 10 := by
    have := pi_lt_d2
    refine le_trans (le_of_eq ?_) (hφ.trans (by linarith))
    unfold len sqLen
    congr 1
  refine (log_of_exp hφ (d := 31 / 10 / 2 ^ 49) (by norm_num) (h1.trans ?_) hM h i).trans (by norm_num)
  norm_num
  linarith

/-- Non-vacuity: a quarter turn about the third axis, given by its exact matrix. -/
example : √(sqLen (![0, 0, π / 2] : V3)) ≤ 2 * π / 3 ∧
    (∃ ψ, FlLog (ieee 52) (1 / 2 ^ 52) (1 / 2 ^ 52) (NormedSpace.exp (hat ![0, 0, π / 2])) ψ) ∧
    ∀ ψ, FlLog (ieee 52) (1 / 2 ^ 52) (1 / 2 ^ 52) (NormedSpace.exp (hat ![0, 0, π / 2])) ψ →
      |ψ 2 - π / 2| ≤ 84 / 2 ^ 52 := by
  have hp := pi_pos
  have hu := ieee52_u
  have h1 : √(sqLen (![0, 0, π / 2] : V3)) ≤ 2 * π / 3 := by
    have : sqLen (![0, 0, π / 2] : V3) = (π / 2) ^ 2 := by simp [sqLen]; ring
    rw [this, Real.sqrt_sq (by positivity)]
    linarith
  refine ⟨h1, c74_exists (by norm_num) (by rw [hu]; norm_num) (by norm_num) (by norm_num) _, fun ψ h => ?_⟩
  refine (c74_log (F := ieee 52) (by rw [hu]; norm_num) (by norm_num) (by norm_num) (by norm_num) (by norm_num)
    (η := 0) (by norm_num) h1 (fun i j => by rw [sub_self, abs_zero]) h 2).trans ?_
  rw [hu]
  norm_num

/-- Non-vacuity: the exact half turn about the first axis is symmetric and its logarithm has an outcome,
which is zero. -/
example : (∃ ψ, FlLog (ieee 52) (1 / 2 ^ 52) (1 / 2 ^ 52) !![1, 0, 0; 0, -1, 0; 0, 0, -1] ψ) ∧
    (∀ ψ, FlLog (ieee 52) (1 / 2 ^ 52) (1 / 2 ^ 52) !![1, 0, 0; 0, -1, 0; 0, 0, -1] ψ → ψ = 0) ∧
    NormedSpace.exp (hat ![π, 0, 0]) = (!![1, 0, 0; 0, -1, 0; 0, 0, -1] : M3) := by
  have hu := ieee52_u
  refine ⟨c74_exists (by norm_num) (by rw [hu]; norm_num) (by norm_num) (by norm_num) _,
    fun ψ h => c74_symmetric ?_ h, ?_⟩
  · ext i j
    fin_cases i <;> fin_cases j <;> rfl
  · rw [exp_hat_rodr]
    have hp := pi_pos
    have h1 : normSq (![π, 0, 0] : V3) = π ^ 2 := by simp [normSq]; ring
    rw [rodr, h1, Real.sqrt_sq hp.le, sin_pi, cos_pi]
    ext i j
    fin_cases i <;> fin_cases j <;> simp [crossMatrix, Matrix.mul_apply, Fin.sum_univ_three] <;>
      field_simp <;> norm_num

end WG
