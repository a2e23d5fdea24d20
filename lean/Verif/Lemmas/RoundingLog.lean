import Verif.Model.RoundingLog
import Verif.Lemmas.Rounding
import Verif.Lemmas.Expression
import Mathlib.Analysis.SpecialFunctions.Trigonometric.Sinc
import Mathlib.Analysis.SpecialFunctions.Trigonometric.Bounds
import Mathlib.Analysis.Calculus.Deriv.MeanValue
import Mathlib.Analysis.Real.Pi.Bounds

/-! # Rounding errors of the logarithm of a rotation matrix -/

namespace WG.Round
open Matrix Spec Real

/-- The factor of the logarithm, `x / (2 sin x)`, extended to zero. -/
noncomputable def logFactor (x : ℝ) : ℝ := 1 / (2 * sinc x)

theorem logFactor_zero : logFactor 0 = 1 / 2 := by simp [logFactor]

theorem logFactor_of_ne {x : ℝ} (h : x ≠ 0) : logFactor x = x / (2 * sin x) := by
  rw [logFactor, sinc_of_ne_zero h]
  by_cases hs : sin x = 0
  · simp [hs]
  · field_simp

theorem sinc_pos' {x : ℝ} (h0 : 0 ≤ x) (h1 : x < π) : 0 < sinc x := by
  rcases h0.eq_or_lt with rfl | h
  · simp
  · rw [sinc_of_ne_zero h.ne']
    exact div_pos (sin_pos_of_pos_of_lt_pi h h1) h

/-- Away from the half turn, lower bound of the sine past the right angle. -/
theorem sin_ge {x : ℝ} (h0 : 0 ≤ x) (h1 : x < π) (hc : -(33 / 50) ≤ cos x) (h2 : cos x ≤ 0) : 3 / 4 ≤ sin x := by
  have h3 := sin_sq_add_cos_sq x
  have h4 : 0 ≤ sin x := sin_nonneg_of_nonneg_of_le_pi h0 h1.le
  by_contra h
  push Not at h
  nlinarith

theorem slope_bound {x : ℝ} (h0 : 0 < x) (h1 : x < π) (hc : -(33 / 50) ≤ cos x) :
    |sin x - x * cos x| ≤ 8 * sin x ^ 3 := by
  have hp := pi_lt_d2
  have hp3 := pi_gt_three
  have hs := sin_pos_of_pos_of_lt_pi h0 h1
  have hsx := (sin_lt h0).le
  rcases le_total x (π / 2) with h2 | h2
  · have a1 := mul_le_sin h0.le h2
    have a2 := one_sub_sq_div_two_le_cos (x := x)
    have a3 : 0 ≤ sin x - x * cos x := by
      have hcos := cos_nonneg_of_mem_Icc ⟨by linarith, h2⟩
      rcases h2.eq_or_lt with h2 | h2
      · rw [h2]; simp
      · have hcp := cos_pos_of_mem_Ioo ⟨by linarith, h2⟩
        have := (le_tan h0.le h2)
        rw [tan_eq_sin_div_cos, le_div_iff₀ hcp] at this
        linarith
    rw [abs_of_nonneg a3]
    have a4 : sin x - x * cos x ≤ x ^ 3 / 2 := by nlinarith
    have a5 : x * (100 / 158) ≤ sin x := by
      refine le_trans ?_ a1
      rw [mul_comm]
      refine mul_le_mul_of_nonneg_right ?_ h0.le
      rw [le_div_iff₀ pi_pos]; nlinarith
    have a6 : (x * (100 / 158)) ^ 3 ≤ sin x ^ 3 := pow_le_pow_left₀ (by positivity) a5 3
    have : 0 < x ^ 3 := by positivity
    nlinarith
  · have hcn : cos x ≤ 0 := cos_nonpos_of_pi_div_two_le_of_le h2 (by linarith)
    have b1 := sin_ge h0.le h1 hc hcn
    have b2 := sin_le_one x
    have b3 : (3 / 4 : ℝ) ^ 3 ≤ sin x ^ 3 := pow_le_pow_left₀ (by norm_num) b1 3
    rw [abs_of_nonneg (by nlinarith)]
    nlinarith

/-- The factor is Lipschitz as a function of the cosine. -/
theorem logFactor_lip {a b : ℝ} (ha : 0 ≤ a) (hb : 0 ≤ b) (ha' : a < π) (hb' : b < π)
    (ca : -(33 / 50) ≤ cos a) (cb : -(33 / 50) ≤ cos b) :
    |logFactor a - logFactor b| ≤ 4 * |cos a - cos b| := by
  wlog hab : a ≤ b generalizing a b
  · rw [abs_sub_comm, abs_sub_comm (cos a)]
    exact this hb ha hb' ha' cb ca (le_of_not_ge hab)
  rcases hab.eq_or_lt with rfl | hab
  · simp
  have hcont : ContinuousOn logFactor (Set.Icc a b) := by
    intro x hx
    refine ContinuousAt.continuousWithinAt ?_
    have := sinc_pos' (ha.trans hx.1) (hx.2.trans_lt hb')
    exact ContinuousAt.div continuousAt_const (continuousAt_const.mul continuous_sinc.continuousAt) (by positivity)
  have hder : ∀ x ∈ Set.Ioo a b, HasDerivAt logFactor ((sin x - x * cos x) / (2 * sin x ^ 2)) x := by
    intro x hx
    have hx0 : 0 < x := ha.trans_lt hx.1
    have hs := sin_pos_of_pos_of_lt_pi hx0 (hx.2.trans hb')
    have h1 : HasDerivAt (fun y : ℝ => y / (2 * sin y))
        ((1 * (2 * sin x) - x * (2 * cos x)) / (2 * sin x) ^ 2) x :=
      (hasDerivAt_id x).div ((hasDerivAt_sin x).const_mul 2) (by positivity)
    refine (h1.congr_of_eventuallyEq ?_).congr_deriv ?_
    · filter_upwards [eventually_ne_nhds hx0.ne'] with y hy using logFactor_of_ne hy
    · field_simp
  obtain ⟨x, hx, he⟩ := exists_ratio_hasDerivAt_eq_ratio_slope cos (fun x => -sin x) hab
    continuous_cos.continuousOn (fun x _ => hasDerivAt_cos x) logFactor _ hcont hder
  have hx0 : 0 < x := ha.trans_lt hx.1
  have hx1 := hx.2.trans hb'
  have hs := sin_pos_of_pos_of_lt_pi hx0 hx1
  have hcx : -(33 / 50) ≤ cos x := cb.trans (cos_le_cos_of_nonneg_of_le_pi hx0.le hb'.le hx.2.le)
  have hsl := slope_bound hx0 hx1 hcx
  have he' := congrArg abs he
  rw [abs_mul, abs_mul, abs_neg, abs_of_pos hs, abs_div, abs_of_pos (by positivity : 0 < 2 * sin x ^ 2)] at he'
  rw [abs_sub_comm, abs_sub_comm (cos a)]
  have h2 : |logFactor b - logFactor a| * sin x ≤ (4 * |cos b - cos a|) * sin x := by
    rw [he']
    have : |sin x - x * cos x| / (2 * sin x ^ 2) ≤ 4 * sin x := by
      rw [div_le_iff₀ (by positivity)]
      nlinarith
    nlinarith [abs_nonneg (cos b - cos a)]
  exact le_of_mul_le_mul_right h2 hs

theorem logFactor_le {a : ℝ} (ha : 0 ≤ a) (ha' : a < π) (ca : -(33 / 50) ≤ cos a) :
    0 < logFactor a ∧ logFactor a ≤ 21 / 10 := by
  have hp := pi_lt_d2
  have h0 := sinc_pos' ha ha'
  refine ⟨by unfold logFactor; positivity, ?_⟩
  rcases ha.eq_or_lt with rfl | h
  · rw [logFactor_zero]; norm_num
  have hs := sin_pos_of_pos_of_lt_pi h ha'
  rw [logFactor_of_ne h.ne', div_le_iff₀ (by positivity)]
  rcases le_total a (π / 2) with h2 | h2
  · have a1 := mul_le_sin h.le h2
    have a5 : a * (100 / 158) ≤ sin a := by
      refine le_trans ?_ a1
      rw [mul_comm]
      refine mul_le_mul_of_nonneg_right ?_ h.le
      rw [le_div_iff₀ pi_pos]; nlinarith
    nlinarith
  · have b1 := sin_ge h.le ha' ca (cos_nonpos_of_pi_div_two_le_of_le h2 (by linarith))
    nlinarith

theorem abs_entry_le {R : M3} (h : IsRotation R) (i j : Fin 3) : |R i j| ≤ 1 := by
  have h1 := congrFun (congrFun h.1 i) i
  rw [Matrix.mul_apply, Matrix.one_apply_eq, Fin.sum_univ_three] at h1
  simp only [Matrix.transpose_apply] at h1
  rw [abs_le_one_iff_mul_self_le_one]
  fin_cases j <;> simp only [Fin.mk_zero, Fin.mk_one, Fin.reduceFinMk] <;>
    nlinarith [mul_self_nonneg (R i 0), mul_self_nonneg (R i 1), mul_self_nonneg (R i 2)]

/-- The rotation vector, from the antisymmetric part of its exponential. -/
theorem true_log {φ : V3} (hπ : √(sqLen φ) < π) :
    φ = logFactor √(sqLen φ) • uncrossMatrix (rodr φ - (rodr φ)ᵀ) := by
  have h : uncrossMatrix (rodr φ - (rodr φ)ᵀ) = (2 * sinc √(sqLen φ)) • φ := by
    have h1 := axial_rodr φ
    have h2 : uncrossMatrix (rodr φ - (rodr φ)ᵀ) = (2 : ℝ) • axial (rodr φ) := by
      ext i
      fin_cases i <;> simp [axial, uncrossMatrix] <;> ring
    rw [h2, h1, smul_smul]
    by_cases h0 : φ = 0
    · rw [h0, smul_zero, smul_zero]
    · rw [sqLen_eq, sinc_of_ne_zero (sqrt_normSq_ne h0)]
  rw [h, smul_smul, logFactor, one_div_mul_cancel, one_smul]
  have := sinc_pos' (Real.sqrt_nonneg (sqLen φ)) hπ
  positivity

theorem cos_of {φ : V3} : (rodr φ 0 0 + rodr φ 1 1 + rodr φ 2 2 - 1) / 2 = cos √(sqLen φ) := by
  by_cases h : φ = 0
  · subst h
    rw [rodr_zero]; simp [sqLen]
  · exact (cosAngle_rodr h).trans (by rw [sqLen_eq])

/-- The argument of `std::acos`. -/
theorem log_arg {F : Fl} (hu : F.u ≤ 1 / 1000) {η : ℝ} (hη : η ≤ 1 / 1000) {R M : M3} (hR : IsRotation R)
    (hM : ∀ i j, |M i j - R i j| ≤ η) {t : ℝ} (ht : FlSum F [(M 0 0, 1), (M 1 1, 1), (M 2 2, 1)] t) :
    |F.rnd (F.rnd (t - 1) / 2) - (R 0 0 + R 1 1 + R 2 2 - 1) / 2| ≤ 9 * F.u + 2 * η := by
  have hu0 := u_nonneg F
  have hη0 : 0 ≤ η := (abs_nonneg _).trans (hM 0 0)
  have e := flSum_err ht
  simp only [sumOf, absOf, growth, List.map_cons, List.map_nil, List.sum_cons, List.sum_nil, mul_one, add_zero,
    List.length_cons, List.length_nil] at e
  have b : ∀ i, |M i i| ≤ 1001 / 1000 := fun i => by
    have h1 := abs_entry_le hR i i
    have h2 := hM i i
    rw [abs_le] at h1 h2 ⊢
    constructor <;> linarith
  have g : (1 + F.u) ^ (0 + 1 + 1 + 1) - 1 ≤ 302 / 100 * F.u := by nlinarith [sq_nonneg F.u]
  have g0 : 0 ≤ |M 0 0| + (|M 1 1| + |M 2 2|) := by positivity
  have e1 : |t - (M 0 0 + (M 1 1 + M 2 2))| ≤ 91 / 10 * F.u := by
    refine e.trans ?_
    have := b 0
    have := b 1
    have := b 2
    calc _ ≤ 302 / 100 * F.u * (|M 0 0| + (|M 1 1| + |M 2 2|)) := mul_le_mul_of_nonneg_right g g0
      _ ≤ 302 / 100 * F.u * (3003 / 1000) := mul_le_mul_of_nonneg_left (by linarith) (by positivity)
      _ ≤ _ := by nlinarith
  have m0 := hM 0 0
  have m1 := hM 1 1
  have m2 := hM 2 2
  have r0 := abs_entry_le hR 0 0
  have r1 := abs_entry_le hR 1 1
  have r2 := abs_entry_le hR 2 2
  have e2 := F.err (t - 1)
  have e3 := F.err (F.rnd (t - 1) / 2)
  rw [abs_le] at e1 m0 m1 m2 r0 r1 r2
  have t1 : |t - 1| ≤ 403 / 100 := by rw [abs_le]; constructor <;> linarith
  have e2' : |F.rnd (t - 1) - (t - 1)| ≤ 403 / 100 * F.u := e2.trans (by nlinarith)
  rw [abs_le] at e2' t1
  have t2 : |F.rnd (t - 1) / 2| ≤ 21 / 10 := by rw [abs_le]; constructor <;> linarith
  have e3' : |F.rnd (F.rnd (t - 1) / 2) - F.rnd (t - 1) / 2| ≤ 21 / 10 * F.u := e3.trans (by nlinarith)
  rw [abs_le] at e3' ⊢
  constructor <;> linarith

/-- The last two operations. -/
theorem log_entry {F : Fl} (hu : F.u ≤ 1 / 1000) {η : ℝ} (hη : η ≤ 1 / 1000) {R M : M3} (hR : IsRotation R)
    (hM : ∀ i j, |M i j - R i j| ≤ η) {k h κ : ℝ} (hk : |k - h| ≤ κ) (hκ : κ ≤ 1 / 10) (h0 : 0 < h)
    (h1 : h ≤ 21 / 10) (i j : Fin 3) :
    |F.rnd (k * F.rnd (M i j - M j i)) - h * (R i j - R j i)| ≤ 2 * κ + 5 * η + 10 * F.u := by
  have hu0 := u_nonneg F
  have hη0 : 0 ≤ η := (abs_nonneg _).trans (hM 0 0)
  have m1 := hM i j
  have m2 := hM j i
  have r1 := abs_entry_le hR i j
  have r2 := abs_entry_le hR j i
  have e1 := F.err (M i j - M j i)
  have e2 := F.err (k * F.rnd (M i j - M j i))
  set D := F.rnd (M i j - M j i)
  rw [abs_le] at m1 m2 r1 r2
  have d1 : |M i j - M j i| ≤ 2002 / 1000 := by rw [abs_le]; constructor <;> linarith
  have e1' : |D - (M i j - M j i)| ≤ 201 / 100 * F.u := e1.trans (by nlinarith)
  rw [abs_le] at e1' d1
  have d2 : |D - (R i j - R j i)| ≤ 2 * η + 201 / 100 * F.u := by rw [abs_le]; constructor <;> linarith
  have d3 : |D| ≤ 21 / 10 := by rw [abs_le]; constructor <;> linarith
  have k1 : |k| ≤ 22 / 10 := by rw [abs_le] at hk ⊢; constructor <;> linarith
  have s1 : |R i j - R j i| ≤ 2 := by rw [abs_le]; constructor <;> linarith
  have f1 : |F.rnd (k * D) - k * D| ≤ 462 / 100 * F.u := by
    refine e2.trans ?_
    rw [abs_mul]
    have : |k| * |D| ≤ 22 / 10 * (21 / 10) := mul_le_mul k1 d3 (abs_nonneg _) (by norm_num)
    nlinarith
  have f2 : |k * (D - (R i j - R j i))| ≤ 22 / 10 * (2 * η + 201 / 100 * F.u) := by
    rw [abs_mul]
    exact mul_le_mul k1 d2 (abs_nonneg _) (by norm_num)
  have f3 : |(k - h) * (R i j - R j i)| ≤ κ * 2 := by
    rw [abs_mul]
    exact mul_le_mul hk s1 (abs_nonneg _) ((abs_nonneg _).trans hk)
  have e : F.rnd (k * D) - h * (R i j - R j i) =
      (F.rnd (k * D) - k * D) + k * (D - (R i j - R j i)) + (k - h) * (R i j - R j i) := by ring
  rw [e]
  refine (abs_add_three _ _ _).trans ?_
  linarith

/-- The division of the large branch. -/
theorem quot_near {F : Fl} (hu : F.u ≤ 1 / 1000) {m : ℝ} (hm : 0 ≤ m) (hm1 : m ≤ 1 / 1000) {a : ℝ} (hane : a ≠ 0)
    (hs : 0 < sin a) (p0 : 0 < logFactor a) (p1 : logFactor a ≤ 21 / 10) {sa : ℝ}
    (hsa : |sa - sin a| ≤ m * sin a) :
    |F.rnd (a / F.rnd (2 * sa)) - logFactor a| ≤ 22 / 10 * m + 45 / 10 * F.u := by
  have hu0 := u_nonneg F
  have e1 := F.err (2 * sa)
  have hsa' := abs_le.1 hsa
  have hms : m * sin a ≤ 1 / 1000 * sin a := mul_le_mul_of_nonneg_right hm1 hs.le
  have sa0 : 0 < sa := by linarith
  rw [abs_of_pos (by positivity : 0 < 2 * sa)] at e1
  set d := F.rnd (2 * sa)
  have e1' := abs_le.1 e1
  have sa1 : sa ≤ 1001 / 1000 * sin a := by linarith
  have us : F.u * (2 * sa) ≤ 1001 / 1000 * F.u * (2 * sin a) := by nlinarith
  set x := 2 * sin a with hx
  have x0 : 0 < x := by positivity
  have dx : |x - d| ≤ (m + 1001 / 1000 * F.u) * x := by
    have : m * sin a * 2 = m * x := by rw [hx]; ring
    rw [abs_le]
    constructor <;> linarith
  have dx' := abs_le.1 dx
  have d0 : 997 / 1000 * x ≤ d := by
    have : (m + 1001 / 1000 * F.u) * x ≤ 3 / 1000 * x := mul_le_mul_of_nonneg_right (by linarith) x0.le
    linarith
  have dpos : 0 < d := by linarith
  have hla : logFactor a = a / x := logFactor_of_ne hane
  have q : a / d - a / x = a / x * ((x - d) / d) := by field_simp
  have q1 : |(x - d) / d| ≤ 1004 / 1000 * (m + 1001 / 1000 * F.u) := by
    rw [abs_div, abs_of_pos dpos, div_le_iff₀ dpos]
    refine dx.trans ?_
    have : 0 ≤ m + 1001 / 1000 * F.u := by positivity
    have := mul_le_mul_of_nonneg_left d0 this
    have := mul_nonneg ‹0 ≤ m + 1001 / 1000 * F.u› x0.le
    linarith
  have q2 : |a / d - logFactor a| ≤ 21 / 10 * (1004 / 1000 * (m + 1001 / 1000 * F.u)) := by
    rw [hla, q, ← hla, abs_mul, abs_of_pos p0]
    exact mul_le_mul p1 q1 (abs_nonneg _) (by norm_num)
  have q2' := abs_le.1 q2
  have q3 : |a / d| ≤ 22 / 10 := by
    rw [abs_le]; constructor <;> linarith
  have q4 : |F.rnd (a / d) - a / d| ≤ F.u * (22 / 10) := (F.err _).trans (mul_le_mul_of_nonneg_left q3 hu0)
  refine (abs_sub_le _ (a / d) _).trans ?_
  linarith

/-- The computed factor. -/
theorem log_factor {F : Fl} (hu : F.u ≤ 1 / 1000) {m : ℝ} (hm : 0 ≤ m) (hm1 : m ≤ 1 / 1000) {ε : ℝ} (hε : 0 < ε)
    (hε1 : ε ≤ 1 / 1000) {θ δ c a : ℝ} (h0 : 0 ≤ θ) (h1 : θ < π) (hc : -(1 / 2) ≤ cos θ) (hδ : |c - cos θ| ≤ δ)
    (hδ1 : δ ≤ 12 / 1000) (hc1 : c ≤ 1) (ha : |a - arccos c| ≤ m * |arccos c|) :
    (ε < F.rnd (a * a) → ∀ sa, |sa - sin a| ≤ m * |sin a| →
      |F.rnd (a / F.rnd (2 * sa)) - logFactor θ| ≤ 4 * δ + 16 * m + 5 * F.u) ∧
    (¬ε < F.rnd (a * a) → |1 / 2 - logFactor θ| ≤ 4 * δ + 13 * m + 3 * ε) := by
  have hu0 := u_nonneg F
  have hp := pi_lt_d2
  have hp3 := pi_gt_three
  rw [abs_le] at hδ
  have cc : cos (arccos c) = c := cos_arccos (by linarith) hc1
  have t0 := arccos_nonneg c
  set θ' := arccos c
  have t1 : θ' ≤ 3 / 4 * π := by
    by_contra h
    push Not at h
    have : cos θ' ≤ cos (3 / 4 * π) := cos_le_cos_of_nonneg_of_le_pi (by positivity) (arccos_le_pi c) h.le
    rw [show 3 / 4 * π = π - π / 4 by ring, cos_pi_sub, cos_pi_div_four] at this
    have hs : (14 / 10 : ℝ) ≤ √2 := by
      apply Real.le_sqrt_of_sq_le; norm_num
    linarith
  rw [abs_of_nonneg t0] at ha
  have ha' : |a - θ'| ≤ 316 / 100 * m := ha.trans (by nlinarith)
  have ha0 : 0 ≤ a := by rw [abs_le] at ha; nlinarith
  have ha1 : a < π := by rw [abs_le] at ha'; nlinarith
  have ca : |cos a - cos θ'| ≤ 316 / 100 * m := (abs_cos_sub_cos_le a θ').trans ha'
  have ca' : -(33 / 50) ≤ cos a := by rw [abs_le] at ca; rw [cc] at ca; linarith
  have ct' : -(33 / 50) ≤ cos θ' := by rw [cc]; linarith
  have l1 := logFactor_lip t0 h0 (by linarith) h1 ct' (by linarith)
  have l2 := logFactor_lip ha0 t0 ha1 (by linarith) ca' ct'
  have l1' : |logFactor θ' - logFactor θ| ≤ 4 * δ := by
    refine l1.trans ?_
    rw [cc]
    have : |c - cos θ| ≤ δ := by rw [abs_le]; exact hδ
    linarith
  have l2' : |logFactor a - logFactor θ'| ≤ 1264 / 100 * m := by linarith
  obtain ⟨p0, p1⟩ := logFactor_le ha0 ha1 ca'
  refine ⟨fun hb sa hsa => ?_, fun hb => ?_⟩
  · have hane : a ≠ 0 := by
      rintro rfl
      rw [mul_zero, rnd_zero] at hb
      linarith
    have hs := sin_pos_of_pos_of_lt_pi (lt_of_le_of_ne ha0 hane.symm) ha1
    rw [abs_of_pos hs] at hsa
    have q2 := quot_near hu hm hm1 hane hs p0 p1 hsa
    set q := F.rnd (a / F.rnd (2 * sa))
    have e : q - logFactor θ = (q - logFactor a) + (logFactor a - logFactor θ') +
        (logFactor θ' - logFactor θ) := by ring
    rw [e]
    refine (abs_add_three _ _ _).trans ?_
    linarith
  · push Not at hb
    have e1 := F.err (a * a)
    rw [abs_of_nonneg (mul_self_nonneg a)] at e1
    have e1' := abs_le.1 e1
    have a2 : a * a ≤ 1002 / 1000 * ε := by nlinarith
    have l3 := logFactor_lip le_rfl ha0 pi_pos ha1 (by rw [cos_zero]; norm_num) ca'
    rw [logFactor_zero, cos_zero, abs_of_nonneg (sub_nonneg.2 (cos_le_one a))] at l3
    have c2 := one_sub_sq_div_two_le_cos (x := a)
    have e : 1 / 2 - logFactor θ = (1 / 2 - logFactor a) + (logFactor a - logFactor θ') +
        (logFactor θ' - logFactor θ) := by ring
    rw [e]
    refine (abs_add_three _ _ _).trans ?_
    nlinarith

/-- `std::acos` of a number greater than one. -/
theorem log_factor_nan {θ δ c : ℝ} (h0 : 0 ≤ θ) (h1 : θ < π) (hc : -(1 / 2) ≤ cos θ) (hδ : |c - cos θ| ≤ δ)
    (hc1 : 1 < c) : |1 / 2 - logFactor θ| ≤ 4 * δ := by
  have l := logFactor_lip le_rfl h0 pi_pos h1 (by rw [cos_zero]; norm_num) (by linarith)
  rw [logFactor_zero, cos_zero, abs_of_nonneg (sub_nonneg.2 (cos_le_one θ))] at l
  rw [abs_le] at hδ
  linarith

/-- The error of the logarithm, coefficient by coefficient. -/
theorem log_near {F : Fl} (hu : F.u ≤ 1 / 1000) {m : ℝ} (hm : 0 ≤ m) (hm1 : m ≤ 1 / 1000) {ε : ℝ} (hε : 0 < ε)
    (hε1 : ε ≤ 1 / 1000) {η : ℝ} (hη : η ≤ 1 / 1000) {φ : V3} (hφ : √(sqLen φ) ≤ 2 * π / 3) {M : M3}
    (hM : ∀ i j, |M i j - rodr φ i j| ≤ η) {ψ : V3} (h : FlLog F m ε M ψ) (i : Fin 3) :
    |ψ i - φ i| ≤ 21 * η + 92 * F.u + 32 * m + 6 * ε := by
  have hu0 := u_nonneg F
  have hη0 : 0 ≤ η := (abs_nonneg _).trans (hM 0 0)
  have hp := pi_pos
  have hR := rodr_rotation φ
  obtain ⟨t, c, ht, hc, hcase⟩ := h
  have harg := log_arg hu hη hR hM ht
  rw [← hc, cos_of] at harg
  have h0 := Real.sqrt_nonneg (sqLen φ)
  have h1 : √(sqLen φ) < π := by linarith
  have hcos : -(1 / 2) ≤ cos √(sqLen φ) := by
    have : cos (2 * π / 3) ≤ cos √(sqLen φ) := cos_le_cos_of_nonneg_of_le_pi h0 (by linarith) hφ
    rw [show 2 * π / 3 = π - π / 3 by ring, cos_pi_sub, cos_pi_div_three] at this
    exact this
  obtain ⟨p0, p1⟩ := logFactor_le h0 h1 (by linarith)
  have fin : ∀ {k κ : ℝ}, |k - logFactor √(sqLen φ)| ≤ κ → κ ≤ 1 / 10 →
      2 * κ + 5 * η + 10 * F.u ≤ 21 * η + 92 * F.u + 32 * m + 6 * ε →
      |flSkew F k M i - φ i| ≤ 21 * η + 92 * F.u + 32 * m + 6 * ε := by
    intro k κ hk hκ hb
    refine le_trans ?_ hb
    have key := log_entry hu hη hR hM hk hκ p0 p1
    have ht := congrFun (true_log h1) i
    rw [ht]
    fin_cases i
    · exact key 2 1
    · exact key 0 2
    · exact key 1 0
  have hargs := abs_le.1 harg
  rcases hcase with ⟨hn, rfl⟩ | ⟨hn, a, ha, hcase⟩
  · have : 1 < c := by
      by_contra h
      exact hn ⟨by linarith, by linarith⟩
    exact fin (log_factor_nan h0 h1 hcos harg this) (by linarith) (by linarith)
  · obtain ⟨k1, k2⟩ := log_factor hu hm hm1 hε hε1 h0 h1 hcos harg (by linarith) hn.2 ha
    split_ifs at hcase with hb
    · obtain ⟨sa, hsa, -, rfl⟩ := hcase
      exact fin (k1 hb sa hsa) (by linarith) (by linarith)
    · subst hcase
      exact fin (k2 hb) (by linarith) (by linarith)

end WG.Round
