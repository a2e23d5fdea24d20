import Verif.Spec.RoundingDiv
import Verif.Lemmas.RoundingExp
import Mathlib.Analysis.SpecialFunctions.Trigonometric.InverseDeriv
import Mathlib.Analysis.Calculus.MeanValue

/-! # Rounding errors of divisions -/

namespace WG.Round
open Matrix Spec

variable {ε : ℝ} {F : Fl}

section
variable {n : Type} [Fintype n]

/-- A vector divided by a scalar. -/
theorem div_near {v v' z : n → ℝ} {y y' A S ρ : ℝ} (hA : 1 ≤ A) (hρ : 0 ≤ ρ) (hρ1 : ρ < 1)
    (hv : len v ≤ S) (h1 : len (v' - v) ≤ (A - 1) * S) (hy : y ≠ 0) (h2 : |y' - y| ≤ ρ * |y|)
    (h : ∀ i, z i = F.rnd (v' i / y')) :
    y' ≠ 0 ∧ len (y⁻¹ • v) ≤ S / |y| ∧
      len (z - y⁻¹ • v) ≤ (A * (1 + F.u) / (1 - ρ) - 1) * (S / |y|) := by
  have hS : 0 ≤ S := (len_nonneg v).trans hv
  have Y0 : 0 < |y| := abs_pos.2 hy
  have u0 := u_nonneg F
  have d0 : 0 < 1 - ρ := by linarith
  have hy' : (1 - ρ) * |y| ≤ |y'| := by
    have := abs_sub_abs_le_abs_sub y y'
    rw [abs_sub_comm] at this
    linarith
  have Y'0 : 0 < |y'| := lt_of_lt_of_le (mul_pos d0 Y0) hy'
  have hy'0 : y' ≠ 0 := abs_pos.1 Y'0
  have b1 := len_near hv h1
  refine ⟨hy'0, ?_, ?_⟩
  · rw [len_smul, abs_inv, div_eq_inv_mul]
    exact mul_le_mul_of_nonneg_left hv (inv_nonneg.2 Y0.le)
  have t1 : len (z - y'⁻¹ • v') ≤ F.u * len (y'⁻¹ • v') := by
    rw [← abs_of_nonneg u0, ← len_smul]
    refine len_mono fun i => ?_
    have k : (y'⁻¹ • v') i = v' i / y' := (div_eq_inv_mul _ _).symm
    rw [Pi.sub_apply, h i, Pi.smul_apply F.u, smul_eq_mul, abs_mul F.u, abs_of_nonneg u0, k]
    exact F.err _
  have i1 : |y'|⁻¹ ≤ ((1 - ρ) * |y|)⁻¹ := inv_anti₀ (mul_pos d0 Y0) hy'
  have t2 : len (y'⁻¹ • v') ≤ ((1 - ρ) * |y|)⁻¹ * (A * S) := by
    rw [len_smul, abs_inv]
    exact mul_le_mul i1 b1 (len_nonneg _) (inv_nonneg.2 (mul_pos d0 Y0).le)
  have e : y'⁻¹ • v' - y⁻¹ • v = y'⁻¹ • (v' - v) + (y'⁻¹ * y⁻¹) • ((y - y') • v) := by
    funext i
    simp only [Pi.add_apply, Pi.sub_apply, Pi.smul_apply, smul_eq_mul]
    field_simp
    ring
  have t3 : len (y'⁻¹ • v' - y⁻¹ • v) ≤ ((1 - ρ) * |y|)⁻¹ * ((A - 1) * S + ρ * S) := by
    rw [e]
    refine (len_add_le _ _).trans ?_
    rw [len_smul, len_smul, len_smul, abs_mul, abs_inv, abs_inv, abs_sub_comm y y', mul_add]
    refine add_le_add (mul_le_mul i1 h1 (len_nonneg _) (inv_nonneg.2 (mul_pos d0 Y0).le)) ?_
    have : |y|⁻¹ * (|y' - y| * len v) ≤ ρ * S := by
      rw [inv_mul_le_iff₀ Y0]
      refine (mul_le_mul h2 hv (len_nonneg v) (mul_nonneg hρ Y0.le)).trans (le_of_eq ?_)
      ring
    rw [mul_assoc]
    exact mul_le_mul i1 this (mul_nonneg (inv_nonneg.2 Y0.le) (mul_nonneg (abs_nonneg _)
      (len_nonneg _))) (inv_nonneg.2 (mul_pos d0 Y0).le)
  have e2 : z - y⁻¹ • v = (z - y'⁻¹ • v') + (y'⁻¹ • v' - y⁻¹ • v) := by abel
  rw [e2]
  refine (len_add_le _ _).trans ((add_le_add (t1.trans (mul_le_mul_of_nonneg_left t2 u0)) t3).trans
    (le_of_eq ?_))
  field_simp
  ring

/-- Dividing nearby vectors by their lengths. -/
theorem unit_near {v v' : n → ℝ} (hv : 0 < len v) (hv' : 0 < len v') :
    len ((len v')⁻¹ • v' - (len v)⁻¹ • v) ≤ 2 * (len (v' - v) / len v) := by
  have e : (len v')⁻¹ • v' - (len v)⁻¹ • v =
      ((len v')⁻¹ * (len v)⁻¹ * (len v - len v')) • v' + (len v)⁻¹ • (v' - v) := by
    funext i
    simp only [Pi.add_apply, Pi.sub_apply, Pi.smul_apply, smul_eq_mul]
    field_simp
    ring
  have h1 : |len v - len v'| ≤ len (v' - v) := by
    rw [abs_sub_comm, len_eq, len_eq, len_eq, WithLp.toLp_sub]
    exact abs_norm_sub_norm_le _ _
  rw [e]
  refine (len_add_le _ _).trans ?_
  rw [len_smul, len_smul, abs_mul, abs_of_pos (mul_pos (inv_pos.2 hv') (inv_pos.2 hv)),
    abs_of_pos (inv_pos.2 hv)]
  have : (len v')⁻¹ * (len v)⁻¹ * |len v - len v'| * len v' = (len v)⁻¹ * |len v - len v'| := by
    field_simp
  rw [this, two_mul, div_eq_inv_mul]
  exact add_le_add (mul_le_mul_of_nonneg_left h1 (inv_nonneg.2 hv.le)) le_rfl

/-- Normalisation. -/
theorem normalize_near {v v' z : n → ℝ} {t A S : ℝ} (h1 : len (v' - v) ≤ (A - 1) * S)
    (hc : (A - 1) * S < len v) (hg : growth F.u (Fintype.card n + 1) < 1) (ht : FlDot F v' v' t)
    (h : if 0 < t then F.rnd (Real.sqrt t) ≠ 0 ∧ ∀ i, z i = F.rnd (v' i / F.rnd (Real.sqrt t))
      else z = v') :
    len (z - (len v)⁻¹ • v) ≤
      (1 + F.u) / (1 - growth F.u (Fintype.card n + 1)) + 2 * ((A - 1) * S / len v) - 1 := by
  have hr : 0 ≤ (A - 1) * S := (len_nonneg _).trans h1
  have hv : 0 < len v := hr.trans_lt hc
  have hv' : 0 < len v' := by
    have : len v ≤ len v' + len (v' - v) := by
      have := len_sub_le v' (v' - v)
      rwa [sub_sub_cancel] at this
    linarith
  have g0 := growth_nonneg F (Fintype.card n + 1)
  have ht0 : 0 < t := by
    have h2 := flDot_err ht
    rw [← sq, ← len_sq_dot] at h2
    have h3 : growth F.u (Fintype.card n) < 1 := (growth_mono F (Nat.le_succ _)).trans_lt hg
    have := (abs_le.1 h2).1
    nlinarith [sq_pos_of_pos hv']
  rw [if_pos ht0] at h
  replace h := h.2
  have hn := norm_near (F := F) (v := v') (v' := v') (A := 1) (S := len v') le_rfl le_rfl
    (by rw [sub_self, len_zero]; simp) ht rfl
  rw [one_mul] at hn
  have hd := (div_near (F := F) (v := v') (v' := v') (z := z) (y := len v')
    (y' := F.rnd (Real.sqrt t)) (A := 1) (S := len v') (ρ := growth F.u (Fintype.card n + 1)) le_rfl g0
    hg le_rfl (by rw [sub_self, len_zero]; simp) hv'.ne' (by rw [abs_of_pos hv']; exact hn) h).2.2
  rw [abs_of_pos hv', div_self hv'.ne', mul_one, one_mul] at hd
  have hu := unit_near hv hv'
  have e : z - (len v)⁻¹ • v = (z - (len v')⁻¹ • v') + ((len v')⁻¹ • v' - (len v)⁻¹ • v) := by abel
  rw [e]
  have h5 : len (v' - v) / len v ≤ (A - 1) * S / len v := div_le_div_of_nonneg_right h1 hv.le
  have := (len_add_le _ _).trans (add_le_add hd hu)
  linarith
end

/-- The arc cosine away from its end points. -/
theorem arccos_near {x x' r : ℝ} (h : |x' - x| ≤ r) (hc : |x| + r < 1) :
    |Real.arccos x' - Real.arccos x| ≤ r / Real.sqrt (1 - (|x| + r) ^ 2) := by
  have r0 : 0 ≤ r := (abs_nonneg _).trans h
  set a := |x| + r with ha
  have a0 : 0 ≤ a := add_nonneg (abs_nonneg _) r0
  have hs : 0 < 1 - a ^ 2 := by nlinarith
  have hx : x ∈ Set.Icc (-a) a := by
    have := abs_le.1 (le_refl |x|)
    exact ⟨by linarith [this.1], by linarith [this.2]⟩
  have hx' : x' ∈ Set.Icc (-a) a := by
    have h1 := abs_le.1 h
    have := abs_le.1 (le_refl |x|)
    exact ⟨by linarith [this.1, h1.1], by linarith [this.2, h1.2]⟩
  have key := Convex.norm_image_sub_le_of_norm_hasDerivWithin_le (f := Real.arccos)
    (f' := fun y => -(1 / Real.sqrt (1 - y ^ 2))) (s := Set.Icc (-a) a)
    (C := 1 / Real.sqrt (1 - a ^ 2)) (fun y hy => (Real.hasDerivAt_arccos (by
      intro h
      rw [h] at hy
      linarith [hy.1]) (by
      intro h
      rw [h] at hy
      linarith [hy.2])).hasDerivWithinAt) (fun y hy => by
      rw [norm_neg, Real.norm_of_nonneg (by positivity)]
      refine one_div_le_one_div_of_le (Real.sqrt_pos.2 hs) (Real.sqrt_le_sqrt ?_)
      have := abs_le.2 ⟨hy.1, hy.2⟩
      have : y ^ 2 ≤ a ^ 2 := sq_le_sq' hy.1 hy.2
      linarith) (convex_Icc _ _) hx hx'
  rw [Real.norm_eq_abs, Real.norm_eq_abs] at key
  refine key.trans ?_
  rw [div_eq_mul_one_div r, mul_comm r]
  exact mul_le_mul_of_nonneg_left h (by positivity)

theorem magnitude_of {s : Store (geoLib ε)} {τ : Ty} {e : Expr (geoLib ε) τ} {v : τ.Val}
    (h : ideal s e = some v) : magnitude s e = size τ v := by
  unfold magnitude
  rw [h]

theorem one_le_facDiv {u A ρ : ℝ} (hu : 0 ≤ u) (hA : 1 ≤ A) (hρ : 0 ≤ ρ) (hρ1 : ρ < 1) :
    1 ≤ A * (1 + u) / (1 - ρ) := by
  rw [le_div_iff₀ (by linarith)]
  nlinarith

/-- Unary operations. -/
theorem unD_near {m : ℝ} (hm : 0 ≤ m) {a b : Ty} (op : Un a b) {x x' : a.Val} {y z : b.Val} {A S : ℝ}
    (hA : 1 ≤ A) (hS : 0 ≤ S) (hx : Ok a S x) (hw : Within a (A - 1) S x x')
    (hc : CondUn F.u ε op S (size a x) A)
    (he : idealUn ε op x = some y) (h : FlUnD F m ε op x' z) :
    0 ≤ ampUnD op S ∧ 1 ≤ facUnD F.u m ε op S (size a x) A ∧ Ok b (ampUnD op S) y ∧
      Within b (facUnD F.u m ε op S (size a x) A - 1) (ampUnD op S) y z := by
  have u0 := u_nonneg F
  cases op with
  | normalize k =>
    obtain ⟨t, ht, h⟩ := h
    have hc1 : (A - 1) * S < len (n := k.Idx) x := hc.1
    have hr : 0 ≤ (A - 1) * S := mul_nonneg (by linarith) hS
    have hv : 0 < len (n := k.Idx) x := hr.trans_lt hc1
    have hy : y = (len (n := k.Idx) x)⁻¹ • x := by
      have he : some (vNormalize (n := k.Idx) x) = some y := he
      rw [← Option.some.inj he]
      unfold vNormalize
      have hn : vNorm (n := k.Idx) x = len (n := k.Idx) x := rfl
      rw [if_pos]
      · funext i
        rw [hn, Pi.smul_apply, smul_eq_mul, div_eq_inv_mul]
      · have := sq_pos_of_pos hv
        rw [len_sq_dot] at this
        exact this
    have g0 := growth_nonneg F (Fintype.card k.Idx + 1)
    refine ⟨zero_le_one, ?_, ?_, ?_⟩
    · have h1 := one_le_facDiv u0 le_rfl g0 hc.2
      rw [one_mul] at h1
      have h2 : 0 ≤ (A - 1) * S / len (n := k.Idx) x := div_nonneg hr hv.le
      change 1 ≤ (1 + F.u) / (1 - growth F.u (Fintype.card k.Idx + 1)) +
        2 * ((A - 1) * S / len (n := k.Idx) x)
      linarith
    · change len (n := k.Idx) y ≤ 1
      rw [hy, len_smul, abs_of_pos (inv_pos.2 hv), inv_mul_cancel₀ hv.ne']
    · have := normalize_near (n := k.Idx) hw hc1 hc.2 ht h
      rw [← hy] at this
      change len (n := k.Idx) (z - y) ≤ (_ - 1) * 1
      rw [mul_one]
      exact this
  | acos =>
    obtain ⟨-, -, h⟩ := h
    have hr : 0 ≤ (A - 1) * S := mul_nonneg (by linarith) hS
    have hX : size (.vec .scalar) x = |x (0 : Fin 1)| := len_one x
    have hc1 : |x (0 : Fin 1)| + (A - 1) * S < 1 := by
      rw [← hX]
      exact hc
    have hw1 : |x' (0 : Fin 1) - x (0 : Fin 1)| ≤ (A - 1) * S := by
      have : len (x' - x : Fin 1 → ℝ) ≤ (A - 1) * S := hw
      rwa [len_one] at this
    have hy : y = sc (Real.arccos (x (0 : Fin 1))) := by
      have he : (racos (x (0 : Fin 1))).map sc = some y := he
      unfold racos at he
      split_ifs at he
      · exact (Option.some.inj he).symm
      · cases he
    have k1 := arccos_near hw1 hc1
    have hp : 0 < Real.pi := Real.pi_pos
    have k2 : |Real.arccos (x' (0 : Fin 1))| ≤ Real.pi := by
      rw [abs_of_nonneg (Real.arccos_nonneg _)]
      exact Real.arccos_le_pi _
    have q0 : 0 ≤ (A - 1) * S / (Real.pi * Real.sqrt (1 - (size (.vec .scalar) x + (A - 1) * S) ^ 2)) :=
      div_nonneg hr (mul_nonneg hp.le (Real.sqrt_nonneg _))
    refine ⟨hp.le, ?_, ?_, ?_⟩
    · change 1 ≤ 1 + m + _
      linarith
    · change len (y : Fin 1 → ℝ) ≤ Real.pi
      rw [len_one, hy]
      change |Real.arccos _| ≤ _
      rw [abs_of_nonneg (Real.arccos_nonneg _)]
      exact Real.arccos_le_pi _
    · change len (z - y : Fin 1 → ℝ) ≤ (1 + m + _ - 1) * Real.pi
      rw [len_one, hy]
      change |z (0 : Fin 1) - Real.arccos (x (0 : Fin 1))| ≤ _
      have k3 := (abs_add_le _ _).trans (add_le_add h k1)
      rw [sub_add_sub_cancel] at k3
      refine k3.trans ?_
      have k4 := mul_le_mul_of_nonneg_left k2 hm
      refine (add_le_add k4 le_rfl).trans (le_of_eq ?_)
      rw [hX]
      field_simp
      ring
  | expRel =>
    obtain ⟨hu, hε0, hε1⟩ := hc
    have hy : y = trueExp x := (Option.some.inj he).symm
    have e1 := exp_near hm hε1 hu h
    have b1 : len (x' : Fin 3 → ℝ) ≤ A * S := len_near (n := Fin 3) hx hw
    have e2 := e1.trans (expError_mono F b1)
    have e3 := trueExp_lipschitz x x'
    have hw1 : len (x' - x : Fin 3 → ℝ) ≤ (A - 1) * S := hw
    have e4 : len (coeffs z - coeffs y) ≤ (A - 1) * S / 2 + expError F.u m ε (A * S) := by
      rw [hy]
      have k : coeffs z - coeffs (trueExp x) =
          (coeffs z - coeffs (trueExp x')) + (coeffs (trueExp x') - coeffs (trueExp x)) := by abel
      rw [k]
      have := (len_add_le _ _).trans (add_le_add e2 e3)
      linarith
    refine ⟨le_rfl, ?_, ?_, ?_⟩
    · change 1 ≤ 1 + (A - 1) * S / 2 + expError F.u m ε (A * S)
      linarith [(len_nonneg _).trans e4]
    · change Quat.IsUnit y
      rw [hy]
      exact trueExp_isUnit x
    · change len (coeffs z - coeffs y) ≤ 1 + (A - 1) * S / 2 + expError F.u m ε (A * S) - 1
      linarith
  | _ =>
    simp only [idealUn] at he
    exact un_near (F := F) (ε := ε) _ hA hS hx hw he h

/-- Binary operations. -/
theorem binD_near {a b c : Ty} (op : Bin a b c) {x x' : a.Val} {y y' : b.Val} {v z : c.Val}
    {A B S T : ℝ} (hA : 1 ≤ A) (hB : 1 ≤ B) (hS : 0 ≤ S) (hT : 0 ≤ T) (hx : Ok a S x) (hy : Ok b T y)
    (hw : Within a (A - 1) S x x') (hw' : Within b (B - 1) T y y')
    (hc : CondBin op T (size b y) B) (he : evalBin op x y = some v) (h : FlBinD F op x' y' z) :
    0 ≤ ampBinD op S T (size b y) ∧ 1 ≤ facBinD F.u op T (size b y) A B ∧
      Ok c (ampBinD op S T (size b y)) v ∧
      Within c (facBinD F.u op T (size b y) A B - 1) (ampBinD op S T (size b y)) v z := by
  have u0 := u_nonneg F
  cases op with
  | divide =>
    have hY : size (.vec .scalar) y = |y (0 : Fin 1)| := len_one y
    rw [hY] at hc ⊢
    have hr : 0 ≤ (B - 1) * T := mul_nonneg (by linarith) hT
    have hc1 : (B - 1) * T < |y (0 : Fin 1)| := hc
    have Y0 : 0 < |y (0 : Fin 1)| := hr.trans_lt hc1
    have ρ0 : 0 ≤ (B - 1) * T / |y (0 : Fin 1)| := div_nonneg hr Y0.le
    have ρ1 : (B - 1) * T / |y (0 : Fin 1)| < 1 := (div_lt_one Y0).2 hc1
    have hw1 : |y' (0 : Fin 1) - y (0 : Fin 1)| ≤ (B - 1) * T := by
      have : len (y' - y : Fin 1 → ℝ) ≤ (B - 1) * T := hw'
      rwa [len_one] at this
    have hv : v = (y (0 : Fin 1))⁻¹ • x := by
      have he : (rdiv (x (0 : Fin 1)) (y (0 : Fin 1))).map sc = some v := he
      unfold rdiv at he
      rw [if_neg (abs_pos.1 Y0)] at he
      rw [← Option.some.inj he]
      funext i
      rw [show i = (0 : Fin 1) from Subsingleton.elim _ _, Pi.smul_apply, smul_eq_mul, ← div_eq_inv_mul]
      rfl
    obtain ⟨-, k1, k2⟩ := div_near (n := Fin 1) (F := F) (z := z) hA ρ0 ρ1 hx hw (abs_pos.1 Y0)
      (by rw [div_mul_cancel₀ _ Y0.ne']; exact hw1) (fun i => by
        rw [show i = (0 : Fin 1) from Subsingleton.elim _ _]
        exact h.2)
    rw [← hv] at k1 k2
    exact ⟨div_nonneg hS Y0.le, one_le_facDiv u0 hA ρ0 ρ1, k1, k2⟩
  | scaleDiv k =>
    have hY : size (.vec .scalar) y = |y (0 : Fin 1)| := len_one y
    rw [hY] at hc ⊢
    have hr : 0 ≤ (B - 1) * T := mul_nonneg (by linarith) hT
    have hc1 : (B - 1) * T < |y (0 : Fin 1)| := hc
    have Y0 : 0 < |y (0 : Fin 1)| := hr.trans_lt hc1
    have ρ0 : 0 ≤ (B - 1) * T / |y (0 : Fin 1)| := div_nonneg hr Y0.le
    have ρ1 : (B - 1) * T / |y (0 : Fin 1)| < 1 := (div_lt_one Y0).2 hc1
    have hw1 : |y' (0 : Fin 1) - y (0 : Fin 1)| ≤ (B - 1) * T := by
      have : len (y' - y : Fin 1 → ℝ) ≤ (B - 1) * T := hw'
      rwa [len_one] at this
    have hv : v = (y (0 : Fin 1))⁻¹ • x := by
      have he : vScaleDiv (n := k.Idx) x (y (0 : Fin 1)) = some v := he
      unfold vScaleDiv at he
      rw [if_neg (abs_pos.1 Y0)] at he
      rw [← Option.some.inj he]
      funext i
      rw [Pi.smul_apply, smul_eq_mul, ← div_eq_inv_mul]
    obtain ⟨-, k1, k2⟩ := div_near (n := k.Idx) (F := F) (z := z) hA ρ0 ρ1 hx hw (abs_pos.1 Y0)
      (by rw [div_mul_cancel₀ _ Y0.ne']; exact hw1) h.2
    rw [← hv] at k1 k2
    exact ⟨div_nonneg hS Y0.le, one_le_facDiv u0 hA ρ0 ρ1, k1, k2⟩
  | _ => exact bin_near (F := F) _ hA hB hS hT hx hy hw hw' he h

/-- The invariant of the induction. -/
theorem near_of_computesD {m : ℝ} (hm : 0 ≤ m) {η : ℝ} (hη : 0 ≤ η) {s s' : Store (geoLib ε)} :
    {τ : Ty} → (e : Expr (geoLib ε) τ) →
    (∀ t ∈ e.leaves, Valid t.ty (s t.addr t.ty) ∧
      Within t.ty η (size t.ty (s t.addr t.ty)) (s t.addr t.ty) (s' t.addr t.ty)) →
    Conditioned F.u m η s e →
    {v z : τ.Val} → ideal s e = some v → ComputesD F m s' e z →
    0 ≤ ampD s e ∧ 1 ≤ factorD F.u m η s e ∧ Ok τ (ampD s e) v ∧
      Within τ (factorD F.u m η s e - 1) (ampD s e) v z
  | _, .leaf a c τ, hs, _, v, z, hv, hz => by
    obtain ⟨h1, h2⟩ := hs ⟨a, c, τ⟩ (List.mem_singleton.mpr rfl)
    cases Option.some.inj hv
    cases hz
    refine ⟨size_nonneg τ _, by simpa [factorD] using hη, ok_of_valid τ h1, ?_⟩
    have e : factorD F.u m η s (ε := ε) (.leaf a c τ) - 1 = η := add_sub_cancel_left _ _
    rw [e]
    exact h2
  | _, .un _ op e, hs, hc, v, z, hv, hz => by
    obtain ⟨x, hx, hop⟩ := Option.bind_eq_some_iff.mp hv
    obtain ⟨x', hx', h'⟩ := hz
    obtain ⟨i1, i2, i3, i4⟩ := near_of_computesD hm hη e hs hc.1 hx hx'
    have hc2 := hc.2
    rw [magnitude_of hx] at hc2
    simp only [factorD, ampD, magnitude_of hx]
    exact unD_near (ε := ε) hm op i2 i1 i3 i4 hc2 hop h'
  | _, .bin _ op l r, hs, hc, v, z, hv, hz => by
    obtain ⟨x, hx, h1⟩ := Option.bind_eq_some_iff.mp hv
    obtain ⟨y, hy, hop⟩ := Option.bind_eq_some_iff.mp h1
    obtain ⟨x', y', hx', hy', h'⟩ := hz
    obtain ⟨i1, i2, i3, i4⟩ :=
      near_of_computesD hm hη l (fun t ht => hs t (List.mem_append_left _ ht)) hc.1 hx hx'
    obtain ⟨j1, j2, j3, j4⟩ :=
      near_of_computesD hm hη r (fun t ht => hs t (List.mem_append_right _ ht)) hc.2.1 hy hy'
    have hc2 := hc.2.2
    rw [magnitude_of hy] at hc2
    simp only [factorD, ampD, magnitude_of hy]
    exact binD_near op i2 j2 i1 j1 i3 j3 i4 j4 hc2 hop h'
  | _, .proxy _ e, hs, hc, v, z, hv, hz => near_of_computesD hm hη e hs hc hv hz

/-! ### Outcomes exist -/

theorem unD_exists {m : ℝ} (hm : 0 ≤ m) {a b : Ty} (op : Un a b) (hk : CovUnD op) {x x' : a.Val}
    {A S : ℝ} (hw : Within a (A - 1) S x x') (hc : CondUn F.u ε op S (size a x) A) :
    ∃ z, FlUnD F m ε op x' z := by
  cases op with
  | normalize k =>
    obtain ⟨t, ht⟩ := flDot_exists (F := F) (n := k.Idx) x' x'
    have hu : F.u < 1 := by
      have h1 : growth F.u 1 ≤ growth F.u (Fintype.card k.Idx + 1) :=
        growth_mono F (Nat.le_add_left _ _)
      have h2 : growth F.u 1 = F.u := by unfold growth; ring
      have := hc.2
      linarith
    by_cases h : 0 < t
    · exact ⟨_, t, ht, by rw [if_pos h]; exact ⟨rnd_ne_zero hu (Real.sqrt_pos.2 h).ne', fun _ => rfl⟩⟩
    · exact ⟨_, t, ht, by rw [if_neg h]⟩
  | acos =>
    have hX : size (.vec .scalar) x = |x (0 : Fin 1)| := len_one x
    have hc1 : |x (0 : Fin 1)| + (A - 1) * S < 1 := by
      rw [← hX]
      exact hc
    have hw1 : |x' (0 : Fin 1) - x (0 : Fin 1)| ≤ (A - 1) * S := by
      have : len (x' - x : Fin 1 → ℝ) ≤ (A - 1) * S := hw
      rwa [len_one] at this
    have h1 := abs_le.1 hw1
    have h2 := abs_le.1 (le_refl |x (0 : Fin 1)|)
    refine ⟨sc (Real.arccos (x' (0 : Fin 1))), by linarith, by linarith, ?_⟩
    change |Real.arccos (x' (0 : Fin 1)) - Real.arccos (x' (0 : Fin 1))| ≤ _
    rw [sub_self, abs_zero]
    exact mul_nonneg hm (abs_nonneg _)
  | expRel =>
    obtain ⟨hu, hε0, hε1⟩ := hc
    exact flExp_exists hm hε0 hu x'
  | _ =>
    simp only [CovUnD] at hk
    exact flUn_exists (F := F) _ hk x'

theorem divisor_ne {y y' : (Ty.vec .scalar).Val} {B T : ℝ} (hw : Within (.vec .scalar) (B - 1) T y y')
    (hc : (B - 1) * T < size (.vec .scalar) y) : y' (0 : Fin 1) ≠ 0 := by
  intro h
  have hY : size (.vec .scalar) y = |y (0 : Fin 1)| := len_one y
  have hw1 : len (y' - y : Fin 1 → ℝ) ≤ (B - 1) * T := hw
  rw [len_one] at hw1
  have hw2 : |y' (0 : Fin 1) - y (0 : Fin 1)| ≤ (B - 1) * T := hw1
  rw [h, zero_sub, abs_neg] at hw2
  linarith

theorem binD_exists {a b c : Ty} (op : Bin a b c) (hk : CovBinD op) (x' : a.Val) {y y' : b.Val}
    {B T : ℝ} (hw : Within b (B - 1) T y y') (hc : CondBin op T (size b y) B) :
    ∃ z, FlBinD F op x' y' z := by
  cases op with
  | divide => exact ⟨sc _, divisor_ne hw hc, rfl⟩
  | scaleDiv k => exact ⟨_, divisor_ne hw hc, fun _ => rfl⟩
  | _ =>
    simp only [CovBinD] at hk
    exact flBin_exists (F := F) _ hk x' y'

/-! ### Exact arithmetic -/

theorem flUnD_exact (hu : F.u = 0) {a b : Ty} (op : Un a b) {x : a.Val} {z : b.Val}
    (h : FlUnD F 0 ε op x z) : evalUn ε op x = some z := by
  cases op with
  | normalize k =>
    obtain ⟨t, ht, h⟩ := h
    rw [flDot_exact hu ht] at h
    change if 0 < vSqNorm (n := k.Idx) x then _ else _ at h
    change some (vNormalize (n := k.Idx) x) = some z
    refine congrArg some ?_
    unfold vNormalize
    by_cases h0 : 0 < vSqNorm (n := k.Idx) x
    · rw [if_pos h0] at h ⊢
      funext i
      rw [h.2 i, rnd_exact hu, rnd_exact hu]
      rfl
    · rw [if_neg h0] at h ⊢
      exact h.symm
  | acos =>
    obtain ⟨h1, h2, h3⟩ := h
    rw [zero_mul] at h3
    have h4 := sub_eq_zero.1 (abs_nonpos_iff.1 h3)
    change (racos (x (0 : Fin 1))).map sc = some z
    unfold racos
    rw [if_pos ⟨h1, h2⟩]
    change some (sc _) = _
    rw [← h4, sc_eq]
  | expRel => exact (flExp_exact hu).1 h
  | _ => exact flUn_exact (F := F) hu _ h

theorem flBinD_exact (hu : F.u = 0) {a b c : Ty} (op : Bin a b c) {x : a.Val} {y : b.Val} {z : c.Val}
    (h : FlBinD F op x y z) : evalBin op x y = some z := by
  cases op with
  | divide =>
    obtain ⟨h0, h⟩ := h
    change (rdiv (x (0 : Fin 1)) (y (0 : Fin 1))).map sc = some z
    unfold rdiv
    rw [if_neg h0]
    change some (sc _) = _
    rw [← rnd_exact hu (_ / _), ← h, sc_eq]
  | scaleDiv k =>
    obtain ⟨h0, h⟩ := h
    change vScaleDiv (n := k.Idx) x (y (0 : Fin 1)) = some z
    unfold vScaleDiv
    rw [if_neg h0]
    refine congrArg some (funext fun i => ?_)
    rw [h i, rnd_exact hu]
  | _ => exact flBin_exact (F := F) hu _ h

theorem flUnD_of_exact (hu : F.u = 0) {a b : Ty} (op : Un a b) (hk : CovUnD op) {x : a.Val}
    {z : b.Val} (h : evalUn ε op x = some z) : FlUnD F 0 ε op x z := by
  have key : (∃ z, FlUnD F 0 ε op x z) → FlUnD F 0 ε op x z := by
    rintro ⟨z', hz'⟩
    have := flUnD_exact (ε := ε) hu op hz'
    rw [h] at this
    cases this
    exact hz'
  cases op with
  | normalize k =>
    obtain ⟨t, ht⟩ := flDot_exists (F := F) (n := k.Idx) x x
    refine key ?_
    by_cases h : 0 < t
    · exact ⟨_, t, ht, by
        rw [if_pos h]
        exact ⟨rnd_ne_zero (hu ▸ zero_lt_one) (Real.sqrt_pos.2 h).ne', fun _ => rfl⟩⟩
    · exact ⟨_, t, ht, by rw [if_neg h]⟩
  | acos =>
    have he : (racos (x (0 : Fin 1))).map sc = some z := h
    unfold racos at he
    split_ifs at he with h0
    · refine ⟨h0.1, h0.2, ?_⟩
      cases he
      change |Real.arccos _ - Real.arccos _| ≤ _
      rw [sub_self, abs_zero, zero_mul]
    · cases he
  | expRel => exact (flExp_exact hu).2 h
  | _ =>
    simp only [CovUnD] at hk
    exact key (flUn_exists (F := F) _ hk x)

theorem flBinD_of_exact (hu : F.u = 0) {a b c : Ty} (op : Bin a b c) (hk : CovBinD op) {x : a.Val}
    {y : b.Val} {z : c.Val} (h : evalBin op x y = some z) : FlBinD F op x y z := by
  have key : (∃ z, FlBinD F op x y z) → FlBinD F op x y z := by
    rintro ⟨z', hz'⟩
    have := flBinD_exact hu op hz'
    rw [h] at this
    cases this
    exact hz'
  cases op with
  | divide =>
    have he : (rdiv (x (0 : Fin 1)) (y (0 : Fin 1))).map sc = some z := h
    unfold rdiv at he
    split_ifs at he with h0
    · cases he
    · exact key ⟨sc _, h0, rfl⟩
  | scaleDiv k =>
    have he : vScaleDiv (n := k.Idx) x (y (0 : Fin 1)) = some z := h
    unfold vScaleDiv at he
    split_ifs at he with h0
    exact key ⟨_, h0, fun _ => rfl⟩
  | _ =>
    simp only [CovBinD] at hk
    exact key (flBin_exists (F := F) _ hk x y)

/-! ### Expressions without divisions -/

theorem unD_eq {m : ℝ} {a b : Ty} (op : Un a b) (h : CovUn op) :
    (∀ x, idealUn ε op x = evalUn ε op x) ∧ (∀ x z, FlUnD F m ε op x z ↔ FlUn F op x z) ∧ (∀ S, ampUnD op S = ampUn op S) ∧
      (∀ u S X A, facUnD u m ε op S X A = facUn u op A) ∧ (∀ u S X A, CondUn u ε op S X A) ∧ CovUnD op := by
  cases op with
  | normalize k => exact h.elim
  | acos => exact h.elim
  | expRel => exact h.elim
  | _ => exact ⟨fun _ => rfl, fun _ _ => Iff.rfl, fun _ => rfl, fun _ _ _ _ => rfl, fun _ _ _ _ => trivial, h⟩

theorem binD_eq {a b c : Ty} (op : Bin a b c) (h : CovBin op) :
    (∀ x y z, FlBinD F op x y z ↔ FlBin F op x y z) ∧ (∀ S T Y, ampBinD op S T Y = ampBin op S T) ∧
      (∀ u T Y A B, facBinD u op T Y A B = facBin u op A B) ∧ (∀ T Y B, CondBin op T Y B) ∧
      CovBinD op := by
  cases op with
  | divide => exact h.elim
  | scaleDiv k => exact h.elim
  | _ => exact ⟨fun _ _ _ => Iff.rfl, fun _ _ _ => rfl, fun _ _ _ _ _ => rfl, fun _ _ _ => trivial, h⟩

end WG.Round
