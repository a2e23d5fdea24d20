import Verif.Props.ExpLog

/-!
# C10, C11: box-plus / box-minus and fuzzy comparison
-/

namespace WG
open Matrix Spec

variable {ε : ℝ} {s : Memory} {e f g : SExpr}

/-! ### Algebra of rigid motions (helpers) -/

theorem Rigid.hom_comp (S T : Rigid) : (S.comp T).hom = S.hom * T.hom := by
  unfold Rigid.hom Rigid.comp Rigid.act
  rw [Matrix.fromBlocks_multiply]
  congr 1
  · simp
  · ext i j; simp [replicateCol, Matrix.mul_apply, Matrix.mulVec, dotProduct]
  · simp
  · simp

theorem Rigid.hom_id : Rigid.id.hom = 1 := by
  unfold Rigid.hom Rigid.id
  rw [← Matrix.fromBlocks_one]
  congr 1

theorem Rigid.hom_inj {S T : Rigid} (h : S.hom = T.hom) : S = T := by
  unfold Rigid.hom at h
  rw [Matrix.fromBlocks_inj] at h
  exact Rigid.ext' h.1 (Matrix.replicateCol_injective h.2.1)

theorem Rigid.comp_assoc (A B C : Rigid) : (A.comp B).comp C = A.comp (B.comp C) :=
  Rigid.hom_inj (by simp only [Rigid.hom_comp, Matrix.mul_assoc])

theorem Rigid.comp_id (A : Rigid) : A.comp Rigid.id = A :=
  Rigid.hom_inj (by rw [Rigid.hom_comp, Rigid.hom_id, Matrix.mul_one])

theorem Rigid.id_comp (A : Rigid) : Rigid.id.comp A = A :=
  Rigid.hom_inj (by rw [Rigid.hom_comp, Rigid.hom_id, Matrix.one_mul])

theorem Rigid.inv_comm {A B : Rigid} (h : A.comp B = Rigid.id) : B.comp A = Rigid.id := by
  apply Rigid.hom_inj
  have h' := congrArg Rigid.hom h
  rw [Rigid.hom_comp, Rigid.hom_id] at h' ⊢
  exact mul_eq_one_comm.mp h'

theorem Rigid.inv_unique {A B C : Rigid} (h : A.comp B = Rigid.id) (h' : A.comp C = Rigid.id) : B = C := by
  calc B = (C.comp A).comp B := by rw [Rigid.inv_comm h', Rigid.id_comp]
    _ = C := by rw [Rigid.comp_assoc, h, Rigid.comp_id]

theorem Rigid.comp_act (A B : Rigid) (p : V3) : (A.comp B).act p = A.act (B.act p) := by
  simp only [Rigid.comp, Rigid.act, Matrix.mulVec_add, Matrix.mulVec_mulVec, add_assoc]

/-! ### C10 -/

/-- **C10 (rotations).** `(X + φ) - X = φ`. -/
theorem c10_rot_plus_minus (hε : 0 < ε) (hε1 : ε ≤ 1) {R : M3} {φ : V3} (he : Means ε s e (.rot R))
    (hf : Means ε s f (.vec .relrot φ)) (hπ : sqLen φ < Real.pi ^ 2)
    (hr : φ = 0 ∨ ε < sqLen φ ^ 2) : Yields ε s (e + f - e) (.vec .relrot φ) :=
  c01_evaluation_meaning hε
    (.boxMinusRot (.boxPlusRot he hf hr) he rfl hπ (sqLen_gt_of_sq hε1 hr))

/-- **C10 (rotations).** `Y + (X - Y) = X` when the rotation between them is the identity or has a
regular angle. -/
theorem c10_rot_minus_plus (hε : 0 < ε) (hε1 : ε ≤ 1) {X Y : M3} (he : Means ε s e (.rot X))
    (hf : Means ε s f (.rot Y)) (hr : X = Y ∨ ε < angle (X * Y⁻¹) ^ 4)
    (hπ : angle (X * Y⁻¹) ≠ Real.pi) : Yields ε s (f + (e - f)) (.rot X) := by
  have hX := Means.rotation_valid hε he
  have hY := Means.rotation_valid hε hf
  have hD : IsRotation (X * Y⁻¹) := by rw [hY.inv_eq]; exact hX.mul hY.transpose
  obtain ⟨φ, h0, h1, h2, h3⟩ := exists_rotvec hD hπ
  have hXY : X = X * Y⁻¹ * Y := by
    rw [Matrix.mul_assoc, hY.inv_eq, hY.transpose_mul_self, Matrix.mul_one]
  have hr' : φ = 0 ∨ ε < sqLen φ ^ 2 := by
    rcases hr with h | h
    · left; apply h3.mp; rw [h, hY.inv_eq]; exact hY.1
    · exact Or.inr (by rw [h2]; calc ε < _ := h
        _ = _ := by ring)
  have := c01_evaluation_meaning hε (.boxPlusRot hf
    (.boxMinusRot he hf (h0 ▸ hXY) h1 (sqLen_gt_of_sq hε1 hr')) hr')
  rwa [← h0, ← hXY] at this

/-- **C10 (rigid transforms).** `(X + ξ) - X = ξ`. -/
theorem c10_rigid_plus_minus (hε : 0 < ε) {T : Rigid} {ξ : Fin 3 ⊕ Fin 3 → ℝ}
    (he : Means ε s e (.motion T)) (hf : Means ε s f (.vec .twist ξ))
    (hπ : sqLen (angular ξ) < Real.pi ^ 2) (hr : angular ξ = 0 ∨ ε < sqLen (angular ξ)) :
    Yields ε s (e + f - e) (.vec .twist ξ) := by
  obtain ⟨D, hD⟩ := exists_exp_motion ξ
  exact c01_evaluation_meaning hε (.boxMinusMotion (.boxPlusMotion he hf hD hr) he rfl hD hπ hr)

/-- **C10 (rigid transforms).** `Y + (X - Y) = X` when the relative rotation is the identity or has a
regular angle. -/
theorem c10_rigid_minus_plus (hε : 0 < ε) {X Y : Rigid} (he : Means ε s e (.motion X))
    (hf : Means ε s f (.motion Y)) (hr : X.R = Y.R ∨ ε < angle (X.R * Y.R⁻¹) ^ 2)
    (hπ : angle (X.R * Y.R⁻¹) ≠ Real.pi) : Yields ε s (f + (e - f)) (.motion X) := by
  have hX := Means.motion_valid hε he
  have hY := Means.motion_valid hε hf
  obtain ⟨Z, hZ⟩ := rigid_inverse_exists hY
  have hZR : Z.R = Y.R⁻¹ := (Matrix.inv_eq_right_inv (congrArg Rigid.R hZ)).symm
  have hDR : (X.comp Z).R = X.R * Y.R⁻¹ := by rw [← hZR]; rfl
  have hD : IsRotation (X.comp Z).R := by rw [hDR, hY.inv_eq]; exact hX.mul hY.transpose
  obtain ⟨ξ, h0, h1, h2, h3⟩ := exists_twist hD (by rwa [hDR])
  have hXY : X = (X.comp Z).comp Y := by
    rw [Rigid.comp_assoc, Rigid.inv_comm hZ, Rigid.comp_id]
  have hr' : angular ξ = 0 ∨ ε < sqLen (angular ξ) := by
    rcases hr with h | h
    · left; apply h3.mp; rw [hDR, h, hY.inv_eq]; exact hY.1
    · exact Or.inr (by rwa [h2, hDR])
  have := c01_evaluation_meaning hε (.boxPlusMotion hf
    (.boxMinusMotion he hf hXY h0 h1 hr') h0 hr')
  rwa [← hXY] at this

/-- **C10 (vectors).** `(x + d) - x = d` and `y + (x - y) = x`. -/
theorem c10_vec (hε : 0 < ε) {k : VK} {x y : k.Idx → ℝ} (he : Means ε s e (.vec k x))
    (hf : Means ε s f (.vec k y)) :
    Yields ε s (e + f - e) (.vec k y) ∧ Yields ε s (f + (e - f)) (.vec k x) := by
  constructor
  · have := c01_evaluation_meaning hε (.subVec (.addVec he hf) he)
    rwa [add_sub_cancel_left] at this
  · have := c01_evaluation_meaning hε (.addVec hf (.subVec he hf))
    rwa [add_sub_cancel] at this

example := c10_vec dblEps_pos (demo_means (.vec .twist)) (.neg (demo_means (.vec .twist)))

/-- **C10 (points).** `(p + d) - p = d` and `q + (p - q) = p`. -/
theorem c10_point (hε : 0 < ε) {p q d : V3} (he : Means ε s e (.point p))
    (hf : Means ε s f (.point q)) (hg : Means ε s g (.vec .trans d)) :
    Yields ε s (e + g - e) (.vec .trans d) ∧ Yields ε s (f + (e - f)) (.point p) := by
  constructor
  · have := c01_evaluation_meaning hε (.subPoint (.addPointVec he hg) he)
    rwa [add_sub_cancel_left] at this
  · have := c01_evaluation_meaning hε (.addPointVec hf (.subPoint he hf))
    rwa [add_sub_cancel] at this

example := c10_point dblEps_pos (demo_means .point) (.addPointVec (demo_means .point) (demo_means (.vec .trans)))
  (.neg (demo_means (.vec .trans)))

/-! ### C11 -/

/-- **C11.** `isApprox` is reflexive, for rotations and for rigid transforms of any
representation. -/
theorem c11_refl (hε : 0 < ε) {prec : ℝ} (hp : 0 ≤ prec) :
    (∀ R, Means ε s e (.rot R) → e.isApprox ε s prec e) ∧
      (∀ T, Means ε s e (.motion T) → e.isApprox ε s prec e) := by
  constructor
  · intro R h
    have hR := Means.rotation_valid hε h
    rw [isApprox_rot hε h h, hR.inv_eq, hR.1, logMat_one hε]
    exact ⟨0, rfl, by simpa using hp⟩
  · intro T h
    obtain ⟨S, hS⟩ := rigid_inverse_exists (Means.motion_valid hε h)
    rw [isApprox_motion hε h h hS, hS]
    obtain ⟨x, hx⟩ : ∃ x, x = logRigid ε Rigid.id.R Rigid.id.t := ⟨_, rfl⟩
    have hl := logRigid_motion hε (T := Rigid.id) (ξ := (0 : Twist))
      ((motion_exp_iff _ _).mpr ⟨by
        change _ = rodr 0; rw [rodr_zero]; rfl, by
        change _ = vmat 0 *ᵥ 0; rw [Matrix.mulVec_zero]; rfl⟩)
      (by
        have : sqLen (angular (0 : Twist)) = 0 := by simp [sqLen, angular, dotProduct]
        rw [this]; positivity) (Or.inl rfl)
    rw [hl]
    exact ⟨0, rfl, by simpa using hp⟩

example := (c11_refl (e := lf (.rot .aa)) (prec := 0) dblEps_pos le_rfl).1 _ (demo_means (.rot .aa))

/-- **C11.** `isApprox` is symmetric on rotations, for every pair and every precision (half-turns and
the small-angle region included). -/
theorem c11_rot_symm (hε : 0 < ε) {X Y : M3} (he : Means ε s e (.rot X)) (hf : Means ε s f (.rot Y))
    (prec : ℝ) : e.isApprox ε s prec f ↔ f.isApprox ε s prec e := by
  have hX := Means.rotation_valid hε he
  have hY := Means.rotation_valid hε hf
  have hD : IsRotation (Y * Xᵀ) := hY.mul hX.transpose
  rw [isApprox_rot hε he hf, isApprox_rot hε hf he, hX.inv_eq, hY.inv_eq]
  have : X * Yᵀ = (Y * Xᵀ)ᵀ := by simp
  rw [this, logMat_transpose hD]
  constructor
  · rintro ⟨v, hv, hb⟩
    obtain ⟨w, hw, rfl⟩ := Option.map_eq_some_iff.mp hv
    exact ⟨w, hw, fun i => by simpa using hb i⟩
  · rintro ⟨w, hw, hb⟩
    exact ⟨-w, by rw [hw]; rfl, fun i => by simpa using hb i⟩

example := c11_rot_symm dblEps_pos (demo_means (.rot .aa)) (demo_means (.rot .mat)) (1 / 10)

theorem exp_twist_neg (ξ : Fin 3 ⊕ Fin 3 → ℝ) :
    NormedSpace.exp (twistMat (-ξ)) = (NormedSpace.exp (twistMat ξ))⁻¹ := by
  rw [← Matrix.exp_neg]
  congr 1
  unfold twistMat
  rw [Matrix.fromBlocks_neg]
  congr 1
  · rw [hat_eq, hat_eq, ← crossMatrix_neg]; rfl
  · simp
  · simp

/-- **C11 (partial).** `isApprox` is symmetric on rigid transforms whose relative rotation is the
identity, a half-turn or of regular angle.  Missing: the small-angle region, where it is false
(`c11_rigid_not_symm`). -/
theorem c11_rigid_symm_partial (hε : 0 < ε) (hε1 : ε ≤ 1) {X Y : Rigid} (he : Means ε s e (.motion X))
    (hf : Means ε s f (.motion Y)) (hr : X.R = Y.R ∨ ε < angle (X.R * Y.R⁻¹) ^ 2) (prec : ℝ) :
    e.isApprox ε s prec f ↔ f.isApprox ε s prec e := by
  have hX := Means.motion_valid hε he
  have hY := Means.motion_valid hε hf
  obtain ⟨Z, hZ⟩ := rigid_inverse_exists hY
  obtain ⟨W, hW⟩ := rigid_inverse_exists hX
  have hZR : Z.R = Y.R⁻¹ := (Matrix.inv_eq_right_inv (congrArg Rigid.R hZ)).symm
  have hWR : W.R = X.R⁻¹ := (Matrix.inv_eq_right_inv (congrArg Rigid.R hW)).symm
  have hDR : (X.comp Z).R = X.R * Y.R⁻¹ := by rw [← hZR]; rfl
  have hER : (Y.comp W).R = Y.R * X.R⁻¹ := by rw [← hWR]; rfl
  have hD : IsRotation (X.comp Z).R := by rw [hDR, hY.inv_eq]; exact hX.mul hY.transpose
  have hE : IsRotation (Y.comp W).R := by rw [hER, hX.inv_eq]; exact hY.mul hX.transpose
  have hDE : (X.comp Z).comp (Y.comp W) = Rigid.id := by
    rw [Rigid.comp_assoc, ← Rigid.comp_assoc Z, Rigid.inv_comm hZ, Rigid.id_comp, hW]
  have hT : (Y.comp W).R = (X.comp Z).Rᵀ := by
    rw [hDR, hER, hX.inv_eq, hY.inv_eq]; simp
  rw [isApprox_motion hε he hf hZ, isApprox_motion hε hf he hW]
  by_cases hπ : angle (X.comp Z).R = Real.pi
  · -- half-turn: neither side has a finite difference
    have hc : cosAngle (X.comp Z).R = -1 := by
      rw [← Real.cos_arccos hD.cosAngle_le.1 hD.cosAngle_le.2, ← rotOfAngle, hπ, Real.cos_pi]
    have hε' : ε < Real.pi * Real.pi := by nlinarith [Real.pi_gt_three]
    have l1 : logRigid ε (X.comp Z).R (X.comp Z).t = none := by
      unfold logRigid; rw [logMat_halfTurn hε' hD hc]; rfl
    have l2 : logRigid ε (Y.comp W).R (Y.comp W).t = none := by
      unfold logRigid
      rw [logMat_halfTurn hε' hE (by rw [hT, cosAngle_transpose, hc])]; rfl
    rw [l1, l2]
  · obtain ⟨ξ, h0, h1, h2, h3⟩ := exists_twist hD hπ
    have hr' : angular ξ = 0 ∨ ε < sqLen (angular ξ) := by
      rcases hr with h | h
      · left; apply h3.mp; rw [hDR, h, hY.inv_eq]; exact hY.1
      · exact Or.inr (by rwa [h2, hDR])
    have h0' : (Y.comp W).hom = NormedSpace.exp (twistMat (-ξ)) := by
      rw [exp_twist_neg, ← h0]
      have := congrArg Rigid.hom hDE
      rw [Rigid.hom_comp, Rigid.hom_id] at this
      exact (Matrix.inv_eq_right_inv this).symm
    have hneg : sqLen (angular (-ξ)) = sqLen (angular ξ) := sqLen_neg (angular ξ)
    have l1 := logRigid_motion hε h0 h1 hr'
    have l2 := logRigid_motion hε h0' (by rwa [hneg]) (by
      rcases hr' with h | h
      · left
        change -angular ξ = 0
        rw [h, neg_zero]
      · exact Or.inr (by rwa [hneg]))
    rw [l1, l2]
    constructor
    · rintro ⟨v, hv, hb⟩
      cases hv
      exact ⟨-ξ, rfl, fun i => by simpa using hb i⟩
    · rintro ⟨v, hv, hb⟩
      cases hv
      exact ⟨ξ, rfl, fun i => by simpa using hb i⟩

theorem normSq_le_of_abs {v : V3} {p : ℝ} (h : ∀ i, |v i| ≤ p) : normSq v ≤ 3 * p ^ 2 := by
  have h0 := sq_le_sq' (abs_le.mp (h 0)).1 (abs_le.mp (h 0)).2
  have h1 := sq_le_sq' (abs_le.mp (h 1)).1 (abs_le.mp (h 1)).2
  have h2 := sq_le_sq' (abs_le.mp (h 2)).1 (abs_le.mp (h 2)).2
  unfold normSq
  nlinarith

theorem logMat_close {D : M3} (hε : 0 < ε) (hD : IsRotation D) {v : V3} (hv : logMat ε D = some v)
    {prec : ℝ} (hb : ∀ i, |v i| ≤ prec) : angle D ≤ √3 * prec ∨ angle D ^ 2 ≤ ε := by
  have hp : 0 ≤ prec := (abs_nonneg _).trans (hb 0)
  by_cases hs : angle D ^ 2 ≤ ε
  · exact Or.inr hs
  left
  push Not at hs
  have hs' : Real.arccos (cosAngle D) * Real.arccos (cosAngle D) > ε := by
    rw [← rotOfAngle]; nlinarith
  have hc : cosAngle D ≠ -1 := by
    intro hc
    have hlt : ε < Real.pi * Real.pi := by
      rw [hc, Real.arccos_neg_one] at hs'; exact hs'
    rw [logMat_halfTurn hlt hD hc] at hv
    cases hv
  obtain ⟨w, hw, -, hlen, -⟩ := rodr_log hD hε hs' hc
  rw [hw] at hv
  cases hv
  rw [rotOfAngle, ← hlen, show √3 * prec = √(3 * prec ^ 2) by
    rw [Real.sqrt_mul (by norm_num), Real.sqrt_sq hp]]
  exact Real.sqrt_le_sqrt (normSq_le_of_abs hb)

/-- **C11 (partial).** `a.isApprox(b, prec)` implies that the rotation taking `b` to `a` has angle at
most `√3 · prec`, or is in the small-angle region.  Missing: the factor `√3`, without which the claim
is false (`c11_angle_exceeds_prec`), and floating-point half-turns (`c11_half_turn_floating`). -/
theorem c11_rot_close_partial (hε : 0 < ε) {X Y : M3} (he : Means ε s e (.rot X))
    (hf : Means ε s f (.rot Y)) {prec : ℝ} (h : e.isApprox ε s prec f) :
    angle (X * Y⁻¹) ≤ √3 * prec ∨ angle (X * Y⁻¹) ^ 2 ≤ ε := by
  have hX := Means.rotation_valid hε he
  have hY := Means.rotation_valid hε hf
  obtain ⟨v, hv, hb⟩ := (isApprox_rot hε he hf prec).mp h
  exact logMat_close hε (by rw [hY.inv_eq]; exact hX.mul hY.transpose) hv hb

/-- **C11 (partial).** The same for rigid transforms. -/
theorem c11_rigid_close_partial (hε : 0 < ε) {X Y : Rigid} (he : Means ε s e (.motion X))
    (hf : Means ε s f (.motion Y)) {prec : ℝ} (h : e.isApprox ε s prec f) :
    angle (X.R * Y.R⁻¹) ≤ √3 * prec ∨ angle (X.R * Y.R⁻¹) ^ 2 ≤ ε := by
  have hX := Means.motion_valid hε he
  have hY := Means.motion_valid hε hf
  obtain ⟨Z, hZ⟩ := rigid_inverse_exists hY
  have hZR : Z.R = Y.R⁻¹ := (Matrix.inv_eq_right_inv (congrArg Rigid.R hZ)).symm
  obtain ⟨ξ, hξ, hb⟩ := (isApprox_motion hε he hf hZ prec).mp h
  obtain ⟨ω, hω, hu⟩ := Option.bind_eq_some_iff.mp hξ
  obtain ⟨u, -, hu'⟩ := Option.bind_eq_some_iff.mp hu
  cases hu'
  have hDR : (X.comp Z).R = X.R * Y.R⁻¹ := by rw [← hZR]; rfl
  rw [hDR] at hω
  exact logMat_close hε (by rw [hY.inv_eq]; exact hX.mul hY.transpose) hω fun i => hb (.inl i)

/-- A memory with two rotation matrices. -/
noncomputable def twoRot (A B : M3) : Memory := fun a τ => match τ with
  | .rot .mat => if a = 1 then A else B
  | τ => demo a τ

/-- **C11 (negation).** The rotation between approximately equal rotations may have an angle larger
than the precision: the comparison is per coordinate. -/
theorem c11_angle_exceeds_prec :
    ∃ (s : Memory) (e f : SExpr) (X Y : M3) (prec : ℝ), Means dblEps s e (.rot X) ∧
      Means dblEps s f (.rot Y) ∧ e.isApprox dblEps s prec f ∧ prec < angle (X * Y⁻¹) := by
  set φ : V3 := fun _ => 1 with hφ
  have hlen : sqLen φ = 3 := by simp [sqLen, hφ, dotProduct]
  have hrot : IsRotation (rodr φ) := rodr_rotation φ
  have hs : ∀ a, Means dblEps (twoRot (rodr φ) 1) (.leaf a 0 (.rot .mat))
      (.rot (if a = 1 then rodr φ else 1)) := fun a => by
    refine Means.leaf a 0 (.rot .mat) ?_
    change IsRotation (if a = 1 then rodr φ else 1)
    split
    · exact hrot
    · exact Spec.IsRotation.one
  refine ⟨twoRot (rodr φ) 1, .leaf 1 0 (.rot .mat), .leaf 2 0 (.rot .mat), rodr φ, 1, 1, hs 1, hs 2, ?_, ?_⟩
  · rw [isApprox_rot dblEps_pos (hs 1) (hs 2)]
    refine ⟨φ, ?_, by simp [hφ]⟩
    change logMat dblEps (rodr φ * (1 : M3)⁻¹) = _
    rw [inv_one, Matrix.mul_one, rodr_exp]
    exact logMat_exp dblEps_pos (by rw [hlen]; nlinarith [Real.pi_gt_three])
      (Or.inr (by rw [hlen]; linarith [dblEps_lt]))
  · rw [inv_one, Matrix.mul_one, rotOfAngle, arccos_cosAngle_rodr]
    · rw [← sqLen_eq, hlen]
      exact Real.lt_sqrt_of_sq_lt (by norm_num)
    · intro h0; have := congrFun h0 0; simp [hφ] at this
    · rw [← sqLen_eq, hlen]
      have := Real.pi_gt_three
      exact Real.sqrt_le_iff.mpr ⟨by linarith, by nlinarith⟩

/-- **C11 (negation).** With floating-point `acos` and `sin` (`sin(acos(-1))` small but not zero), two
rotations half a turn apart compare as approximately equal at every precision: their difference is
computed as the zero vector. -/
theorem c11_half_turn_floating (acosF : ℝ → Option ℝ) (sinF : ℝ → ℝ) {a : ℝ}
    (ha : acosF (-1) = some a) (hs : sinF a ≠ 0) {X Y : M3} (hX : IsRotation X) (hY : IsRotation Y)
    (hπ : angle (X * Y⁻¹) = Real.pi) :
    ∃ v, logMatWith acosF sinF ε (X * Y⁻¹) = some v ∧ ∀ prec, 0 ≤ prec → ∀ i, |v i| ≤ prec :=
  ⟨0, c08_half_turn_floating acosF sinF ha hs (by rw [hY.inv_eq]; exact hX.mul hY.transpose) hπ,
    fun p hp i => by simpa using hp⟩

/-- The rotation by `t` about `z`. -/
noncomputable def rotZ (t : ℝ) : M3 :=
  !![Real.cos t, -Real.sin t, 0; Real.sin t, Real.cos t, 0; 0, 0, 1]

theorem rotZ_rotation (t : ℝ) : IsRotation (rotZ t) := by
  have h := Real.sin_sq_add_cos_sq t
  constructor
  · ext i j
    fin_cases i <;> fin_cases j <;>
      simp [rotZ, Matrix.mul_apply, Fin.sum_univ_three, Matrix.transpose_apply] <;> nlinarith
  · simp [rotZ, Matrix.det_fin_three]; nlinarith

/-- A memory with two rigid transforms. -/
noncomputable def twoRigid (A B : M4) : Memory := fun a τ => match τ with
  | .rigid .mat => if a = 1 then A else B
  | τ => demo a τ

theorem logRigid_rotZ {t : ℝ} (ht0 : 0 ≤ t) (ht1 : t ≤ 1) (hε : t * t ≤ ε) (x : V3) :
    logRigid ε (rotZ t) x = some (Twist.mk ![0, 0, Real.sin t]
      ((1 - (1 / 2 : ℝ) • crossMatrix ![0, 0, Real.sin t]) *ᵥ x)) := by
  have hR := rotZ_rotation t
  have hc : cosAngle (rotZ t) = Real.cos t := by
    simp [cosAngle, rotZ]
  have hax : axial (rotZ t) = ![0, 0, Real.sin t] := by
    vec3 [axial, uncrossMatrix, rotZ]
  have hl : logMat ε (rotZ t) = some ![0, 0, Real.sin t] := by
    rw [logMat_rot hR, hc, Real.arccos_cos ht0 (by linarith [Real.pi_gt_three]), hax]
    simp [not_lt.mpr hε]
  unfold logRigid
  rw [hl]
  have hs0 : 0 ≤ Real.sin t := Real.sin_nonneg_of_nonneg_of_le_pi ht0 (by linarith [Real.pi_gt_three])
  have hst : Real.sin t ≤ t := Real.sin_le ht0
  have hn : normSq ![0, 0, Real.sin t] = Real.sin t * Real.sin t := by simp [normSq]
  simp only [Option.bind_eq_bind, Option.bind_some]
  unfold logTrans
  rw [hn, if_neg (by nlinarith)]
  rfl

/-- **C11 (negation).** On rigid transforms `isApprox` is not symmetric in the small-angle region:
there the translation of the difference is only a first-order approximation. -/
theorem c11_rigid_not_symm :
    ∃ (s : Memory) (e f : SExpr) (X Y : Rigid) (prec : ℝ), Means dblEps s e (.motion X) ∧
      Means dblEps s f (.motion Y) ∧ f.isApprox dblEps s prec e ∧ ¬ e.isApprox dblEps s prec f := by
  obtain ⟨t, ht⟩ : ∃ t : ℝ, t = 2⁻¹ ^ 26 := ⟨_, rfl⟩
  have ht0 : 0 < t := by positivity
  have ht1 : t ≤ 1 / 2 := by rw [ht]; norm_num
  have htε : t * t ≤ dblEps := by rw [ht, dblEps]; norm_num
  set A : M4 := mk4 (rotZ t) ![1, 0, 0] with hA
  set B : M4 := mk4 1 0 with hB
  have hvA : ValidRigid .mat A := valid_mk4 _ (rotZ_rotation t)
  have hvB : ValidRigid .mat B := valid_mk4 _ Spec.IsRotation.one
  have h1 : Means dblEps (twoRigid A B) (.leaf 1 0 (.rigid .mat)) (.motion ⟨rotZ t, ![1, 0, 0]⟩) := by
    have := Means.leaf (ε := dblEps) (s := twoRigid A B) 1 0 (.rigid .mat) (by exact hvA)
    rwa [show obj (.rigid .mat) (twoRigid A B 1 (.rigid .mat)) = .motion ⟨rotZ t, ![1, 0, 0]⟩ from
      congrArg Obj.motion (den_mk4 _ _)] at this
  have h2 : Means dblEps (twoRigid A B) (.leaf 2 0 (.rigid .mat)) (.motion Rigid.id) := by
    have := Means.leaf (ε := dblEps) (s := twoRigid A B) 2 0 (.rigid .mat) (by exact hvB)
    rwa [show obj (.rigid .mat) (twoRigid A B 2 (.rigid .mat)) = .motion Rigid.id from
      congrArg Obj.motion (den_mk4 _ _)] at this
  have hsc := Real.sin_sq_add_cos_sq t
  have hs0 : 0 < Real.sin t := Real.sin_pos_of_pos_of_lt_pi ht0 (by linarith [Real.pi_gt_three])
  have hst : Real.sin t ≤ t := Real.sin_le ht0.le
  have hc0 : 0 < Real.cos t := Real.cos_pos_of_mem_Ioo ⟨by linarith [Real.pi_gt_three], by linarith [Real.pi_gt_three]⟩
  have hc1 : Real.cos t < 1 := by nlinarith [Real.cos_le_one t]
  have hc2 : 3 / 4 ≤ Real.cos t := by nlinarith
  -- the transposed transform
  have hinv : (⟨rotZ t, ![1, 0, 0]⟩ : Rigid).comp ⟨rotZ (-t), ![-Real.cos t, Real.sin t, 0]⟩ = Rigid.id := by
    refine Rigid.ext' ?_ ?_
    · change rotZ t * rotZ (-t) = 1
      have : rotZ (-t) = (rotZ t)ᵀ := by
        simp only [rotZ, Real.cos_neg, Real.sin_neg]
        mat3 []
      rw [this]; exact (rotZ_rotation t).1
    · change rotZ t *ᵥ ![-Real.cos t, Real.sin t, 0] + ![1, 0, 0] = 0
      funext i
      fin_cases i <;> simp [rotZ, Matrix.mulVec, dotProduct, Fin.sum_univ_three] <;> nlinarith
  have hlogE : logRigid dblEps (rotZ (-t)) ![-Real.cos t, Real.sin t, 0] =
      some (Twist.mk ![0, 0, -Real.sin t] ((1 - (1 / 2 : ℝ) • crossMatrix ![0, 0, -Real.sin t]) *ᵥ
        ![-Real.cos t, Real.sin t, 0])) := by
    have hR := rotZ_rotation (-t)
    have hc : cosAngle (rotZ (-t)) = Real.cos t := by simp [cosAngle, rotZ]
    have hax : axial (rotZ (-t)) = ![0, 0, -Real.sin t] := by vec3 [axial, uncrossMatrix, rotZ]
    have hl : logMat dblEps (rotZ (-t)) = some ![0, 0, -Real.sin t] := by
      rw [logMat_rot hR, hc, Real.arccos_cos ht0.le (by linarith [Real.pi_gt_three]), hax]
      simp [not_lt.mpr htε]
    unfold logRigid
    rw [hl]
    have hn : normSq ![0, 0, -Real.sin t] = Real.sin t * Real.sin t := by simp [normSq]
    simp only [Option.bind_eq_bind, Option.bind_some]
    unfold logTrans
    rw [hn, if_neg (by nlinarith)]
    rfl
  refine ⟨twoRigid A B, _, _, _, _, Real.cos t + Real.sin t ^ 2 / 2, h1, h2, ?_, ?_⟩
  · rw [isApprox_motion dblEps_pos h2 h1 hinv, Rigid.id_comp]
    refine ⟨_, hlogE, ?_⟩
    rintro (i | i)
    · change |![0, 0, -Real.sin t] i| ≤ _
      fin_cases i <;> simp
      · nlinarith
      · nlinarith
      · rw [abs_of_pos hs0]; nlinarith
    · change |((1 - (1 / 2 : ℝ) • crossMatrix ![0, 0, -Real.sin t]) *ᵥ ![-Real.cos t, Real.sin t, 0]) i| ≤ _
      fin_cases i <;> simp [crossMatrix, Matrix.mulVec, dotProduct, Fin.sum_univ_three, Matrix.sub_apply]
      · rw [abs_le]; constructor <;> nlinarith
      · rw [abs_le]; constructor <;> nlinarith
      · nlinarith
  · rw [isApprox_motion dblEps_pos h1 h2 (Rigid.comp_id _), Rigid.comp_id]
    rintro ⟨v, hv, hb⟩
    rw [logRigid_rotZ ht0.le (by linarith) htε] at hv
    cases hv
    have := hb (.inr 0)
    change |((1 - (1 / 2 : ℝ) • crossMatrix ![0, 0, Real.sin t]) *ᵥ ![1, 0, 0]) 0| ≤ _ at this
    simp [crossMatrix, Matrix.mulVec, dotProduct, Fin.sum_univ_three, Matrix.sub_apply] at this
    nlinarith [sq_nonneg (1 - Real.cos t), mul_pos (sub_pos.mpr hc1) (sub_pos.mpr hc1)]

/-! ### Non-vacuity -/

example : Yields dblEps demo (lf (.rot .quat) + lf (.vec .relrot) - lf (.rot .quat))
    (.vec .relrot fun _ => 1) :=
  c10_rot_plus_minus dblEps_pos dblEps_lt.le (demo_means (.rot .quat)) (demo_means (.vec .relrot))
    demo_rel_regular.2 (Or.inr demo_rel_regular.1)

example : ∃ T, Yields dblEps demo (lf (.rigid .mat) + lf (.vec .twist) - lf (.rigid .mat)) (.vec .twist T) :=
  ⟨_, c10_rigid_plus_minus dblEps_pos (demo_means (.rigid .mat)) (demo_means (.vec .twist)) (by
    change sqLen (fun _ => 1) < _
    simp only [sqLen, dotProduct, Finset.sum_const, Finset.card_univ, Fintype.card_fin]
    norm_num; nlinarith [Real.pi_gt_three]) (Or.inr (by
    change dblEps < sqLen (fun _ => 1)
    simp only [sqLen, dotProduct, Finset.sum_const, Finset.card_univ, Fintype.card_fin]
    norm_num; linarith [dblEps_lt]))⟩

/-- Quarter turn against the identity: the hypotheses of `c10_rot_minus_plus`. -/
example : Yields dblEps (twoRot !![0, -1, 0; 1, 0, 0; 0, 0, 1] 1)
    (.leaf 2 0 (.rot .mat) + (.leaf 1 0 (.rot .mat) - .leaf 2 0 (.rot .mat)))
    (.rot !![0, -1, 0; 1, 0, 0; 0, 0, 1]) := by
  have ha : angle (!![0, -1, 0; 1, 0, 0; 0, 0, 1] * (1 : M3)⁻¹) = Real.pi / 2 := by
    rw [inv_one, Matrix.mul_one]; exact demo_angle
  refine c10_rot_minus_plus dblEps_pos dblEps_lt.le
    (Means.leaf (s := twoRot !![0, -1, 0; 1, 0, 0; 0, 0, 1] 1) 1 0 (.rot .mat) (by exact demo_quarter))
    (Y := 1) (Means.leaf (s := twoRot !![0, -1, 0; 1, 0, 0; 0, 0, 1] 1) 2 0 (.rot .mat)
      (by exact Spec.IsRotation.one)) (Or.inr ?_) ?_
  · rw [ha]; have := Real.pi_gt_three
    have : (1 : ℝ) < (Real.pi / 2) ^ 4 := one_lt_pow₀ (by linarith) (by norm_num)
    linarith [dblEps_lt]
  · rw [ha]; linarith [Real.pi_pos]

/-- A quarter turn with a translation, against the identity. -/
theorem two_rigid_means : Means dblEps (twoRigid (mk4 !![0, -1, 0; 1, 0, 0; 0, 0, 1] ![1, 2, 3]) (mk4 1 0))
      (.leaf 1 0 (.rigid .mat)) (.motion ⟨!![0, -1, 0; 1, 0, 0; 0, 0, 1], ![1, 2, 3]⟩) ∧
    Means dblEps (twoRigid (mk4 !![0, -1, 0; 1, 0, 0; 0, 0, 1] ![1, 2, 3]) (mk4 1 0))
      (.leaf 2 0 (.rigid .mat)) (.motion ⟨1, 0⟩) := by
  constructor
  · rw [← show obj (.rigid .mat) (mk4 !![0, -1, 0; 1, 0, 0; 0, 0, 1] ![1, 2, 3]) =
      .motion ⟨!![0, -1, 0; 1, 0, 0; 0, 0, 1], ![1, 2, 3]⟩ from congrArg Obj.motion (den_mk4 _ _)]
    exact Means.leaf _ _ (.rigid .mat) (by exact valid_mk4 _ demo_quarter)
  · rw [← show obj (.rigid .mat) (mk4 1 0) = .motion ⟨1, 0⟩ from congrArg Obj.motion (den_mk4 _ _)]
    exact Means.leaf _ _ (.rigid .mat) (by exact valid_mk4 _ Spec.IsRotation.one)

theorem two_rigid_angle : dblEps < angle (!![0, -1, 0; 1, 0, 0; 0, 0, 1] * (1 : M3)⁻¹) ^ 2 ∧
    angle (!![0, -1, 0; 1, 0, 0; 0, 0, 1] * (1 : M3)⁻¹) ≠ Real.pi := by
  have ha : angle (!![0, -1, 0; 1, 0, 0; 0, 0, 1] * (1 : M3)⁻¹) = Real.pi / 2 := by
    rw [inv_one, Matrix.mul_one]; exact demo_angle
  have := Real.pi_gt_three
  rw [ha]
  exact ⟨by nlinarith [dblEps_lt], by linarith⟩

example := c10_rigid_minus_plus dblEps_pos two_rigid_means.1 two_rigid_means.2 (.inr two_rigid_angle.1)
  two_rigid_angle.2

example := c11_rigid_symm_partial dblEps_pos dblEps_lt.le two_rigid_means.1 two_rigid_means.2
  (.inr two_rigid_angle.1) 2

/-- A library whose `acos(-1)` is 3.14, at the half-turn about `z` from the identity. -/
example := c11_half_turn_floating (ε := dblEps) (fun _ => some 3.14) Real.sin (a := 3.14) rfl
  (Real.sin_pos_of_pos_of_lt_pi (by norm_num) Real.pi_gt_d2).ne' demoHalf_valid Spec.IsRotation.one (by
    have : ((!![-1, 0, 0; 0, -1, 0; 0, 0, 1] : M3).trace - 1) / 2 = -1 := by
      rw [Matrix.trace_fin_three]; simp; norm_num
    rw [inv_one, Matrix.mul_one, angle, this, Real.arccos_neg_one])

end WG
