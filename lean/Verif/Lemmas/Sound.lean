import Verif.Lemmas.Meaning
import Mathlib.LinearAlgebra.Matrix.DotProduct

/-! # Each operator computes its meaning -/

namespace WG
open Matrix Spec

theorem rodr_exp (v : V3) : rodr v = NormedSpace.exp (hat v) := by
  by_cases h : v = 0
  · subst h
    rw [rodr_zero]
    have : hat (0 : V3) = 0 := by rw [hat_eq]; exact crossMatrix_zero
    rw [this, NormedSpace.exp_zero]
  · exact rodr_eq_exp h

theorem rodr_rotation (v : V3) : IsRotation (rodr v) := by
  by_cases h : v = 0
  · subst h; rw [rodr_zero]; simp [IsRotation]
  · exact rodr_isRotation h

theorem quat_one_unit : Quat.one.IsUnit := by simp [Quat.IsUnit, Quat.one]

theorem expRel_regular {ε : ℝ} (hε : 0 < ε) {v : V3} (h : v = 0 ∨ ε < sqLen v ^ 2) :
    ∃ q, expRel ε v = some q ∧ q.IsUnit ∧ q.toMatrix = rodr v := by
  rcases h with rfl | h
  · exact ⟨_, expRel_zero hε.le, quat_one_unit, by rw [Quat.toMatrix_one, rodr_zero]⟩
  · rw [sqLen_eq, pow_two] at h
    have hv : v ≠ 0 := by
      rintro rfl
      simp [normSq] at h
      linarith
    exact ⟨_, expRel_big hε h, expQ_isUnit hv, expQ_toMatrix hv⟩

theorem cosAngle_one : cosAngle 1 = 1 := by simp [cosAngle]
theorem axial_one : axial 1 = 0 := by vec3 [axial, uncrossMatrix]

theorem logMat_one {ε : ℝ} (hε : 0 < ε) : logMat ε 1 = some 0 := by
  rw [logMat_rot (by simp [IsRotation]), cosAngle_one, axial_one]
  simp [hε.le]

theorem angle_ne_pi {R : M3} : angle R ≠ Real.pi → cosAngle R ≠ -1 := by
  intro h e
  apply h
  rw [rotOfAngle, e, Real.arccos_neg_one]

theorem arccos_lt_pi {x : ℝ} (hx : -1 < x) : Real.arccos x < Real.pi := by
  rcases lt_or_eq_of_le (Real.arccos_le_pi x) with h | h
  · exact h
  · rw [Real.arccos_eq_pi] at h; linarith

theorem cosAngle_gt {R : M3} (hR : IsRotation R) (h : cosAngle R ≠ -1) : -1 < cosAngle R :=
  lt_of_le_of_ne hR.cosAngle_le.1 (Ne.symm h)

theorem logMat_regular {ε : ℝ} (hε : 0 < ε) {R : M3} (hR : IsRotation R)
    (h : R = 1 ∨ (ε < angle R ^ 2 ∧ angle R ≠ Real.pi)) :
    ∃ v, logMat ε R = some v ∧ rodr v = R ∧ normSq v < Real.pi ^ 2 ∧
      (v = 0 ∨ normSq v > ε) := by
  rcases h with rfl | ⟨h1, h2⟩
  · exact ⟨0, logMat_one hε, rodr_zero, by simp [normSq]; positivity, Or.inl rfl⟩
  · have h2' := angle_ne_pi h2
    rw [rotOfAngle, pow_two] at h1
    obtain ⟨v, e, hv, hn, hr⟩ := rodr_log hR hε h1 h2'
    have hlt := arccos_lt_pi (cosAngle_gt hR h2')
    have e2 := sqrt_normSq_sq v
    refine ⟨v, e, hr, ?_, Or.inr ?_⟩
    · rw [← e2, hn]
      have := Real.arccos_nonneg (cosAngle R)
      nlinarith
    · rw [← e2, hn]; exact h1

theorem expTwist_regular {ε : ℝ} (hε : 0 < ε) {x : Twist} (h : x.rot = 0 ∨ ε < sqLen x.rot) :
    ∃ t, expTwist ε x = some (mk4 (rodr x.rot) t) ∧
      mk4 (rodr x.rot) t = NormedSpace.exp (blk (crossMatrix x.rot) x.trans) := by
  rcases h with h | h
  · refine ⟨x.trans, ?_, ?_⟩
    · rw [expTwist_small (by rw [h]; simp [normSq]; exact hε.le), h, crossMatrix_zero, rodr_zero,
        add_zero]
    · rw [h, crossMatrix_zero, exp_blk_zero, rodr_zero]
  · rw [sqLen_eq] at h
    have hv : x.rot ≠ 0 := by
      intro e; rw [e] at h; simp [normSq] at h; linarith
    exact ⟨_, expTwist_big hε h, (exp_blk hv _).symm⟩

theorem logRigid_regular {ε : ℝ} (hε : 0 < ε) {R : M3} (hR : IsRotation R) (t : V3)
    (h : R = 1 ∨ (ε < angle R ^ 2 ∧ angle R ≠ Real.pi)) :
    ∃ x, logRigid ε R t = some x ∧ mk4 R t = NormedSpace.exp (blk (crossMatrix x.rot) x.trans) ∧
      normSq x.rot < Real.pi ^ 2 ∧ (x.rot = 0 ∨ normSq x.rot > ε) := by
  rcases h with rfl | ⟨h1, h2⟩
  · refine ⟨Twist.mk 0 t, ?_, ?_, ?_, Or.inl rfl⟩
    · unfold logRigid logTrans
      rw [logMat_one hε]
      simp [normSq, crossMatrix_zero, not_lt.mpr hε.le]
    · change _ = NormedSpace.exp (blk (crossMatrix 0) t)
      rw [crossMatrix_zero, exp_blk_zero]
    · change normSq 0 < _
      simp [normSq]; positivity
  · have h2' := angle_ne_pi h2
    rw [rotOfAngle, pow_two] at h1
    obtain ⟨x, e, hv, hπ, hn, hr, ht, -⟩ := exp_logRigid hε hR t h1 h2'
    refine ⟨x, e, ?_, ?_, Or.inr hn⟩
    · rw [exp_blk hv, hr, ht]
    · have e2 := sqrt_normSq_sq x.rot
      have := Real.sqrt_nonneg (normSq x.rot)
      rw [← e2]; nlinarith [Real.pi_pos]

theorem valid_mk4 {R : M3} (t : V3) (h : IsRotation R) : ValidRigid .mat (mk4 R t) :=
  (validRigid_mat _).mpr ⟨by rw [rotBlock_mk4]; exact h, bottomRow_mk4 R t⟩

theorem den_mk4 (R : M3) (t : V3) : rigidDen .mat (mk4 R t) = ⟨R, t⟩ := by
  rw [rigidDen_mat, rotBlock_mk4, transBlock_mk4]

theorem valid_compact {q : Quat} (t : V3) (h : q.IsUnit) : ValidRigid .compact ⟨q, t⟩ :=
  (validRot_quat q).mpr h

theorem den_compact {q : Quat} (t : V3) (h : q.IsUnit) :
    rigidDen .compact ⟨q, t⟩ = ⟨q.toMatrix, t⟩ := rigidDen_eq .compact ⟨q, t⟩ (valid_compact t h)

theorem rigK_rotate : (k : RigK) → (x : k.Val) → (v : V3) → k.rotate x v = k.rotMatrix x *ᵥ v
  | .mat, _, _ => rfl
  | .compact, _, _ => Quat.rotate_eq _ _

theorem convRot_sound : (a b : RotK) → (x : a.Val) → ValidRot a x →
    ∃ y, convRot a b x = some y ∧ ValidRot b y ∧ rotDen b y = rotDen a x := by
  intro a b x h
  have hr := validRot_rotation a x h
  have hd := rotDen_eq a x h
  have viaQ : ∀ R : M3, IsRotation R → ∃ q : Quat, Quat.ofMatrix R = some q ∧ ValidRot .quat q ∧
      rotDen .quat q = R := by
    intro R hR
    obtain ⟨q, e, hu, hm⟩ := ofMatrix_spec hR
    exact ⟨q, e, (validRot_quat q).mpr hu, by rw [rotDen_quat_unit hu, hm]⟩
  have toAA : ∀ q : Quat, ValidRot .quat q → ValidRot .aa (AngleAxis.ofQuat q) ∧
      rotDen .aa (AngleAxis.ofQuat q) = rotDen .quat q := by
    intro q hq
    have hu := (validRot_quat q).mp hq
    obtain ⟨h1, h2⟩ := AngleAxis.ofQuat_spec hu
    exact ⟨(validRot_aa _).mpr h1, by rw [rotDen_aa h1, h2, rotDen_quat_unit hu]⟩
  cases a <;> cases b
  · exact ⟨x, rfl, h, rfl⟩
  · exact ⟨_, rfl, hr, hd.symm⟩
  · exact ⟨_, rfl, (toAA x h).1, (toAA x h).2⟩
  · rw [hd]; exact viaQ _ hr
  · exact ⟨x, rfl, h, rfl⟩
  · obtain ⟨q, e, hq, hm⟩ := viaQ x h
    refine ⟨AngleAxis.ofQuat q, ?_, (toAA q hq).1, ?_⟩
    · change (Quat.ofMatrix x).map AngleAxis.ofQuat = _
      rw [e]; rfl
    · rw [(toAA q hq).2, hm]; rfl
  · rw [hd]; exact viaQ _ hr
  · exact ⟨_, rfl, hr, hd.symm⟩
  · exact ⟨x, rfl, h, rfl⟩

theorem convRigid_sound : (a b : RigK) → (x : a.Val) → ValidRigid a x →
    ∃ y, convRigid a b x = some y ∧ ValidRigid b y ∧ rigidDen b y = rigidDen a x := by
  intro a b x h
  have hr := validRigid_rotation a x h
  have hd := rigidDen_eq a x h
  cases a <;> cases b
  · exact ⟨x, rfl, h, rfl⟩
  · obtain ⟨q, e, hu, hm⟩ := ofMatrix_spec hr
    refine ⟨⟨q, transBlock x⟩, ?_, valid_compact _ hu, ?_⟩
    · change (Quat.ofMatrix (rotBlock x)).map _ = _
      have e' : Quat.ofMatrix (rotBlock x) = some q := e
      rw [e']; rfl
    · rw [den_compact _ hu, hm]; rfl
  · refine ⟨_, rfl, valid_mk4 _ hr, ?_⟩
    rw [hd]; exact den_mk4 _ _
  · exact ⟨x, rfl, h, rfl⟩

theorem invRot_sound : (k : RotK) → (x : k.Val) → ValidRot k x →
    ValidRot k (invRot k x) ∧ rotDen k (invRot k x) = (rotDen k x)ᵀ
  | .quat, q, h => by
    have hu := (validRot_quat q).mp h
    have hc := Quat.conj_isUnit hu
    exact ⟨(validRot_quat _).mpr hc, by
      change rotDen .quat (Quat.conj q) = _
      rw [rotDen_quat_unit hc, Quat.toMatrix_conj, rotDen_quat_unit hu]⟩
  | .mat, m, h => ⟨Spec.IsRotation.transpose h, rfl⟩
  | .aa, a, h => by
    have hu := (validRot_aa a).mp h
    have hc : (AngleAxis.inverse a).IsUnit := hu
    exact ⟨(validRot_aa _).mpr hc, by
      change rotDen .aa (AngleAxis.inverse a) = _
      rw [rotDen_aa hc, AngleAxis.inverse_toMatrix, rotDen_aa hu]⟩

theorem invRigid_sound : (k : RigK) → (x : k.Val) → ValidRigid k x →
    ValidRigid k (invRigid k x) ∧
      rigidDen k (invRigid k x) = ⟨(rigidDen k x).Rᵀ, -((rigidDen k x).Rᵀ *ᵥ (rigidDen k x).t)⟩ := by
  intro k x h
  have hr := validRigid_rotation k x h
  have hd := rigidDen_eq k x h
  rw [hd]
  cases k
  · exact ⟨valid_mk4 _ hr.transpose, den_mk4 _ _⟩
  · have hu := Quat.conj_isUnit ((validRot_quat _).mp h)
    refine ⟨valid_compact _ hu, ?_⟩
    change rigidDen .compact ⟨Quat.conj x.q, -(Quat.rotate (Quat.conj x.q) x.t)⟩ = _
    rw [den_compact _ hu, Quat.rotate_eq, Quat.toMatrix_conj]
    rfl

theorem composeRigid_sound (a b : RigK) (x : a.Val) (y : b.Val) (hx : ValidRigid a x)
    (hy : ValidRigid b y) :
    ∃ z, composeRigid a b x y = some z ∧ ValidRigid b z ∧
      rigidDen b z = (rigidDen a x).comp (rigidDen b y) := by
  have rx := validRigid_rotation a x hx
  have ry := validRigid_rotation b y hy
  rw [rigidDen_eq a x hx, rigidDen_eq b y hy]
  have rot : ∃ R, composeRigidRot a b x y = some R ∧ ValidRot b.rotK R ∧
      b.rotK.matrix R = a.rotMatrix x * b.rotMatrix y := by
    have rxy := Spec.IsRotation.mul rx ry
    cases a <;> cases b
    · exact ⟨_, rfl, rxy, rfl⟩
    · obtain ⟨q, e, hu, hm⟩ := ofMatrix_spec rxy
      exact ⟨q, e, (validRot_quat q).mpr hu, hm⟩
    · exact ⟨_, rfl, rxy, rfl⟩
    · have ux := (validRot_quat _).mp hx
      have uy := (validRot_quat _).mp hy
      exact ⟨_, rfl, (validRot_quat _).mpr (Quat.mul_isUnit ux uy), Quat.toMatrix_mul ux uy⟩
  obtain ⟨R, e, hv, hm⟩ := rot
  refine ⟨b.mk R (a.rotate x (b.trans y) + a.trans x), ?_, ?_, ?_⟩
  · unfold composeRigid
    rw [e]; rfl
  · cases b
    · exact valid_mk4 _ hv
    · exact hv
  · rw [rigK_rotate]
    cases b
    · refine (den_mk4 _ _).trans ?_
      have hm' : R = a.rotMatrix x * rotBlock y := hm
      rw [hm']; rfl
    · refine (den_compact _ ((validRot_quat _).mp hv)).trans ?_
      have hm' : Quat.toMatrix R = a.rotMatrix x * (QuatTrans.q y).toMatrix := hm
      rw [hm']; rfl

theorem vNorm_sq {n : Type} [Fintype n] (v : n → ℝ) : vNorm v ^ 2 = v ⬝ᵥ v := by
  unfold vNorm vSqNorm
  exact Real.sq_sqrt (Finset.sum_nonneg fun i _ => mul_self_nonneg (v i))

theorem dot_self_nonneg {n : Type} [Fintype n] (v : n → ℝ) : 0 ≤ v ⬝ᵥ v :=
  Finset.sum_nonneg fun i _ => mul_self_nonneg (v i)

theorem dot_self_eq_zero {n : Type} [Fintype n] {v : n → ℝ} : v ⬝ᵥ v = 0 ↔ v = 0 :=
  dotProduct_self_eq_zero

/-- Every unary operator, on a valid regular operand, returns a valid value with the specified
meaning. -/
theorem un_sound {ε : ℝ} (hε : 0 < ε) {a b : Ty} (op : Un a b) (x : a.Val) (hx : Valid a x)
    (hr : RegularUn ε op (den a x)) :
    ∃ y, evalUn ε op x = some y ∧ Valid b y ∧ UnMeans op (den a x) (den b y) := by
  cases op with
  | minus k => exact ⟨_, rfl, trivial, fun i => rfl⟩
  | sqNorm k => exact ⟨_, rfl, trivial, rfl⟩
  | norm k => exact ⟨_, rfl, trivial, Real.sqrt_nonneg _, vNorm_sq (n := k.Idx) x⟩
  | normalize k =>
    refine ⟨_, rfl, trivial, ?_⟩
    change (x = 0 ∧ vNormalize (n := k.Idx) x = 0) ∨ (vNormalize (n := k.Idx) x ⬝ᵥ
      vNormalize (n := k.Idx) x = 1 ∧ ∃ c : ℝ, 0 < c ∧ vNormalize (n := k.Idx) x = c • x)
    by_cases hz : x = 0
    · left
      refine ⟨hz, ?_⟩
      unfold vNormalize vSqNorm
      rw [if_neg]
      · exact hz
      · rw [hz]; simp
    · right
      have hp : vSqNorm (n := k.Idx) x > 0 :=
        lt_of_le_of_ne (dot_self_nonneg _) fun e => hz (dot_self_eq_zero.mp e.symm)
      have hn : 0 < vNorm (n := k.Idx) x := Real.sqrt_pos.mpr hp
      have e : vNormalize (n := k.Idx) x = (vNorm (n := k.Idx) x)⁻¹ • x := by
        unfold vNormalize
        rw [if_pos hp]
        funext i
        simp [div_eq_inv_mul]
      refine ⟨?_, _, inv_pos.mpr hn, e⟩
      rw [e, smul_dotProduct, dotProduct_smul, ← vNorm_sq, smul_eq_mul, smul_eq_mul]
      field_simp
  | acos =>
    obtain ⟨h1, h2⟩ : -1 ≤ x (0 : Fin 1) ∧ x (0 : Fin 1) ≤ 1 := hr
    refine ⟨sc (Real.arccos (x (0 : Fin 1))), ?_, trivial, ?_⟩
    · change (sACos _).map sc = _
      unfold sACos racos
      rw [if_pos ⟨h1, h2⟩]; rfl
    · exact ⟨Real.cos_arccos h1 h2, Real.arccos_nonneg _, Real.arccos_le_pi _⟩
  | invRot k =>
    obtain ⟨h1, h2⟩ := invRot_sound k x hx
    refine ⟨_, rfl, h1, ?_⟩
    change rotDen k x * rotDen k (invRot k x) = 1
    rw [h2]
    exact (rotDen_rotation hx).1
  | invRigid k =>
    obtain ⟨h1, h2⟩ := invRigid_sound k x hx
    refine ⟨_, rfl, h1, ?_⟩
    change (rigidDen k x).comp (rigidDen k (invRigid k x)) = Rigid.id
    rw [h2]
    have hR : IsRotation (rigidDen k x).R := by
      rw [rigidDen_eq k x hx]; exact validRigid_rotation k x hx
    unfold Rigid.comp Rigid.id Rigid.act
    simp [hR.1, mulVec_neg, mulVec_mulVec]
  | expRel =>
    obtain ⟨q, e, hu, hm⟩ := expRel_regular hε (v := x) hr
    refine ⟨q, e, (validRot_quat q).mpr hu, ?_⟩
    change rotDen .quat q = NormedSpace.exp (hat x)
    rw [rotDen_quat_unit hu, hm, rodr_exp]
  | expTwist =>
    obtain ⟨t, e, hm⟩ := expTwist_regular hε (x := x) hr
    refine ⟨_, e, valid_mk4 _ (rodr_rotation _), ?_⟩
    change (rigidDen .mat (mk4 (rodr (Twist.rot x)) t)).hom = NormedSpace.exp (twistMat x)
    rw [den_mk4, hom_eq_exp_iff]
    exact hm
  | logRot =>
    obtain ⟨v, e, hm, hl, -⟩ := logMat_regular hε (R := x) hx hr
    refine ⟨v, e, trivial, ?_, ?_⟩
    · change x = NormedSpace.exp (hat v)
      rw [← rodr_exp, hm]
    · change sqLen v < _
      rw [sqLen_eq]; exact hl
  | logRigid k =>
    have hd := rigidDen_eq k x hx
    have hr' : k.rotMatrix x = 1 ∨ (ε < angle (k.rotMatrix x) ^ 2 ∧ angle (k.rotMatrix x) ≠ Real.pi) := by
      have : (rigidDen k x).R = 1 ∨ (ε < angle (rigidDen k x).R ^ 2 ∧ angle (rigidDen k x).R ≠ Real.pi) := hr
      rwa [hd] at this
    obtain ⟨y, e, hm, hl, -⟩ := logRigid_regular hε (validRigid_rotation k x hx) (k.trans x) hr'
    refine ⟨y, e, trivial, ?_, ?_⟩
    · change (rigidDen k x).hom = NormedSpace.exp (twistMat y)
      rw [hd, hom_eq_exp_iff]
      exact hm
    · change sqLen (Twist.rot y) < _
      rw [sqLen_eq]; exact hl
  | getRot k =>
    have hd := rigidDen_eq k x hx
    have hv : ValidRot k.rotK (k.rot x) := by
      cases k
      · exact ((validRigid_mat _).mp hx).1
      · exact hx
    refine ⟨_, rfl, hv, ?_⟩
    change rotDen k.rotK (k.rot x) = (rigidDen k x).R
    rw [hd, rotDen_eq _ _ hv]
    cases k <;> rfl
  | getTrans k =>
    refine ⟨_, rfl, trivial, ?_⟩
    change k.trans x = (rigidDen k x).t
    rw [rigidDen_eq k x hx]
  | zeroTrans k => exact ⟨_, rfl, trivial, rfl⟩
  | convRot a b => exact convRot_sound a b x hx
  | convRigid a b => exact convRigid_sound a b x hx
  | recast τ => exact ⟨x, rfl, hx, rfl⟩

/-- Every binary operator, on valid regular operands, returns a valid value with the specified
meaning. -/
theorem bin_sound {a b c : Ty} (op : Bin a b c) (x : a.Val) (y : b.Val) (hx : Valid a x)
    (hy : Valid b y) (hr : RegularBin op (den a x) (den b y)) :
    ∃ z, evalBin op x y = some z ∧ Valid c z ∧ BinMeans op (den a x) (den b y) (den c z) := by
  cases op with
  | sum k => exact ⟨_, rfl, trivial, fun i => rfl⟩
  | sumPV => exact ⟨_, rfl, trivial, rfl⟩
  | sumVP => exact ⟨_, rfl, trivial, rfl⟩
  | sub k => exact ⟨_, rfl, trivial, fun i => rfl⟩
  | subPP => exact ⟨_, rfl, trivial, rfl⟩
  | subPV => exact ⟨_, rfl, trivial, rfl⟩
  | scale k => exact ⟨_, rfl, trivial, fun i => rfl⟩
  | scaleR k => exact ⟨_, rfl, trivial, fun i => rfl⟩
  | scaleDiv k =>
    have h : y (0 : Fin 1) ≠ 0 := hr
    refine ⟨fun i => x i / y (0 : Fin 1), ?_, trivial, ?_⟩
    · change vScaleDiv (n := k.Idx) x _ = _
      unfold vScaleDiv
      rw [if_neg h]
    · intro i
      change x i / y (0 : Fin 1) * y (0 : Fin 1) = x i
      field_simp
  | dot k => exact ⟨_, rfl, trivial, rfl⟩
  | product => exact ⟨_, rfl, trivial, rfl⟩
  | divide =>
    have h : y (0 : Fin 1) ≠ 0 := hr
    refine ⟨sc (x (0 : Fin 1) / y (0 : Fin 1)), ?_, trivial, ?_⟩
    · change (sDivide _ _).map sc = _
      unfold sDivide rdiv
      rw [if_neg h]; rfl
    · change x (0 : Fin 1) / y (0 : Fin 1) * y (0 : Fin 1) = x (0 : Fin 1)
      field_simp
  | composeQ =>
    have ux := (validRot_quat x).mp hx
    have uy := (validRot_quat y).mp hy
    have uxy := Quat.mul_isUnit ux uy
    refine ⟨_, rfl, (validRot_quat _).mpr uxy, ?_⟩
    change rotDen .quat (Quat.mul x y) = rotDen .quat x * rotDen .quat y
    rw [rotDen_quat_unit uxy, rotDen_quat_unit ux, rotDen_quat_unit uy, Quat.toMatrix_mul ux uy]
  | composeM => exact ⟨_, rfl, Spec.IsRotation.mul hx hy, rfl⟩
  | composeRigid a b => exact composeRigid_sound a b x y hx hy
  | flipQ =>
    have ux := (validRot_quat x).mp hx
    have uy := (validRot_quat y).mp hy
    have uxy := Quat.mul_isUnit uy ux
    refine ⟨_, rfl, (validRot_quat _).mpr uxy, ?_⟩
    change rotDen .quat (Quat.mul y x) = rotDen .quat y * rotDen .quat x
    rw [rotDen_quat_unit uxy, rotDen_quat_unit ux, rotDen_quat_unit uy, Quat.toMatrix_mul uy ux]
  | flipM => exact ⟨_, rfl, Spec.IsRotation.mul hy hx, rfl⟩
  | flipRigid a b => exact composeRigid_sound b a y x hy hx
  | rotateQ =>
    refine ⟨_, rfl, trivial, ?_⟩
    change Quat.rotate x y = rotDen .quat x *ᵥ y
    rw [Quat.rotate_eq, rotDen_quat_unit ((validRot_quat x).mp hx)]
  | rotateM => exact ⟨_, rfl, trivial, rfl⟩
  | transform k =>
    refine ⟨_, rfl, trivial, ?_⟩
    change transformEval k x y = (rigidDen k x).act y
    rw [rigidDen_eq k x hx]
    unfold transformEval Rigid.act
    rw [rigK_rotate]

end WG
