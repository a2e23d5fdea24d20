import Verif.Lemmas.DiffExpr

/-! Box-plus and box-minus near the base point, and independence of the stored representative. -/

namespace WG
open Matrix Spec Filter Topology

variable {E : Type} [NormedAddCommGroup E] [NormedSpace ℝ E] {x : E} {ε : ℝ}

theorem smallQ_zero : smallQ 0 = Quat.one := by
  simp [smallQ, Quat.ofVec, Quat.one, normSq]

theorem Quat.one_mul' (q : Quat) : Quat.one.mul q = q := by
  cases q; simp [Quat.one, Quat.mul]

theorem exp_near (hε : 0 < ε) {δ A : E → V3} (hδ : DiffV δ x A) (h0 : δ x = 0) :
    ∀ᶠ e in 𝓝 x, expRel ε (δ e) = some (smallQ (δ e)) := by
  have d := DiffV.normSq hδ
  have ev : ∀ᶠ e in 𝓝 x, normSq (δ e) * normSq (δ e) < ε := by
    apply (d.mul d).continuousAt.eventually_lt_const (u := ε)
    beta_reduce; rw [h0]; simpa [normSq] using hε
  filter_upwards [ev] with e he
  exact expRel_small he.le

theorem expTwist_near (hε : 0 < ε) {δ A : E → Twist} (hδ : DiffV δ x A) (h0 : δ x = 0) :
    ∀ᶠ e in 𝓝 x, expTwist ε (δ e) =
      some (RigK.mat.mk (1 + crossMatrix (Twist.rot (δ e))) (Twist.trans (δ e))) := by
  have d := DiffV.normSq (diffV_rot hδ)
  have ev : ∀ᶠ e in 𝓝 x, normSq (Twist.rot (δ e)) < ε := by
    apply d.continuousAt.eventually_lt_const (u := ε)
    beta_reduce; rw [h0]; simpa [normSq, Twist.rot] using hε
  filter_upwards [ev] with e he
  exact expTwist_small he.le

/-- The families of perturbed values of a leaf. -/
theorem moves_boxPlus (hε : 0 < ε) (τ : Ty) (v : τ.Val) (hv : Valid τ v) {δ A : E → τ.Idx → ℝ}
    (hδ : DiffV δ x A) (h0 : δ x = 0) :
    ∃ p : E → τ.Val, (∀ᶠ e in 𝓝 x, boxPlusVal ε τ v (δ e) = some (p e)) ∧
      den τ (p x) = den τ v ∧ Valid τ (p x) ∧ MovesBy τ p x A := by
  have c0 : crossMatrix (0 : V3) = 0 := by mat3 [crossMatrix]
  cases τ with
  | vec k =>
    refine ⟨_, Eventually.of_forall fun e => rfl, ?_, trivial, ?_⟩
    · change v + δ x = v
      rw [h0]; exact add_zero v
    · refine ((DiffV.const (n := k.Idx) v).add hδ).congr_right fun h => ?_
      rw [zero_add]
  | point =>
    refine ⟨_, Eventually.of_forall fun e => rfl, ?_, trivial, ?_⟩
    · change v + δ x = v
      rw [h0]; exact add_zero v
    · refine ((DiffV.const (n := Fin 3) v).add hδ).congr_right fun h => ?_
      rw [zero_add]
  | rot k =>
    have ev := exp_near hε hδ h0
    have tq := turns_smallQ hδ h0
    have hq0 : smallQ (δ x) = Quat.one := by rw [h0]; exact smallQ_zero
    have hu0 : (smallQ (δ x)).IsUnit := by rw [hq0]; exact quat_one_unit
    cases k with
    | quat =>
      refine ⟨fun e => (smallQ (δ e)).mul v, ?_, ?_, ?_, ?_⟩
      · filter_upwards [ev] with e he
        change (expRel ε (δ e)).bind _ = _
        rw [he]; rfl
      · change den (.rot .quat) ((smallQ (δ x)).mul v) = _
        rw [hq0, Quat.one_mul']
      · change ValidRot .quat ((smallQ (δ x)).mul v)
        rw [hq0, Quat.one_mul']; exact hv
      · refine TurnsBy.congr (turns_composeQ tq (moves_const (τ := .rot .quat) hv) hu0)
          (Eventually.of_forall fun e => rfl) fun h => ?_
        change A h = A h + _ *ᵥ (0 : V3)
        rw [mulVec_zero, add_zero]
    | mat =>
      have tm : TurnsBy .mat (fun e => (smallQ (δ e)).toMatrix) x A :=
        turnsBy_mat (tq.matrix ((validRot_quat _).mpr hu0))
      have hm0 : (smallQ (δ x)).toMatrix = 1 := by rw [hq0]; exact Quat.toMatrix_one
      refine ⟨fun e => ((smallQ (δ e)).toMatrix * v : M3), ?_, ?_, ?_, ?_⟩
      · filter_upwards [ev] with e he
        change (expRel ε (δ e)).bind _ = _
        rw [he]; rfl
      · change (smallQ (δ x)).toMatrix * v = v
        rw [hm0]; exact Matrix.one_mul _
      · change IsRotation ((smallQ (δ x)).toMatrix * v)
        rw [hm0, show (1 : M3) * v = v from Matrix.one_mul _]; exact hv
      · have hI : IsRotation (smallQ (δ x)).toMatrix := Quat.toMatrix_isRotation hu0
        refine TurnsBy.congr (turns_composeM tm (moves_const (τ := .rot .mat) hv) hI hv)
          (Eventually.of_forall fun e => rfl) fun h => ?_
        change A h = A h + _ *ᵥ (0 : V3)
        rw [mulVec_zero, add_zero]
    | aa =>
      obtain ⟨q, h1, h2, h3⟩ := convRot_sound .aa .quat v hv
      have hqu := (validRot_quat q).mp h2
      have ht : TurnsBy .quat (fun e => (smallQ (δ e)).mul q) x A := by
        refine TurnsBy.congr (turns_composeQ tq (moves_const (τ := .rot .quat) h2) hu0)
          (Eventually.of_forall fun e => rfl) fun h => ?_
        change A h = A h + _ *ᵥ (0 : V3)
        rw [mulVec_zero, add_zero]
      have hx : (smallQ (δ x)).mul q = q := by rw [hq0, Quat.one_mul']
      obtain ⟨r, k1, k2, k3⟩ := convRot_sound .quat .aa q h2
      have hr : AngleAxis.ofQuat q = r := Option.some.inj k1
      refine ⟨fun e => AngleAxis.ofQuat ((smallQ (δ e)).mul q), ?_, ?_, ?_, ?_⟩
      · filter_upwards [ev] with e he
        change (convRot .aa .quat v).bind (fun p => (expRel ε (δ e)).bind _) = _
        rw [h1, he]; rfl
      · change rotDen .aa (AngleAxis.ofQuat ((smallQ (δ x)).mul q)) = rotDen .aa v
        rw [hx, hr, k3, h3]
      · change ValidRot .aa (AngleAxis.ofQuat ((smallQ (δ x)).mul q))
        rw [hx, hr]; exact k2
      · apply turns_ofQuat ht.hom
        rw [hx]; exact hqu
  | rigid k =>
    have ev := expTwist_near hε hδ h0
    have dr := diffV_rot hδ
    have dt := diffV_trans hδ
    have hr0 : Twist.rot (δ x) = 0 := by rw [h0]; rfl
    have ht0 : Twist.trans (δ x) = 0 := by rw [h0]; rfl
    have hR0 : 1 + crossMatrix (Twist.rot (δ x)) = (1 : M3) := by rw [hr0, c0, add_zero]
    have hm : MovesBy (.rigid .mat) (fun e => RigK.mat.mk (1 + crossMatrix (Twist.rot (δ e)))
        (Twist.trans (δ e))) x A := by
      apply movesBy_rigid_mk
      · apply turnsBy_mat
        refine (diffM_add (DiffM.const (x := x) (1 : M3)) (diffM_cross dr)).congr_right fun h => ?_
        rw [hR0, Matrix.mul_one, zero_add]
      · refine dt.congr_right fun h => ?_
        rw [ht0, cross_anti, show cross (0 : V3) (Twist.rot (A h)) = 0 by vec3 [cross], neg_zero, zero_add]
    have hv0 : ValidRigid .mat (RigK.mat.mk (1 + crossMatrix (Twist.rot (δ x))) (Twist.trans (δ x))) := by
      rw [hR0]; exact valid_mk4 _ (by simp [IsRotation])
    obtain ⟨z, hz, hzm⟩ := moves_composeRigid .mat k hm (moves_const (τ := .rigid k) hv) hv0 hv
    obtain ⟨w, k1, k2, k3⟩ := composeRigid_sound .mat k _ v hv0 hv
    have hw : w = z x := by rw [hz x] at k1; exact (Option.some.inj k1).symm
    subst hw
    refine ⟨z, ?_, ?_, k2, ?_⟩
    · filter_upwards [ev] with e he
      change (expTwist ε (δ e)).bind _ = _
      rw [he]; exact hz e
    · change rigidDen k (z x) = rigidDen k v
      rw [k3]
      have : rigidDen .mat (RigK.mat.mk (1 + crossMatrix (Twist.rot (δ x))) (Twist.trans (δ x))) =
          Rigid.id := by
        rw [hR0, ht0]; exact den_mk4 1 0
      rw [this]
      unfold Rigid.comp Rigid.id Rigid.act
      simp
    · refine MovesBy.congr hzm (Eventually.of_forall fun e => rfl) fun h => ?_
      change A h = A h + _ *ᵥ (0 : Twist)
      rw [mulVec_zero, add_zero]

theorem log_near (hε : 0 < ε) {m : E → M3} {A : E → V3}
    (hm : DiffM m x fun h => crossMatrix (A h) * m x) (h1 : m x = 1) :
    (∀ᶠ e in 𝓝 x, logMat ε (m e) = some (axial (m e))) ∧ axial (m x) = 0 ∧
      DiffV (fun e => axial (m e)) x A := by
  refine ⟨?_, by rw [h1]; exact axial_one, ?_⟩
  · have hc : ContinuousAt (fun e => Real.arccos (cosAngle (m e))) x :=
      Real.continuous_arccos.continuousAt.comp (diff_cosAngle hm).continuousAt
    have ev : ∀ᶠ e in 𝓝 x, Real.arccos (cosAngle (m e)) * Real.arccos (cosAngle (m e)) < ε := by
      apply (hc.mul hc).eventually_lt_const (u := ε)
      change Real.arccos (cosAngle (m x)) * Real.arccos (cosAngle (m x)) < ε
      rw [h1, cosAngle_one]; simpa using hε
    filter_upwards [ev] with e he
    unfold logMat logMatWith
    rw [show (m e 0 0 + m e 1 1 + m e 2 2 - 1) / 2 = cosAngle (m e) from rfl]
    unfold racos
    split_ifs with hr
    · simp only [gt_iff_lt, not_lt.mpr he.le, if_false]; rfl
    · rfl
  · refine (diff_axial hm).congr_right fun h => ?_
    rw [h1, Matrix.mul_one]
    vec3 [axial, uncrossMatrix, crossMatrix]

/-- Box-minus against a base value with the same meaning. -/
theorem moves_boxMinus (hε : 0 < ε) (τ : Ty) {f : E → τ.Val} {A : E → τ.Idx → ℝ} {y : τ.Val}
    (hf : MovesBy τ f x A) (hv : Valid τ (f x)) (hy : Valid τ y) (hd : den τ y = den τ (f x)) :
    ∃ F : E → τ.Idx → ℝ, (∀ᶠ e in 𝓝 x, boxMinusVal ε τ (f e) y = some (F e)) ∧ F x = 0 ∧
      DiffV F x A := by
  cases τ with
  | vec k =>
    have hd' : y = f x := hd
    refine ⟨_, Eventually.of_forall fun e => rfl, ?_, ?_⟩
    · change f x - y = 0
      rw [hd']; exact sub_self _
    · refine (DiffV.sub (n := k.Idx) hf (DiffV.const (n := k.Idx) y)).congr_right fun h => ?_
      rw [sub_zero]
  | point =>
    have hd' : y = f x := hd
    refine ⟨_, Eventually.of_forall fun e => rfl, ?_, ?_⟩
    · change f x - y = 0
      rw [hd']; exact sub_self _
    · refine (DiffV.sub (n := Fin 3) hf (DiffV.const (n := Fin 3) y)).congr_right fun h => ?_
      rw [sub_zero]
  | rot k =>
    have hd' : rotDen k y = rotDen k (f x) := hd
    have hmd : k.matrix y = k.matrix (f x) := by rw [← rotDen_eq k y hy, ← rotDen_eq k _ hv, hd']
    have hR := validRot_rotation k y hy
    have hm := TurnsBy.matrix (k := k) hf hv
    -- the matrix of `f e * y⁻¹`
    have hz : DiffM (fun e => k.matrix (f e) * (k.matrix y)ᵀ) x fun h =>
        crossMatrix (A h) * (k.matrix (f x) * (k.matrix y)ᵀ) := by
      refine (hm.mul (DiffM.const (x := x) (k.matrix y)ᵀ)).congr_right fun h => ?_
      rw [Matrix.mul_zero, add_zero, Matrix.mul_assoc]
    have hz1 : k.matrix (f x) * (k.matrix y)ᵀ = 1 := by rw [← hmd]; exact hR.1
    cases k with
    | quat =>
      have hyu := (validRot_quat y).mp hy
      have hfu := (validRot_quat _).mp hv
      have hyc : (Quat.conj y).IsUnit := Quat.conj_isUnit hyu
      have ht := turns_composeQ hf (moves_const (x := x) (τ := .rot .quat) ((validRot_quat _).mpr hyc)) hfu
      have hu : ((f x).mul (Quat.conj y)).IsUnit := Quat.mul_isUnit hfu hyc
      have hm2 := TurnsBy.matrix (k := .quat) ht ((validRot_quat _).mpr hu)
      have e1 : Quat.toMatrix ((f x).mul (Quat.conj y)) = 1 := by
        rw [Quat.toMatrix_eq_hom hu, Quat.hom_mul, Quat.hom_conj, ← Quat.toMatrix_eq_hom hfu,
          ← Quat.toMatrix_eq_hom hyu]
        exact hz1
      have hm3 : DiffM (fun e => Quat.toMatrix ((f e).mul (Quat.conj y))) x fun h =>
          crossMatrix (A h) * Quat.toMatrix ((f x).mul (Quat.conj y)) := by
        refine hm2.congr_right fun h => ?_
        change _ = crossMatrix (A h + _ *ᵥ (0 : V3)) * _
        rw [mulVec_zero, add_zero]; rfl
      obtain ⟨ev, h0, dF⟩ := log_near hε hm3 e1
      exact ⟨_, ev, h0, dF⟩
    | mat =>
      obtain ⟨ev, h0, dF⟩ := log_near hε hz hz1
      exact ⟨_, ev, h0, dF⟩
    | aa =>
      obtain ⟨ev, h0, dF⟩ := log_near hε hz hz1
      refine ⟨_, ?_, h0, dF⟩
      filter_upwards [ev] with e he
      change logMat ε (AngleAxis.toMatrix (f e) * AngleAxis.toMatrix (AngleAxis.inverse y)) = _
      rw [AngleAxis.inverse_toMatrix]
      exact he
  | rigid k =>
    have hd' : rigidDen k y = rigidDen k (f x) := hd
    obtain ⟨i1, i2⟩ := invRigid_sound k y hy
    obtain ⟨z, hz, hzm⟩ := moves_composeRigid k k hf (moves_const (x := x) (τ := .rigid k) i1) hv i1
    obtain ⟨w, k1, k2, k3⟩ := composeRigid_sound k k (f x) _ hv i1
    have hw : w = z x := by rw [hz x] at k1; exact (Option.some.inj k1).symm
    subst hw
    have hR : IsRotation (rigidDen k y).R := by
      rw [rigidDen_eq k y hy]; exact validRigid_rotation k y hy
    have hid : rigidDen k (z x) = Rigid.id := by
      rw [k3, i2, ← hd']
      unfold Rigid.comp Rigid.id Rigid.act
      simp [hR.1, mulVec_neg, mulVec_mulVec]
    have hid' := hid
    rw [rigidDen_eq k _ k2] at hid'
    have r1 : k.rotMatrix (z x) = 1 := congrArg Rigid.R hid'
    have t1 : k.trans (z x) = 0 := congrArg Rigid.t hid'
    obtain ⟨hr, ht⟩ := movesBy_rigid.mp hzm
    have hr' : DiffM (fun e => k.rotMatrix (z e)) x fun h =>
        crossMatrix (Twist.rot (A h)) * k.rotMatrix (z x) := by
      simp only [rotMatrix_eq]
      refine (hr.matrix (rigid_validRot k2)).congr_right fun h => ?_
      change _ = crossMatrix (Twist.rot (A h + _ *ᵥ (0 : Twist))) * _
      rw [mulVec_zero, add_zero]
    have ht' : DiffV (fun e => k.trans (z e)) x fun h => Twist.trans (A h) := by
      refine ht.congr_right fun h => ?_
      change _ = cross (Twist.rot (A h + _ *ᵥ (0 : Twist))) _ + Twist.trans (A h + _ *ᵥ (0 : Twist))
      rw [mulVec_zero, add_zero, t1, cross_anti,
        show cross (0 : V3) (Twist.rot (A h)) = 0 by vec3 [cross], neg_zero, zero_add]
    obtain ⟨ev, h0, dω⟩ := log_near hε hr' r1
    have ev2 : ∀ᶠ e in 𝓝 x, normSq (axial (k.rotMatrix (z e))) < ε := by
      apply dω.normSq.continuousAt.eventually_lt_const (u := ε)
      beta_reduce; rw [h0]; simpa [normSq] using hε
    refine ⟨fun e => Twist.mk (axial (k.rotMatrix (z e)))
      ((1 - (1 / 2 : ℝ) • crossMatrix (axial (k.rotMatrix (z e)))) *ᵥ k.trans (z e)), ?_, ?_, ?_⟩
    · filter_upwards [ev, ev2] with e he he2
      change (composeRigid k k (f e) (invRigid k y)).bind _ = _
      rw [hz e]
      change logRigid ε (k.rotMatrix (z e)) (k.trans (z e)) = _
      unfold logRigid logTrans
      rw [he]
      simp [not_lt.mpr he2.le]
    · beta_reduce
      rw [h0, t1, mulVec_zero]
      funext i; cases i <;> rfl
    · apply diffV_twist
      · exact dω
      · have dM := diffM_sub (DiffM.const (x := x) (1 : M3))
          (diffM_smul (Diff.const (x := x) (1 / 2)) (diffM_cross dω))
        refine (dM.mulVec ht').congr_right fun h => ?_
        rw [t1, mulVec_zero, zero_add, h0,
          show crossMatrix (0 : V3) = 0 by mat3 [crossMatrix], smul_zero, sub_zero, one_mulVec]

/-! ### Values depend on the meaning of the stored leaves only -/

theorem un_den (hε : 0 < ε) {a b : Ty} (op : Un a b) {u u' : a.Val} (hu : Valid a u)
    (hu' : Valid a u') (hd : den a u = den a u') (hr : RegularUn ε op (den a u)) :
    ∃ v v', evalUn ε op u = some v ∧ evalUn ε op u' = some v' ∧ Valid b v ∧ Valid b v' ∧
      den b v = den b v' := by
  obtain ⟨v, h1, h2, h3⟩ := un_sound hε op u hu hr
  obtain ⟨v', k1, k2, k3⟩ := un_sound hε op u' hu' (hd ▸ hr)
  refine ⟨v, v', h1, k1, h2, k2, ?_⟩
  have same : u = u' → den b v = den b v' := by
    rintro rfl
    rw [h1] at k1
    rw [Option.some.inj k1]
  cases op with
  | minus k => exact same hd
  | sqNorm k => exact same hd
  | norm k => exact same hd
  | normalize k => exact same hd
  | acos => exact same hd
  | expRel => exact same hd
  | expTwist => exact same hd
  | logRot => exact same hd
  | invRot k =>
    have e1 : v = invRot k u := (Option.some.inj h1).symm
    have e2 : v' = invRot k u' := (Option.some.inj k1).symm
    change rotDen k v = rotDen k v'
    have hd' : rotDen k u = rotDen k u' := hd
    rw [e1, e2, (invRot_sound k u hu).2, (invRot_sound k u' hu').2, hd']
  | invRigid k =>
    have e1 : v = invRigid k u := (Option.some.inj h1).symm
    have e2 : v' = invRigid k u' := (Option.some.inj k1).symm
    change rigidDen k v = rigidDen k v'
    have hd' : rigidDen k u = rigidDen k u' := hd
    rw [e1, e2, (invRigid_sound k u hu).2, (invRigid_sound k u' hu').2, hd']
  | logRigid k =>
    have hd' : rigidDen k u = rigidDen k u' := hd
    rw [rigidDen_eq k u hu, rigidDen_eq k u' hu'] at hd'
    have r : k.rotMatrix u = k.rotMatrix u' := congrArg Rigid.R hd'
    have t : k.trans u = k.trans u' := congrArg Rigid.t hd'
    have h1' : logRigid ε (k.rotMatrix u) (k.trans u) = some v := h1
    have k1' : logRigid ε (k.rotMatrix u') (k.trans u') = some v' := k1
    rw [r, t, k1'] at h1'
    rw [Option.some.inj h1']
  | getRot k =>
    have h3' : rotDen k.rotK v = (rigidDen k u).R := h3
    have k3' : rotDen k.rotK v' = (rigidDen k u').R := k3
    have hd' : rigidDen k u = rigidDen k u' := hd
    change rotDen k.rotK v = rotDen k.rotK v'
    rw [h3', k3', hd']
  | getTrans k =>
    have h3' : v = (rigidDen k u).t := h3
    have k3' : v' = (rigidDen k u').t := k3
    have hd' : rigidDen k u = rigidDen k u' := hd
    rw [h3', k3', hd']
  | zeroTrans k =>
    have h3' : v = (0 : V3) := h3
    have k3' : v' = (0 : V3) := k3
    rw [h3', k3']
  | convRot k k' => exact h3.trans (hd.trans k3.symm)
  | convRigid k k' => exact h3.trans (hd.trans k3.symm)
  | recast τ => exact h3.trans (hd.trans k3.symm)

theorem bin_den {a b c : Ty} (op : Bin a b c) {u u' : a.Val} {w w' : b.Val} (hu : Valid a u)
    (hu' : Valid a u') (hw : Valid b w) (hw' : Valid b w') (hd : den a u = den a u')
    (hd2 : den b w = den b w') (hr : RegularBin op (den a u) (den b w)) :
    ∃ v v', evalBin op u w = some v ∧ evalBin op u' w' = some v' ∧ Valid c v ∧ Valid c v' ∧
      den c v = den c v' := by
  obtain ⟨v, h1, h2, h3⟩ := bin_sound op u w hu hw hr
  obtain ⟨v', k1, k2, k3⟩ := bin_sound op u' w' hu' hw' (hd ▸ hd2 ▸ hr)
  refine ⟨v, v', h1, k1, h2, k2, ?_⟩
  have same : u = u' → w = w' → den c v = den c v' := by
    rintro rfl rfl
    rw [h1] at k1
    rw [Option.some.inj k1]
  cases op with
  | sum k => exact same hd hd2
  | sumPV => exact same hd hd2
  | sumVP => exact same hd hd2
  | sub k => exact same hd hd2
  | subPP => exact same hd hd2
  | subPV => exact same hd hd2
  | scale k => exact same hd hd2
  | scaleR k => exact same hd hd2
  | scaleDiv k => exact same hd hd2
  | dot k => exact same hd hd2
  | product => exact same hd hd2
  | divide => exact same hd hd2
  | composeM => exact same hd hd2
  | flipM => exact same hd hd2
  | rotateM => exact same hd hd2
  | composeQ =>
    rw [← hd, ← hd2] at k3
    have h3' : den _ v = _ := h3
    exact h3'.trans (Eq.symm k3)
  | flipQ =>
    rw [← hd, ← hd2] at k3
    have h3' : den _ v = _ := h3
    exact h3'.trans (Eq.symm k3)
  | composeRigid k k' =>
    rw [← hd, ← hd2] at k3
    have h3' : den _ v = _ := h3
    exact h3'.trans (Eq.symm k3)
  | flipRigid k k' =>
    rw [← hd, ← hd2] at k3
    have h3' : den _ v = _ := h3
    exact h3'.trans (Eq.symm k3)
  | rotateQ =>
    rw [← hd, ← hd2] at k3
    have h3' : den _ v = _ := h3
    exact h3'.trans (Eq.symm k3)
  | transform k =>
    rw [← hd, ← hd2] at k3
    have h3' : den _ v = _ := h3
    exact h3'.trans (Eq.symm k3)

/-- Replacing a leaf value by another representative of the same object does not change what a
regular expression evaluates to. -/
theorem value_den (hε : 0 < ε) {s s' : Store (geoLib ε)} : {τ : Ty} → (e : Expr (geoLib ε) τ) →
    RegularAt ε s e →
    (∀ o ∈ objects e, Valid o.ty (s' o.addr o.ty) ∧
      den o.ty (s o.addr o.ty) = den o.ty (s' o.addr o.ty)) →
    ∃ v v', value s e = some v ∧ value s' e = some v' ∧ Valid τ v ∧ Valid τ v' ∧ den τ v = den τ v'
  | _, .leaf a c τ, h, hs => by
    have := hs ⟨a, c, τ⟩ (by simp [objects])
    exact ⟨_, _, rfl, rfl, h, this.1, this.2⟩
  | _, .un a op e, h, hs => by
    obtain ⟨h, hr⟩ := h
    obtain ⟨v, v', h1, h2, h3, h4, h5⟩ := value_den hε e h hs
    obtain ⟨w, w', k1, k2, k3, k4, k5⟩ := un_den hε op h3 h4 h5 (hr v h1)
    refine ⟨w, w', ?_, ?_, k3, k4, k5⟩
    · change (value _ e).bind _ = _
      rw [h1]; exact k1
    · change (value _ e).bind _ = _
      rw [h2]; exact k2
  | _, .bin a op l r, h, hs => by
    obtain ⟨hl, hr, hreg⟩ := h
    obtain ⟨v, v', h1, h2, h3, h4, h5⟩ := value_den hε l hl
      fun o ho => hs o (List.mem_append_left _ ho)
    obtain ⟨u, u', g1, g2, g3, g4, g5⟩ := value_den hε r hr
      fun o ho => hs o (List.mem_append_right _ ho)
    obtain ⟨w, w', k1, k2, k3, k4, k5⟩ := bin_den op h3 h4 g3 g4 h5 g5 (hreg v u h1 g1)
    refine ⟨w, w', ?_, ?_, k3, k4, k5⟩
    · change (value _ l).bind (fun x => (value _ r).bind _) = _
      rw [h1, g1]; exact k1
    · change (value _ l).bind (fun x => (value _ r).bind _) = _
      rw [h2, g2]; exact k2
  | _, .proxy a e, h, hs => value_den hε e h hs

theorem regular_leaves {s : Store (geoLib ε)} : {τ : Ty} → (e : Expr (geoLib ε) τ) → RegularAt ε s e →
    ∀ o ∈ objects e, Valid o.ty (s o.addr o.ty)
  | _, .leaf a c τ, h, o, ho => by
    rw [objects, List.mem_singleton] at ho
    subst ho; exact h
  | _, .un a op e, h, o, ho => regular_leaves e h.1 o ho
  | _, .bin a op l r, h, o, ho => by
    rcases List.mem_append.mp ho with h1 | h1
    · exact regular_leaves l h.1 o h1
    · exact regular_leaves r h.2.1 o h1
  | _, .proxy a e, h, o, ho => regular_leaves e h o ho

end WG
