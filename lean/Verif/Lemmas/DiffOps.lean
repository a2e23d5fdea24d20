import Verif.Lemmas.DiffLog

/-! Differentials of the stored-object operations. -/

namespace WG
open Matrix Spec Filter Topology

variable {E : Type} [NormedAddCommGroup E] [NormedSpace ℝ E] {x : E}

theorem cross_cofactor (M : M3) (v : V3) :
    crossMatrix (M *ᵥ v) * M = (adjugate M)ᵀ * crossMatrix v := by
  rw [adjugate_fin_three]
  mat3 [crossMatrix]

theorem Spec.IsRotation.cross {R : M3} (h : IsRotation R) (v : V3) :
    crossMatrix (R *ᵥ v) * R = R * crossMatrix v := by
  rw [cross_cofactor, h.adjugate_eq, transpose_transpose]

theorem Spec.IsRotation.cross_mulVec {R : M3} (h : IsRotation R) (v w : V3) :
    WG.cross (R *ᵥ v) (R *ᵥ w) = R *ᵥ WG.cross v w := by
  rw [← crossMatrix_mulVec, mulVec_mulVec, h.cross, ← mulVec_mulVec, crossMatrix_mulVec]

theorem cross_add_left (a b c : V3) : cross (a + b) c = cross a c + cross b c := by
  vec3 [cross]
theorem cross_add_right (a b c : V3) : cross a (b + c) = cross a b + cross a c := by
  vec3 [cross]
theorem cross_neg_left (a b : V3) : cross (-a) b = -cross a b := by vec3 [cross]
theorem cross_neg_right (a b : V3) : cross a (-b) = -cross a b := by vec3 [cross]
theorem cross_anti (a b : V3) : cross a b = -cross b a := by vec3 [cross]

/-- Rotation-matrix of an inverse is the transpose. -/
theorem matrix_invRot : (k : RotK) → (y : k.Val) → k.matrix (invRot k y) = (k.matrix y)ᵀ
  | .quat, q => Quat.toMatrix_conj q
  | .mat, _ => rfl
  | .aa, a => AngleAxis.inverse_toMatrix a

theorem diffM_transpose_turn {f : E → M3} {A : E → V3}
    (hf : DiffM f x fun h => crossMatrix (A h) * f x) (hR : IsRotation (f x)) :
    DiffM (fun e => (f e)ᵀ) x fun h => crossMatrix (-((f x)ᵀ *ᵥ A h)) * (f x)ᵀ := by
  refine hf.transpose.congr_right fun h => ?_
  rw [crossMatrix_neg, Matrix.neg_mul, hR.transpose.cross, transpose_mul, crossMatrix_transpose,
    Matrix.mul_neg]

theorem Spec.TurnsBy.inv : {k : RotK} → {c : E → k.Val} → {A : E → V3} → TurnsBy k c x A →
    ValidRot k (c x) → TurnsBy k (fun e => invRot k (c e)) x fun h =>
      -(k.matrix (invRot k (c x)) *ᵥ A h)
  | .quat, c, A, h, hv => by
    have hu := (validRot_quat _).mp hv
    have hR : IsRotation (c x).hom := by
      rw [← Quat.toMatrix_eq_hom hu]; exact Quat.toMatrix_isRotation hu
    apply turnsBy_quat
    refine ((diffM_transpose_turn h.hom hR).congr_left (Eventually.of_forall fun e =>
      Quat.hom_conj _)).congr_right fun h => ?_
    rw [matrix_invRot]
    change _ * (Quat.conj (c x)).hom = _
    rw [Quat.hom_conj]
    change crossMatrix (-((Quat.toMatrix (c x))ᵀ *ᵥ A h)) * _ = _
    rw [Quat.toMatrix_eq_hom hu]
  | .mat, c, A, h, hv => by
    apply turnsBy_mat
    exact diffM_transpose_turn (h.matrix hv) hv
  | .aa, c, A, h, hv => by
    have ev := h.2 rfl
    have hR : IsRotation (RotK.aa.matrix (c x)) := validRot_rotation .aa (c x) hv
    constructor
    · have d := diffM_transpose_turn (h.matrix hv) hR
      simp only [hat_eq]
      refine (d.congr_left ?_).congr_right fun h => ?_
      · filter_upwards [ev] with e he
        rw [rotDen_eq .aa _ (invRot_sound .aa (c e) he).1, matrix_invRot]
      · rw [rotDen_eq .aa _ (invRot_sound .aa (c x) hv).1, matrix_invRot]
    · intro _
      filter_upwards [ev] with e he
      exact (invRot_sound .aa (c e) he).1

/-- Conversions between rotation classes are eventually defined and turn with the same velocity. -/
theorem turns_conv (a b : RotK) {c : E → a.Val} {A : E → V3} (h : TurnsBy a c x A)
    (hv : ValidRot a (c x)) :
    ∃ d : E → b.Val, (∀ e, convRot a b (c e) = some (d e)) ∧ TurnsBy b d x A := by
  have hm := h.matrix hv
  have hR := validRot_rotation a (c x) hv
  have viaQ : TurnsBy .quat (fun e => ofM (a.matrix (c e))) x A := turnsBy_quat (diff_ofM hm hR)
  cases a <;> cases b
  · exact ⟨c, fun _ => rfl, h⟩
  · exact ⟨_, fun _ => rfl, turnsBy_mat hm⟩
  · exact ⟨_, fun _ => rfl, turns_ofQuat h.hom ((validRot_quat _).mp hv)⟩
  · exact ⟨_, fun e => ofMatrix_eq _, viaQ⟩
  · exact ⟨c, fun _ => rfl, h⟩
  · refine ⟨fun e => AngleAxis.ofQuat (ofM (c e)), fun e => ?_, turns_ofQuat viaQ.hom (ofM_spec hR).1⟩
    change (Quat.ofMatrix (c e)).map _ = _
    rw [ofMatrix_eq]; rfl
  · exact ⟨_, fun e => ofMatrix_eq _, viaQ⟩
  · exact ⟨_, fun _ => rfl, turnsBy_mat hm⟩
  · exact ⟨c, fun _ => rfl, h⟩

/-! ### Rigid transforms -/

theorem rigidDen_R (k : RigK) (y : k.Val) : (rigidDen k y).R = rotDen k.rotK (k.rot y) := by
  cases k <;> rfl
theorem rigidDen_t (k : RigK) (y : k.Val) : (rigidDen k y).t = k.trans y := by
  cases k <;> rfl
theorem rotMatrix_eq (k : RigK) (y : k.Val) : k.rotMatrix y = k.rotK.matrix (k.rot y) := by
  cases k <;> rfl
theorem rigid_validRot {k : RigK} {y : k.Val} (h : ValidRigid k y) : ValidRot k.rotK (k.rot y) := by
  cases k
  · exact ((validRigid_mat _).mp h).1
  · exact h

theorem movesBy_rigid {k : RigK} {c : E → k.Val} {A : E → Twist} :
    MovesBy (.rigid k) c x A ↔
      TurnsBy k.rotK (fun e => k.rot (c e)) x (fun h => Twist.rot (A h)) ∧
      DiffV (fun e => k.trans (c e)) x fun h =>
        cross (Twist.rot (A h)) (k.trans (c x)) + Twist.trans (A h) := by
  have e1 : (fun e => (rigidDen k (c e)).R) = fun e => rotDen k.rotK (k.rot (c e)) := by
    funext e; exact rigidDen_R k _
  have e2 : (fun e => (rigidDen k (c e)).t) = fun e => k.trans (c e) := by
    funext e; exact rigidDen_t k _
  have haa : k.rotK = .aa → ∀ᶠ e in 𝓝 x, ValidRot k.rotK (k.rot (c e)) := by
    cases k <;> simp
  change DiffM (fun e => (rigidDen k (c e)).R) x (fun h => hat (Twist.rot (A h)) * (rigidDen k (c x)).R) ∧
    DiffV (fun e => (rigidDen k (c e)).t) x
      (fun h => (Twist.rot (A h)) ⨯₃ (rigidDen k (c x)).t + Twist.trans (A h)) ↔ _
  rw [e1, e2, rigidDen_R, rigidDen_t]
  simp only [cross_eq]
  unfold TurnsBy
  tauto

/-- `MovesBy` of a rigid transform assembled from its parts. -/
theorem movesBy_rigid_mk {k : RigK} {r : E → k.rotK.Val} {t : E → V3} {A : E → Twist}
    (h1 : TurnsBy k.rotK r x fun h => Twist.rot (A h))
    (h2 : DiffV t x fun h => cross (Twist.rot (A h)) (t x) + Twist.trans (A h)) :
    MovesBy (.rigid k) (fun e => k.mk (r e) (t e)) x A := by
  rw [movesBy_rigid]
  have e1 : ∀ r t, k.rot (k.mk r t) = r := by
    cases k
    · intro r t; exact rotBlock_mk4 _ _
    · intro r t; rfl
  have e2 : ∀ r t, k.trans (k.mk r t) = t := by
    cases k
    · intro r t; exact transBlock_mk4 _ _
    · intro r t; rfl
  simp only [e1, e2]
  exact ⟨h1, h2⟩

theorem rot_mulVec (P Q S T : M3) (a : Twist) :
    Twist.rot (fromBlocks P Q S T *ᵥ a) = P *ᵥ Twist.rot a + Q *ᵥ Twist.trans a := by
  rw [fromBlocks_mulVec]; rfl
theorem trans_mulVec (P Q S T : M3) (a : Twist) :
    Twist.trans (fromBlocks P Q S T *ᵥ a) = S *ᵥ Twist.rot a + T *ᵥ Twist.trans a := by
  rw [fromBlocks_mulVec]; rfl
theorem cols_mulVec (P Q : M3) (a : Twist) :
    fromCols P Q *ᵥ a = P *ᵥ Twist.rot a + Q *ᵥ Twist.trans a := by
  rw [fromCols_mulVec]; rfl
theorem twist_rot_add (a b : Twist) : Twist.rot (a + b) = Twist.rot a + Twist.rot b := rfl
theorem twist_trans_add (a b : Twist) : Twist.trans (a + b) = Twist.trans a + Twist.trans b := rfl
theorem twist_rot_neg (a : Twist) : Twist.rot (-a) = -Twist.rot a := rfl
theorem twist_trans_neg (a : Twist) : Twist.trans (-a) = -Twist.trans a := rfl

theorem moves_invRigid (k : RigK) {c : E → k.Val} {A : E → Twist}
    (h : MovesBy (.rigid k) c x A) (hv : ValidRigid k (c x)) :
    MovesBy (.rigid k) (fun e => invRigid k (c e)) x fun h =>
      (invRigidJac (k.rotMatrix (invRigid k (c x))) (k.trans (invRigid k (c x))) *ᵥ A h : Twist) := by
  obtain ⟨hr, ht⟩ := movesBy_rigid.mp h
  have hv' := rigid_validRot hv
  have ei : ∀ y : k.Val, invRigid k y =
      k.mk (invRot k.rotK (k.rot y)) (-(k.rotMatrix y)ᵀ *ᵥ k.trans y) := by
    intro y
    cases k
    · change mk4 _ _ = mk4 _ _
      rw [Matrix.neg_mulVec]; rfl
    · change QuatTrans.mk _ _ = QuatTrans.mk _ _
      congr 1
      change -(Quat.rotate _ _) = _
      rw [Quat.rotate_eq, Matrix.neg_mulVec]
      change -(Quat.toMatrix (Quat.conj _) *ᵥ _) = _
      rw [Quat.toMatrix_conj]; rfl
  have hR : IsRotation (k.rotMatrix (c x)) := by
    rw [rotMatrix_eq]; exact validRot_rotation _ _ hv'
  have hm : DiffM (fun e => k.rotMatrix (c e)) x fun h =>
      crossMatrix (Twist.rot (A h)) * k.rotMatrix (c x) := by
    simp only [rotMatrix_eq]; exact hr.matrix hv'
  have hRi : k.rotMatrix (invRigid k (c x)) = (k.rotMatrix (c x))ᵀ := by
    rw [ei, rotMatrix_eq, rotMatrix_eq]
    rw [← matrix_invRot]
    cases k
    · exact rotBlock_mk4 _ _
    · rfl
  have hti : k.trans (invRigid k (c x)) = -(k.rotMatrix (c x))ᵀ *ᵥ k.trans (c x) := by
    rw [ei]
    cases k
    · exact transBlock_mk4 _ _
    · rfl
  rw [hRi, hti]
  simp only [ei]
  apply movesBy_rigid_mk
  · have := hr.inv hv'
    rw [matrix_invRot, ← rotMatrix_eq] at this
    refine ⟨this.1.congr_right fun h => ?_, this.2⟩
    beta_reduce
    congr 2
    rw [invRigidJac, adjoint, neg_mulVec, twist_rot_neg, rot_mulVec, zero_mulVec, add_zero]
  · have d := (diffM_transpose_turn hm hR).mulVec ht
    have d' := d.neg
    refine (d'.congr_left (Eventually.of_forall fun e => by rw [Matrix.neg_mulVec])).congr_right fun h => ?_
    rw [invRigidJac, adjoint, neg_mulVec, twist_rot_neg, rot_mulVec, zero_mulVec, add_zero,
      twist_trans_neg, trans_mulVec]
    generalize k.rotMatrix (c x) = R at *
    generalize k.trans (c x) = t
    generalize Twist.rot (A h) = a
    generalize Twist.trans (A h) = b
    rw [← mulVec_mulVec, ← mulVec_mulVec, crossMatrix_mulVec, crossMatrix_mulVec, neg_mulVec,
      mulVec_add, cross_neg_left, cross_neg_left, cross_neg_right, cross_neg_left,
      hR.transpose.cross_mulVec, hR.transpose.cross_mulVec, cross_anti t a, mulVec_neg]
    funext i
    simp only [Pi.add_apply, Pi.neg_apply]
    ring

theorem diffM_mul_turn {f g : E → M3} {A B : E → V3}
    (hf : DiffM f x fun h => crossMatrix (A h) * f x)
    (hg : DiffM g x fun h => crossMatrix (B h) * g x) (hR : IsRotation (f x)) :
    DiffM (fun e => f e * g e) x fun h => crossMatrix (A h + f x *ᵥ B h) * (f x * g x) := by
  refine (hf.mul hg).congr_right fun h => ?_
  rw [crossMatrix_add, Matrix.add_mul, ← Matrix.mul_assoc, ← Matrix.mul_assoc, hR.cross,
    ← Matrix.mul_assoc]

theorem moves_composeRigid (a b : RigK) {c : E → a.Val} {d : E → b.Val} {A B : E → Twist}
    (hc : MovesBy (.rigid a) c x A) (hd : MovesBy (.rigid b) d x B) (hv : ValidRigid a (c x))
    (hw : ValidRigid b (d x)) :
    ∃ z : E → b.Val, (∀ e, composeRigid a b (c e) (d e) = some (z e)) ∧
      MovesBy (.rigid b) z x fun h =>
        (A h + composeRigidJacR (a.rotMatrix (c x)) (a.trans (c x)) *ᵥ B h : Twist) := by
  obtain ⟨hr1, ht1⟩ := movesBy_rigid.mp hc
  obtain ⟨hr2, ht2⟩ := movesBy_rigid.mp hd
  have hv1 := rigid_validRot hv
  have hv2 := rigid_validRot hw
  have hR1 : IsRotation (a.rotMatrix (c x)) := by
    rw [rotMatrix_eq]; exact validRot_rotation _ _ hv1
  have hR2 : IsRotation (b.rotMatrix (d x)) := by
    rw [rotMatrix_eq]; exact validRot_rotation _ _ hv2
  have m1 : DiffM (fun e => a.rotMatrix (c e)) x fun h =>
      crossMatrix (Twist.rot (A h)) * a.rotMatrix (c x) := by
    simp only [rotMatrix_eq]; exact hr1.matrix hv1
  have m2 : DiffM (fun e => b.rotMatrix (d e)) x fun h =>
      crossMatrix (Twist.rot (B h)) * b.rotMatrix (d x) := by
    simp only [rotMatrix_eq]; exact hr2.matrix hv2
  have mm := diffM_mul_turn m1 m2 hR1
  obtain ⟨r, hr, hturn⟩ : ∃ r : E → b.rotK.Val, (∀ e, composeRigidRot a b (c e) (d e) = some (r e)) ∧
      TurnsBy b.rotK r x fun h => Twist.rot (A h) + a.rotMatrix (c x) *ᵥ Twist.rot (B h) := by
    cases a <;> cases b
    · exact ⟨_, fun e => rfl, turnsBy_mat mm⟩
    · exact ⟨_, fun e => ofMatrix_eq _, turnsBy_quat (diff_ofM mm (hR1.mul hR2))⟩
    · exact ⟨_, fun e => rfl, turnsBy_mat mm⟩
    · refine ⟨_, fun e => rfl, turnsBy_quat ?_⟩
      have u1 : (QuatTrans.q (c x)).IsUnit := (validRot_quat _).mp hv1
      have hR1' : IsRotation (QuatTrans.q (c x)).hom := by
        rw [← Quat.toMatrix_eq_hom u1]; exact hR1
      have := diffM_mul_turn hr1.hom hr2.hom hR1'
      refine (this.congr_left (Eventually.of_forall fun e => Quat.hom_mul _ _)).congr_right fun h => ?_
      rw [Quat.hom_mul]
      change crossMatrix (_ + Quat.toMatrix _ *ᵥ _) * _ = _
      rw [Quat.toMatrix_eq_hom u1]
      rfl
  refine ⟨fun e => b.mk (r e) (a.rotate (c e) (b.trans (d e)) + a.trans (c e)), fun e => ?_, ?_⟩
  · unfold composeRigid
    rw [hr]; rfl
  · apply movesBy_rigid_mk
    · refine ⟨hturn.1.congr_right fun h => ?_, hturn.2⟩
      beta_reduce
      congr 2
      rw [composeRigidJacR, adjoint, twist_rot_add, rot_mulVec, zero_mulVec, add_zero]
    · simp only [rigK_rotate]
      refine ((m1.mulVec ht2).add ht1).congr_right fun h => ?_
      rw [composeRigidJacR, adjoint, twist_rot_add, rot_mulVec, zero_mulVec, add_zero,
        twist_trans_add, trans_mulVec]
      generalize a.rotMatrix (c x) = R at *
      generalize a.trans (c x) = t
      generalize b.trans (d x) = u
      generalize Twist.rot (A h) = a1
      generalize Twist.trans (A h) = b1
      generalize Twist.rot (B h) = a2
      generalize Twist.trans (B h) = b2
      rw [← mulVec_mulVec, ← mulVec_mulVec, crossMatrix_mulVec, crossMatrix_mulVec, mulVec_add,
        cross_add_left, cross_add_right, cross_add_right, hR1.cross_mulVec,
        cross_anti t (R *ᵥ a2)]
      funext i
      simp only [Pi.add_apply, Pi.neg_apply]
      ring

theorem moves_transform (k : RigK) {c : E → k.Val} {v : E → V3} {A : E → Twist} {V : E → V3}
    (hc : MovesBy (.rigid k) c x A) (hd : DiffV v x V) (hv : ValidRigid k (c x)) :
    DiffV (fun e => transformEval k (c e) (v e)) x fun h =>
      transformJacL (transformEval k (c x) (v x)) *ᵥ A h + k.rotMatrix (c x) *ᵥ V h := by
  obtain ⟨hr1, ht1⟩ := movesBy_rigid.mp hc
  have hv1 := rigid_validRot hv
  have m1 : DiffM (fun e => k.rotMatrix (c e)) x fun h =>
      crossMatrix (Twist.rot (A h)) * k.rotMatrix (c x) := by
    simp only [rotMatrix_eq]; exact hr1.matrix hv1
  unfold transformEval
  simp only [rigK_rotate]
  refine ((m1.mulVec hd).add ht1).congr_right fun h => ?_
  rw [transformJacL, cols_mulVec, crossMatrix_mulVec, one_mulVec, ← mulVec_mulVec,
    crossMatrix_mulVec, cross_neg_left, cross_anti _ (Twist.rot (A h)), cross_add_right]
  funext i
  simp only [Pi.add_apply, Pi.neg_apply]
  ring

theorem turns_rotate {f : E → M3} {v : E → V3} {A V : E → V3}
    (hf : DiffM f x fun h => crossMatrix (A h) * f x) (hd : DiffV v x V) :
    DiffV (fun e => f e *ᵥ v e) x fun h =>
      crossMatrix (-(f x *ᵥ v x)) *ᵥ A h + f x *ᵥ V h := by
  refine (hf.mulVec hd).congr_right fun h => ?_
  rw [← mulVec_mulVec, crossMatrix_mulVec, crossMatrix_mulVec, cross_neg_left,
    cross_anti _ (A h), neg_neg]

end WG
