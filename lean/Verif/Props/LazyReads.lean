import Verif.Props.Lazy

/-!
# C52: the arguments listed as read by the Jacobian overloads do matter

Together with `c52_reads_unary`, `c52_reads_left`, `c52_reads_right` this determines the tables: an
argument is listed as read exactly if the Jacobian depends on it.
-/

namespace WG
open Matrix

/-! ## Two values told apart by each Jacobian -/

private def i0 : (k : VK) → k.Idx
  | .scalar => (0 : Fin 1)
  | .trans => (0 : Fin 3)
  | .relrot => (0 : Fin 3)
  | .twist => .inl (0 : Fin 3)

private theorem vNorm_ne {k : VK} {v : k.Idx → ℝ} (h : v (i0 k) ≠ 0) : vNorm v ≠ 0 := by
  have : 0 < vSqNorm v := by
    have h1 : v (i0 k) * v (i0 k) ≤ ∑ i, v i * v i :=
      Finset.single_le_sum (f := fun i => v i * v i) (fun i _ => mul_self_nonneg (v i))
        (Finset.mem_univ (i0 k))
    have h2 : 0 < v (i0 k) * v (i0 k) := mul_self_pos.2 h
    exact lt_of_lt_of_le h2 h1
  exact (Real.sqrt_pos.2 this).ne'

private theorem vNorm_zero (k : VK) : vNorm (fun _ : k.Idx => (0 : ℝ)) = 0 := by
  have : vSqNorm (fun _ : k.Idx => (0 : ℝ)) = 0 := by simp [vSqNorm]
  rw [vNorm, this, Real.sqrt_zero]

private theorem quat_ne : Quat.toMatrix ⟨1, 0, 0, 0⟩ ≠ Quat.toMatrix ⟨0, 1, 0, 0⟩ := fun h => by
  have := congrFun (congrFun h 1) 1
  simp [Quat.toMatrix] at this
  norm_num at this

private theorem rot_ne : (k : RotK) → ∃ v v' : k.Val, k.matrix v ≠ k.matrix v'
  | .quat => ⟨_, _, quat_ne⟩
  | .mat => ⟨(0 : M3), (1 : M3), fun h => by
      have := congrFun (congrFun (show (0 : M3) = 1 from h) 0) 0
      simp at this⟩
  | .aa => ⟨⟨0, ![1, 0, 0]⟩, ⟨Real.pi, ![1, 0, 0]⟩, fun h => by
      have := congrFun (congrFun
        (show AngleAxis.toMatrix _ = AngleAxis.toMatrix _ from h) 1) 1
      simp [AngleAxis.toMatrix] at this
      norm_num at this⟩

private theorem rig_ne : (k : RigK) → ∃ v v' : k.Val, k.rotMatrix v ≠ k.rotMatrix v'
  | .mat => ⟨(0 : M4), (1 : M4), fun h => by
      have := congrFun (congrFun (show rotBlock 0 = rotBlock 1 from h) 0) 0
      simp [rotBlock] at this⟩
  | .compact => ⟨⟨⟨1, 0, 0, 0⟩, 0⟩, ⟨⟨0, 1, 0, 0⟩, 0⟩, quat_ne⟩

private theorem cross_ne : crossMatrix (-(0 : V3)) ≠ crossMatrix (-![1, 0, 0]) := fun h => by
  have := congrFun (congrFun h 1) 2
  simp [crossMatrix] at this

private theorem adjoint_ne {R R' : M3} (h : R ≠ R') (t t' : V3) : adjoint R t ≠ adjoint R' t' :=
  fun h' => h (by simpa [adjoint] using congrArg Matrix.toBlocks₁₁ h')

/-- `angle > 0` with a square above `ε`, and not a multiple of a full turn. -/
private theorem big (ε : ℝ) : ∃ φ : V3, normSq φ > ε ∧ φ 0 ≠ 0 ∧ φ 1 = 0 ∧ φ 2 = 0 := by
  refine ⟨![|ε| + 1, 0, 0], ?_, ?_, rfl, rfl⟩
  · have : normSq ![|ε| + 1, 0, 0] = (|ε| + 1) * (|ε| + 1) := by simp [normSq]
    rw [this]
    nlinarith [le_abs_self ε, abs_nonneg ε]
  · have := abs_nonneg ε
    show |ε| + 1 ≠ 0
    positivity

private theorem expRel_ne {ε : ℝ} {φ : V3} (h : normSq φ > ε) (h0 : φ 0 ≠ 0) {C C' : M3}
    (hC : C 1 1 ≠ C' 1 1) (h12 : C 1 0 = C' 1 0) (h1 : φ 1 = 0) (h2 : φ 2 = 0) :
    ∃ J J', expRelJac ε C φ = some J ∧ expRelJac ε C' φ = some J' ∧ J ≠ J' := by
  have hn : normSq φ ≠ 0 := by
    have : 0 < φ 0 * φ 0 := mul_self_pos.2 h0
    simp only [normSq, h1, h2]
    nlinarith
  refine ⟨_, _, by simp only [expRelJac, rdiv, if_pos h, if_neg hn]; rfl,
    by simp only [expRelJac, rdiv, if_pos h, if_neg hn]; rfl, fun hJ => hC ?_⟩
  have := congrFun (congrFun hJ 1) 2
  simp [Matrix.mul_apply, Fin.sum_univ_three, crossMatrix, outer, h1, h2, hn, h0, h12] at this
  exact this

private theorem eadeB_zero (u : V3) : eadeB 0 u = none := by
  simp [eadeB, rdiv, normSq]

private theorem eadeB_some {ω : V3} (h : ω 0 ≠ 0) (u : V3) : ∃ B, eadeB ω u = some B := by
  have hn : normSq ω ≠ 0 := by
    have : 0 < ω 0 * ω 0 := mul_self_pos.2 h
    have := mul_self_nonneg (ω 1)
    have := mul_self_nonneg (ω 2)
    simp only [normSq]
    positivity
  have hs : Real.sqrt (normSq ω) ≠ 0 := by
    refine (Real.sqrt_pos.2 (lt_of_le_of_ne ?_ hn.symm)).ne'
    simp only [normSq]
    nlinarith [mul_self_nonneg (ω 0), mul_self_nonneg (ω 1), mul_self_nonneg (ω 2)]
  exact ⟨_, by simp only [eadeB, rdiv, if_neg hn, if_neg hs]; rfl⟩

private theorem logRot_zero : logRotJac 0 = none := by simp [logRotJac, rdiv, normSq]

private theorem logRot_one : ∃ J, logRotJac ![1, 0, 0] = some J := by
  have hn : normSq ![1, 0, 0] = 1 := by simp [normSq]
  have hc : 1 - Real.cos 1 ≠ 0 := by have := Real.cos_one_le; linarith
  exact ⟨_, by simp only [logRotJac, rdiv, hn, Real.sqrt_one, one_ne_zero, if_false, if_neg hc]; rfl⟩

/-! ## The tables -/

/-- **C52 (tables, converse).** Each argument listed as read by a `jacobianImpl` of the library can
change the Jacobian. -/
theorem c52_reads_unary_needed (ε : ℝ) {a b : Ty} (op : Un a b) :
    ((Un.reads op).1 = true → ∃ v v' x, (geoLib ε).jacU op v x ≠ (geoLib ε).jacU op v' x) ∧
      ((Un.reads op).2 = true → ∃ v x x', (geoLib ε).jacU op v x ≠ (geoLib ε).jacU op v x') := by
  show (_ → ∃ v v' x, jacUn ε op v x ≠ jacUn ε op v' x) ∧
    (_ → ∃ v x x', jacUn ε op v x ≠ jacUn ε op v x')
  cases op with
  | minus k => exact ⟨nofun, nofun⟩
  | sqNorm k =>
    refine ⟨nofun, fun _ => ⟨fun _ => 0, fun _ => 0, fun _ => 1, fun h => ?_⟩⟩
    have := congrFun (congrFun (Option.some.inj h) 0) (i0 k)
    simp [sqNormJac, rowMat] at this
  | norm k =>
    refine ⟨fun _ => ⟨fun _ => 0, fun _ => 1, fun _ => 0, fun h => ?_⟩,
      fun _ => ⟨fun _ => 1, fun _ => 0, fun _ => 1, fun h => ?_⟩⟩
    · simp [jacUn, normJac] at h
    · simp only [jacUn, normJac, one_ne_zero, if_false] at h
      have := congrFun (congrFun (Option.some.inj h) 0) (i0 k)
      simp [rowMat] at this
  | normalize k =>
    refine ⟨fun _ => ⟨fun _ => 0, fun _ => 1, fun _ => 1, fun h => ?_⟩,
      fun _ => ⟨fun _ => 0, fun _ => 0, fun _ => 1, fun h => ?_⟩⟩
    · have hn : vNorm (fun _ : k.Idx => (1 : ℝ)) ≠ 0 := vNorm_ne one_ne_zero
      simp only [jacUn, normalizeJac, if_neg hn] at h
      have := congrFun (congrFun (Option.some.inj h) (i0 k)) (i0 k)
      simp [hn] at this
    · have hn : vNorm (fun _ : k.Idx => (1 : ℝ)) ≠ 0 := vNorm_ne one_ne_zero
      simp [jacUn, normalizeJac, hn, vNorm_zero k] at h
  | acos =>
    refine ⟨nofun, fun _ => ⟨fun _ => 0, fun _ => 0, fun _ => 1, fun h => ?_⟩⟩
    simp [jacUn, acosJac, rsqrt, rdiv] at h
  | invRot k =>
    obtain ⟨v, v', h⟩ := rot_ne k
    exact ⟨fun _ => ⟨v, v', v, fun h' => h (neg_injective (Option.some.inj h'))⟩, nofun⟩
  | invRigid k =>
    obtain ⟨v, v', h⟩ := rig_ne k
    exact ⟨fun _ => ⟨v, v', v, fun h' => adjoint_ne h _ _ (neg_injective (Option.some.inj h'))⟩,
      nofun⟩
  | expRel =>
    obtain ⟨φ, h, h0, h1, h2⟩ := big ε
    refine ⟨fun _ => ⟨(⟨1, 0, 0, 0⟩ : Quat), (⟨0, 1, 0, 0⟩ : Quat), φ, ?_⟩, fun _ => ?_⟩
    · obtain ⟨J, J', e, e', hn⟩ := expRel_ne (C := Quat.toMatrix ⟨1, 0, 0, 0⟩)
        (C' := Quat.toMatrix ⟨0, 1, 0, 0⟩) h h0 (by simp [Quat.toMatrix]; norm_num)
        (by simp [Quat.toMatrix]) h1 h2
      intro h'
      exact hn (Option.some.inj ((e.symm.trans h').trans e'))
    · have hn : normSq φ ≠ 0 := by
        have : 0 < φ 0 * φ 0 := mul_self_pos.2 h0
        simp only [normSq, h1, h2]
        nlinarith
      have hs : normSq ![0, φ 0, 0] = normSq φ := by simp [normSq, h1, h2]
      refine ⟨(⟨1, 0, 0, 0⟩ : Quat), φ, ![0, φ 0, 0], fun h' => ?_⟩
      have : expRelJac ε (Quat.toMatrix ⟨1, 0, 0, 0⟩) φ =
        expRelJac ε (Quat.toMatrix ⟨1, 0, 0, 0⟩) ![0, φ 0, 0] := h'
      simp only [expRelJac, rdiv, hs, if_pos h, if_neg hn] at this
      have := congrFun (congrFun (Option.some.inj this) 0) 0
      simp [Matrix.mul_apply, Fin.sum_univ_three, crossMatrix, outer, Quat.toMatrix, hn, h0] at this
  | expTwist =>
    obtain ⟨φ, h, h0, h1, h2⟩ := big ε
    obtain ⟨B, hB⟩ := eadeB_some h0 0
    have hv : ∀ C J, expRelJac ε C φ = some J →
        expTwistJac ε C (Twist.mk φ 0) = some (fromBlocks J 0 B J) := fun C J hJ => by
      have e1 : (Twist.mk φ 0).rot = φ := rfl
      have e2 : (Twist.mk φ 0).trans = 0 := rfl
      simp only [expTwistJac, e1, e2, hJ, hB]
      rfl
    obtain ⟨J, J', e, e', hn⟩ := expRel_ne (C := rotBlock 0) (C' := rotBlock 1) h h0
      (by simp [rotBlock]) (by simp [rotBlock]) h1 h2
    refine ⟨fun _ => ⟨(0 : M4), (1 : M4), Twist.mk φ 0, fun h' => ?_⟩,
      fun _ => ⟨(0 : M4), Twist.mk 0 0, Twist.mk φ 0, fun h' => ?_⟩⟩
    · have : expTwistJac ε (rotBlock 0) (Twist.mk φ 0) = expTwistJac ε (rotBlock 1) (Twist.mk φ 0) :=
        h'
      rw [hv _ _ e, hv _ _ e'] at this
      exact hn (by simpa using congrArg Matrix.toBlocks₁₁ (Option.some.inj this))
    · have : expTwistJac ε (rotBlock 0) (Twist.mk 0 0) = expTwistJac ε (rotBlock 0) (Twist.mk φ 0) :=
        h'
      have h3 : expTwistJac ε (rotBlock 0) (Twist.mk 0 0) = none := by
        have e1 : (Twist.mk 0 0).rot = 0 := rfl
        simp only [expTwistJac, e1, eadeB_zero]
        cases expRelJac ε (rotBlock 0) 0 <;> rfl
      rw [h3, hv _ _ e] at this
      cases this
  | logRot =>
    obtain ⟨J, hJ⟩ := logRot_one
    refine ⟨fun _ => ⟨(0 : V3), ![1, 0, 0], (1 : M3), fun h => ?_⟩, nofun⟩
    have : logRotJac 0 = logRotJac ![1, 0, 0] := h
    rw [logRot_zero, hJ] at this
    cases this
  | logRigid k =>
    obtain ⟨J, hJ⟩ := logRot_one
    obtain ⟨v, _, _⟩ := rig_ne k
    obtain ⟨B, hB⟩ := eadeB_some (ω := ![1, 0, 0]) one_ne_zero 0
    refine ⟨fun _ => ⟨Twist.mk 0 0, Twist.mk ![1, 0, 0] 0, v, fun h => ?_⟩, nofun⟩
    have : logRigidJac (Twist.mk 0 0) = logRigidJac (Twist.mk ![1, 0, 0] 0) := h
    have h1 : logRigidJac (Twist.mk 0 0) = none := by
      show (do let D ← logRotJac 0; _) = none
      rw [logRot_zero]; rfl
    have h2 : ∃ K, logRigidJac (Twist.mk ![1, 0, 0] 0) = some K := by
      refine ⟨fromBlocks J 0 (-J * B * J) J, ?_⟩
      have e1 : (Twist.mk ![1, 0, 0] 0).rot = ![1, 0, 0] := rfl
      have e2 : (Twist.mk ![1, 0, 0] 0).trans = 0 := rfl
      simp only [logRigidJac, e1, e2, hJ, hB]
      rfl
    obtain ⟨K, hK⟩ := h2
    rw [h1, hK] at this
    cases this
  | getRot k => exact ⟨nofun, nofun⟩
  | getTrans k =>
    obtain ⟨v, _, _⟩ := rig_ne k
    refine ⟨fun _ => ⟨(0 : V3), ![1, 0, 0], v, fun h => ?_⟩, nofun⟩
    have : fromCols (crossMatrix (-(0 : V3))) (1 : M3) = fromCols (crossMatrix (-![1, 0, 0])) 1 :=
      Option.some.inj h
    exact cross_ne (Matrix.fromCols_inj this).1
  | zeroTrans k => exact ⟨nofun, nofun⟩
  | convRot k k' => exact ⟨nofun, nofun⟩
  | convRigid k k' => exact ⟨nofun, nofun⟩
  | recast τ => exact ⟨nofun, nofun⟩

theorem c52_reads_left_needed (ε : ℝ) {a b c : Ty} (op : Bin a b c) :
    ((Bin.readsL op).1 = true → ∃ v v' x y, (geoLib ε).jacL op v x y ≠ (geoLib ε).jacL op v' x y) ∧
      ((Bin.readsL op).2.1 = true →
        ∃ v x x' y, (geoLib ε).jacL op v x y ≠ (geoLib ε).jacL op v x' y) ∧
      ((Bin.readsL op).2.2 = true →
        ∃ v x y y', (geoLib ε).jacL op v x y ≠ (geoLib ε).jacL op v x y') := by
  show (_ → ∃ v v' x y, jacL op v x y ≠ jacL op v' x y) ∧
    (_ → ∃ v x x' y, jacL op v x y ≠ jacL op v x' y) ∧
    (_ → ∃ v x y y', jacL op v x y ≠ jacL op v x y')
  cases op with
  | sum k => exact ⟨nofun, nofun, nofun⟩
  | sumPV => exact ⟨nofun, nofun, nofun⟩
  | sumVP => exact ⟨nofun, nofun, nofun⟩
  | sub k => exact ⟨nofun, nofun, nofun⟩
  | subPP => exact ⟨nofun, nofun, nofun⟩
  | subPV => exact ⟨nofun, nofun, nofun⟩
  | scale k =>
    refine ⟨nofun, nofun, fun _ => ⟨fun _ => 0, fun _ => 0, fun _ => 0, fun _ => 1, fun h => ?_⟩⟩
    have := congrFun (congrFun (Option.some.inj h) (i0 k)) 0
    simp [scaleJacL, colMat] at this
  | scaleR k =>
    refine ⟨nofun, nofun, fun _ => ⟨fun _ => 0, fun _ => 0, fun _ => 0, fun _ => 1, fun h => ?_⟩⟩
    have := congrFun (congrFun (Option.some.inj h) (i0 k)) (i0 k)
    simp [scaleRJacL] at this
  | scaleDiv k =>
    refine ⟨nofun, nofun, fun _ => ⟨fun _ => 0, fun _ => 0, fun _ => 0, fun _ => 1, fun h => ?_⟩⟩
    simp [jacL, scaleDivJacL] at h
  | dot k =>
    refine ⟨nofun, nofun, fun _ => ⟨fun _ => 0, fun _ => 0, fun _ => 0, fun _ => 1, fun h => ?_⟩⟩
    have := congrFun (congrFun (Option.some.inj h) 0) (i0 k)
    simp [dotJacL, rowMat] at this
  | product =>
    refine ⟨nofun, nofun, fun _ => ⟨fun _ => 0, fun _ => 0, fun _ => 0, fun _ => 1, fun h => ?_⟩⟩
    have := congrFun (congrFun (Option.some.inj h) 0) 0
    simp [productJacL, mat1] at this
  | divide =>
    refine ⟨nofun, nofun, fun _ => ⟨fun _ => 0, fun _ => 0, fun _ => 0, fun _ => 1, fun h => ?_⟩⟩
    simp [jacL, divideJacL, rdiv] at h
  | composeQ => exact ⟨nofun, nofun, nofun⟩
  | composeM => exact ⟨nofun, nofun, nofun⟩
  | composeRigid k k' => exact ⟨nofun, nofun, nofun⟩
  | flipQ =>
    exact ⟨nofun, nofun, fun _ => ⟨⟨0, 0, 0, 0⟩, ⟨0, 0, 0, 0⟩, _, _,
      fun h => quat_ne (Option.some.inj h)⟩⟩
  | flipM =>
    exact ⟨nofun, nofun, fun _ => ⟨(0 : M3), (0 : M3), (0 : M3), (1 : M3),
      fun h => zero_ne_one (α := M3) (Option.some.inj h)⟩⟩
  | flipRigid k k' =>
    obtain ⟨v, v', h⟩ := rig_ne k'
    obtain ⟨x, _, _⟩ := rig_ne k
    exact ⟨nofun, nofun, fun _ => ⟨x, x, v, v', fun h' => adjoint_ne h _ _ (Option.some.inj h')⟩⟩
  | rotateQ =>
    exact ⟨fun _ => ⟨(0 : V3), ![1, 0, 0], ⟨0, 0, 0, 0⟩, (0 : V3),
      fun h => cross_ne (Option.some.inj h)⟩, nofun, nofun⟩
  | rotateM =>
    exact ⟨fun _ => ⟨(0 : V3), ![1, 0, 0], (0 : M3), (0 : V3),
      fun h => cross_ne (Option.some.inj h)⟩, nofun, nofun⟩
  | transform k =>
    obtain ⟨x, _, _⟩ := rig_ne k
    refine ⟨fun _ => ⟨(0 : V3), ![1, 0, 0], x, (0 : V3), fun h => ?_⟩, nofun, nofun⟩
    have : fromCols (crossMatrix (-(0 : V3))) (1 : M3) = fromCols (crossMatrix (-![1, 0, 0])) 1 :=
      Option.some.inj h
    exact cross_ne (Matrix.fromCols_inj this).1

theorem c52_reads_right_needed (ε : ℝ) {a b c : Ty} (op : Bin a b c) :
    ((Bin.readsR op).1 = true → ∃ v v' x y, (geoLib ε).jacR op v x y ≠ (geoLib ε).jacR op v' x y) ∧
      ((Bin.readsR op).2.1 = true →
        ∃ v x x' y, (geoLib ε).jacR op v x y ≠ (geoLib ε).jacR op v x' y) ∧
      ((Bin.readsR op).2.2 = true →
        ∃ v x y y', (geoLib ε).jacR op v x y ≠ (geoLib ε).jacR op v x y') := by
  show (_ → ∃ v v' x y, jacR op v x y ≠ jacR op v' x y) ∧
    (_ → ∃ v x x' y, jacR op v x y ≠ jacR op v x' y) ∧
    (_ → ∃ v x y y', jacR op v x y ≠ jacR op v x y')
  cases op with
  | sum k => exact ⟨nofun, nofun, nofun⟩
  | sumPV => exact ⟨nofun, nofun, nofun⟩
  | sumVP => exact ⟨nofun, nofun, nofun⟩
  | sub k => exact ⟨nofun, nofun, nofun⟩
  | subPP => exact ⟨nofun, nofun, nofun⟩
  | subPV => exact ⟨nofun, nofun, nofun⟩
  | scale k =>
    refine ⟨nofun, fun _ => ⟨fun _ => 0, fun _ => 0, fun _ => 1, fun _ => 0, fun h => ?_⟩, nofun⟩
    have := congrFun (congrFun (Option.some.inj h) (i0 k)) (i0 k)
    simp [scaleJacR] at this
  | scaleR k =>
    refine ⟨nofun, fun _ => ⟨fun _ => 0, fun _ => 0, fun _ => 1, fun _ => 0, fun h => ?_⟩, nofun⟩
    have := congrFun (congrFun (Option.some.inj h) (i0 k)) 0
    simp [scaleRJacR, colMat] at this
  | scaleDiv k =>
    refine ⟨nofun, fun _ => ⟨fun _ => 0, fun _ => 0, fun _ => 1, fun _ => 1, fun h => ?_⟩,
      fun _ => ⟨fun _ => 0, fun _ => 0, fun _ => 0, fun _ => 1, fun h => ?_⟩⟩
    · simp only [jacR, scaleDivJacR, mul_one, one_ne_zero, if_false] at h
      have := congrFun (congrFun (Option.some.inj h) (i0 k)) 0
      simp [colMat] at this
    · simp [jacR, scaleDivJacR] at h
  | dot k =>
    refine ⟨nofun, fun _ => ⟨fun _ => 0, fun _ => 0, fun _ => 1, fun _ => 0, fun h => ?_⟩, nofun⟩
    have := congrFun (congrFun (Option.some.inj h) 0) (i0 k)
    simp [dotJacR, rowMat] at this
  | product =>
    refine ⟨nofun, fun _ => ⟨fun _ => 0, fun _ => 0, fun _ => 1, fun _ => 0, fun h => ?_⟩, nofun⟩
    have := congrFun (congrFun (Option.some.inj h) 0) 0
    simp [productJacR, mat1] at this
  | divide =>
    refine ⟨nofun, fun _ => ⟨fun _ => 0, fun _ => 0, fun _ => 1, fun _ => 1, fun h => ?_⟩,
      fun _ => ⟨fun _ => 0, fun _ => 0, fun _ => 0, fun _ => 1, fun h => ?_⟩⟩
    · simp only [jacR, divideJacR, rdiv, mul_one, one_ne_zero, if_false] at h
      have := congrFun (congrFun (Option.some.inj h) 0) 0
      simp [mat1] at this
    · simp [jacR, divideJacR, rdiv] at h
  | composeQ =>
    exact ⟨nofun, fun _ => ⟨⟨0, 0, 0, 0⟩, _, _, ⟨0, 0, 0, 0⟩,
      fun h => quat_ne (Option.some.inj h)⟩, nofun⟩
  | composeM =>
    exact ⟨nofun, fun _ => ⟨(0 : M3), (0 : M3), (1 : M3), (0 : M3),
      fun h => zero_ne_one (α := M3) (Option.some.inj h)⟩, nofun⟩
  | composeRigid k k' =>
    obtain ⟨v, v', h⟩ := rig_ne k
    obtain ⟨y, _, _⟩ := rig_ne k'
    exact ⟨nofun, fun _ => ⟨y, v, v', y, fun h' => adjoint_ne h _ _ (Option.some.inj h')⟩, nofun⟩
  | flipQ => exact ⟨nofun, nofun, nofun⟩
  | flipM => exact ⟨nofun, nofun, nofun⟩
  | flipRigid k k' => exact ⟨nofun, nofun, nofun⟩
  | rotateQ =>
    exact ⟨nofun, fun _ => ⟨(0 : V3), _, _, (0 : V3), fun h => quat_ne (Option.some.inj h)⟩, nofun⟩
  | rotateM =>
    exact ⟨nofun, fun _ => ⟨(0 : V3), (0 : M3), (1 : M3), (0 : V3),
      fun h => zero_ne_one (α := M3) (Option.some.inj h)⟩, nofun⟩
  | transform k =>
    obtain ⟨v, v', h⟩ := rig_ne k
    exact ⟨nofun, fun _ => ⟨(0 : V3), v, v', (0 : V3), fun h' => h (Option.some.inj h')⟩, nofun⟩

end WG
