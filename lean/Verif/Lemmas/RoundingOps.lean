import Verif.Lemmas.RoundingConv

/-! # Rounding errors of the operators, one by one -/

namespace WG.Round
open Matrix Spec

variable {F : Fl}

theorem le_rotateFactor (k : RotK) {A B : ℝ} (hA : 1 ≤ A) (hB : 1 ≤ B) :
    A ≤ rotateFactor F.u k A B := by
  have g7 := growth_nonneg F 7
  have g3 := growth_nonneg F 3
  cases k with
  | quat =>
    have h1 : 1 ≤ A ^ 5 * B * (1 + 7 * growth F.u 7) :=
      one_le_mul' (one_le_mul' (one_le_pow₀ hA) hB) (by linarith)
    have e : rotateFactor F.u .quat A B = A * (A ^ 5 * B * (1 + 7 * growth F.u 7)) := by
      change A ^ 6 * B * (1 + 7 * growth F.u 7) = _
      ring
    rw [e]
    nlinarith
  | mat =>
    have h1 : 1 ≤ B * (1 + 2 * growth F.u 3) := one_le_mul' hB (by linarith)
    have e : rotateFactor F.u .mat A B = A * (B * (1 + 2 * growth F.u 3)) := mul_assoc _ _ _
    rw [e]
    nlinarith
  | aa =>
    change A ≤ A * B
    nlinarith

theorem len_sc (x : Fin 1 → ℝ) : len x = |x 0| := by
  rw [Spec.len, dotProduct, Fin.sum_univ_one, Real.sqrt_mul_self_eq_abs]

theorem rotate_eq_rotVec (k : RigK) (x : k.Val) (v : V3) : k.rotate x v = rotVec k.rotK (k.rot x) v := by
  cases k <;> rfl

theorem invRigid_eq (k : RigK) (x : k.Val) : invRigid k x = k.mk (invRot k.rotK (k.rot x))
    (-(rotVec k.rotK (invRot k.rotK (k.rot x)) (k.trans x))) := by
  cases k <;> rfl

theorem le_convFactor {A : ℝ} (hA : 1 ≤ A) : A ≤ convFactor F.u A := by
  have g4 := growth_nonneg F 4
  unfold convFactor
  nlinarith [mul_nonneg (sq_nonneg A) g4]

/-- Unary operators. -/
theorem un_near {ε : ℝ} {a b : Ty} (op : Un a b) {x x' : a.Val} {y z : b.Val} {A S : ℝ}
    (hA : 1 ≤ A) (hS : 0 ≤ S) (hx : Ok a S x) (hw : Within a (A - 1) S x x')
    (he : evalUn ε op x = some y) (h : FlUn F op x' z) :
    0 ≤ ampUn op S ∧ 1 ≤ facUn F.u op A ∧ Ok b (ampUn op S) y ∧
      Within b (facUn F.u op A - 1) (ampUn op S) y z := by
  have U := one_le_U F
  cases op with
  | minus k =>
    cases Option.some.inj he
    cases h
    refine ⟨hS, hA, ?_, ?_⟩
    · exact (len_neg (n := k.Idx) _).le.trans hx
    · refine le_trans (le_of_eq ?_) hw
      change len (n := k.Idx) (-x' - -x) = len (n := k.Idx) (x' - x)
      rw [← len_neg]
      congr 1
      abel
  | sqNorm k =>
    cases Option.some.inj he
    have := dot_near hA hA hx hx hw hw h
    refine ⟨mul_nonneg hS hS, one_le_mul' (one_le_mul' hA hA) (one_le_pow₀ U), ?_, ?_⟩
    · exact (len_sc _).le.trans this.1
    · exact (len_sc _).le.trans this.2
  | norm k =>
    cases Option.some.inj he
    obtain ⟨t, ht, hz⟩ := h
    have := norm_near hA hx hw ht hz
    refine ⟨hS, one_le_mul' hA (one_le_pow₀ U), ?_, ?_⟩
    · exact (len_sc _).le.trans (((abs_of_nonneg (Real.sqrt_nonneg _)).le).trans hx)
    · exact (len_sc _).le.trans this
  | normalize k => exact h.elim
  | acos => exact h.elim
  | invRot k =>
    cases Option.some.inj he
    cases h
    have := inv_near hx (within_rot_size.mp hw)
    exact ⟨hS, hA, this.1, within_rot_size.mp this.2⟩
  | invRigid k =>
    cases Option.some.inj he
    obtain ⟨t, ht, rfl⟩ := h
    obtain ⟨h1, h2⟩ := within_rigid.mp hw
    have i := inv_near hx.1 h1
    have r := rotate_near i.1 hA hA hx.2 i.2 h2 ht
    rw [invRigid_eq]
    refine ⟨hS, one_le_rotateFactor _ hA hA, ⟨?_, ?_⟩, within_rigid.mpr ⟨?_, ?_⟩⟩
    · rw [(rot_mk k _ _).1]
      exact i.1
    · rw [(rot_mk k _ _).2, len_neg, r.2]
      exact hx.2
    · rw [(rot_mk k _ _).1, (rot_mk k _ _).1]
      exact within_mono (sub_le_sub_right (le_rotateFactor _ hA hA) 1) i.2
    · rw [(rot_mk k _ _).2, (rot_mk k _ _).2]
      refine le_trans (le_of_eq ?_) r.1
      rw [← len_neg]
      congr 1
      abel
  | expRel => exact h.elim
  | expTwist => exact h.elim
  | logRot => exact h.elim
  | logRigid k => exact h.elim
  | getRot k =>
    cases Option.some.inj he
    cases h
    exact ⟨hS, hA, hx.1, within_rot_size.mp (within_rigid.mp hw).1⟩
  | getTrans k =>
    cases Option.some.inj he
    cases h
    exact ⟨hS, hA, hx.2, (within_rigid.mp hw).2⟩
  | zeroTrans k =>
    cases Option.some.inj he
    cases h
    refine ⟨hS, hA, ?_, ?_⟩
    · change len (0 : V3) ≤ S
      rw [len_zero]
      exact hS
    · change len ((0 : V3) - 0) ≤ (A - 1) * S
      rw [sub_zero, len_zero]
      exact mul_nonneg (by linarith) hS
  | convRot a b =>
    cases a <;> cases b
    · cases Option.some.inj he
      cases h
      exact ⟨hS, hA, hx, hw⟩
    · cases Option.some.inj he
      exact ⟨hS, conv_near hx hA hw h⟩
    · exact h.elim
    · exact h.elim
    · cases Option.some.inj he
      cases h
      exact ⟨hS, hA, hx, hw⟩
    all_goals exact h.elim
  | convRigid a b =>
    cases a <;> cases b
    · cases Option.some.inj he
      cases h
      exact ⟨hS, hA, hx, hw⟩
    · exact h.elim
    · cases Option.some.inj he
      obtain ⟨R, hR, rfl⟩ := h
      obtain ⟨h1, h2, h3⟩ := conv_near hx.1 hA hw.1 hR
      refine ⟨hS, h1, ⟨?_, ?_⟩, ?_, ?_⟩
      · change (rotBlock (mk4 _ _))ᵀ * rotBlock (mk4 _ _) = 1
        rw [rotBlock_mk4]
        exact h2
      · change len (transBlock (mk4 _ _)) ≤ _
        rw [transBlock_mk4]
        exact hx.2
      · rw [rotBlock_mk4, rotBlock_mk4]
        exact h3
      · rw [transBlock_mk4, transBlock_mk4]
        exact hw.2.trans (mul_le_mul_of_nonneg_right (sub_le_sub_right (le_convFactor hA) 1) hS)
    · cases Option.some.inj he
      cases h
      exact ⟨hS, hA, hx, hw⟩
  | recast τ =>
    cases Option.some.inj he
    cases h
    exact ⟨hS, hA, hx, hw⟩

theorem sub_near {n : Type} [Fintype n] {v w v' w' z : n → ℝ} {A B S T : ℝ} (hA : 1 ≤ A) (hB : 1 ≤ B)
    (hv : len v ≤ S) (hw : len w ≤ T) (h1 : len (v' - v) ≤ (A - 1) * S)
    (h2 : len (w' - w) ≤ (B - 1) * T) (h : FlAdd F v' (-w') z) :
    len (v - w) ≤ S + T ∧ len (z - (v - w)) ≤ (max A B * (1 + F.u) - 1) * (S + T) := by
  rw [sub_eq_add_neg v w]
  refine add_near hA hB hv ((len_neg w).le.trans hw) h1 (le_trans (le_of_eq ?_) h2) h
  rw [← len_neg]
  congr 1
  abel

/-- Rounded rotation followed by the addition of a translation. -/
theorem rotAdd_near {k : RotK} {R R' : k.Val} {v v' t t' r w : V3} {A B S T : ℝ} (hR : RotOk k R)
    (hA : 1 ≤ A) (hB : 1 ≤ B) (hv : len v ≤ T) (ht : len t ≤ S) (h1 : Within (.rot k) (A - 1) 0 R R')
    (h2 : len (v' - v) ≤ (B - 1) * T) (h3 : len (t' - t) ≤ (A - 1) * S) (h : FlRotate F k R' v' r)
    (hw : FlAdd F r t' w) :
    len (rotVec k R v + t) ≤ S + T ∧
      len (w - (rotVec k R v + t)) ≤ (rotateFactor F.u k A B * (1 + F.u) - 1) * (S + T) := by
  have r1 := rotate_near hR hA hB hv h1 h2 h
  have a := add_near (one_le_rotateFactor k hA hB) hA (r1.2.le.trans hv) ht r1.1 h3 hw
  rw [max_eq_left (le_rotateFactor k hA hB), add_comm T S] at a
  exact a

theorem composeRigid_eq {k : RigK} {x y v : k.Val} (h : composeRigid k k x y = some v) :
    v = k.mk (compRot k.rotK (k.rot x) (k.rot y))
      (rotVec k.rotK (k.rot x) (k.trans y) + k.trans x) := by
  cases k <;> exact (Option.some.inj h).symm

theorem rigid_near {k : RigK} {x x' y y' v z : k.Val} {A B S T : ℝ} (hA : 1 ≤ A) (hB : 1 ≤ B)
    (hx : Ok (.rigid k) S x) (hy : Ok (.rigid k) T y) (hw : Within (.rigid k) (A - 1) S x x')
    (hw' : Within (.rigid k) (B - 1) T y y') (he : composeRigid k k x y = some v)
    (h : FlRigidCompose F k x' y' z) :
    1 ≤ rigidFactor F.u k A B ∧ Ok (.rigid k) (S + T) v ∧
      Within (.rigid k) (rigidFactor F.u k A B - 1) (S + T) v z := by
  obtain ⟨R, t, hR, ht, w, hw1, rfl⟩ := h
  obtain ⟨a1, a2⟩ := within_rigid.mp hw
  obtain ⟨b1, b2⟩ := within_rigid.mp hw'
  have c := compose_near hx.1 hy.1 hA hB a1 b1 hR
  have r := rotAdd_near hx.1 hA hB hy.2 hx.2 a1 b2 a2 ht hw1
  cases composeRigid_eq he
  have hST : 0 ≤ S + T := (len_nonneg _).trans r.1
  refine ⟨(one_le_composeFactor _ hA hB).trans (le_max_left _ _), ⟨?_, ?_⟩,
    within_rigid.mpr ⟨?_, ?_⟩⟩
  · rw [(rot_mk k _ _).1]
    exact c.1
  · rw [(rot_mk k _ _).2]
    exact r.1
  · rw [(rot_mk k _ _).1, (rot_mk k _ _).1]
    exact within_mono (sub_le_sub_right (le_max_left _ _) 1) c.2
  · rw [(rot_mk k _ _).2, (rot_mk k _ _).2]
    exact r.2.trans (mul_le_mul_of_nonneg_right (sub_le_sub_right (le_max_right _ _) 1) hST)

/-- A compact transform times a matrix transform. -/
theorem mixed_near {x x' : QuatTrans} {y y' v z : M4} {A B S T : ℝ} (hA : 1 ≤ A) (hB : 1 ≤ B)
    (hx : Ok (.rigid .compact) S x) (hy : Ok (.rigid .mat) T y)
    (hw : Within (.rigid .compact) (A - 1) S x x') (hw' : Within (.rigid .mat) (B - 1) T y y')
    (he : composeRigid .compact .mat x y = some v) (h : FlRigidMixed F x' y' z) :
    1 ≤ mixedFactor F.u A B ∧ Ok (.rigid .mat) (S + T) v ∧
      Within (.rigid .mat) (mixedFactor F.u A B - 1) (S + T) v z := by
  obtain ⟨m, R, t, w, hm, hR, ht, hw1, rfl⟩ := h
  obtain ⟨c1, c2, c3⟩ := conv_near hx.1 hA hw.1 hm
  have c := compose_near (k := .mat) c2 hy.1 c1 hB c3 hw'.1 hR
  have r := rotAdd_near (k := .quat) hx.1 hA hB hy.2 hx.2 hw.1 hw'.2 hw.2 ht hw1
  cases Option.some.inj he
  have hST : 0 ≤ S + T := (len_nonneg _).trans r.1
  refine ⟨(one_le_composeFactor _ c1 hB).trans (le_max_left _ _), ⟨?_, ?_⟩, ?_, ?_⟩
  · change (rotBlock (mk4 _ _))ᵀ * rotBlock (mk4 _ _) = 1
    rw [rotBlock_mk4]
    exact c.1
  · change len (transBlock (mk4 _ _)) ≤ _
    rw [transBlock_mk4]
    exact r.1
  · change frob (rotBlock (mk4 _ _) - rotBlock (mk4 _ _)) ≤ _
    rw [rotBlock_mk4, rotBlock_mk4]
    exact le_trans c.2 (sub_le_sub_right (le_max_left _ _) 1)
  · change len (transBlock (mk4 _ _) - transBlock (mk4 _ _)) ≤ _
    rw [transBlock_mk4, transBlock_mk4]
    exact r.2.trans (mul_le_mul_of_nonneg_right (sub_le_sub_right (le_max_right _ _) 1) hST)

/-- Binary operators. -/
theorem bin_near {a b c : Ty} (op : Bin a b c) {x x' : a.Val} {y y' : b.Val} {v z : c.Val}
    {A B S T : ℝ} (hA : 1 ≤ A) (hB : 1 ≤ B) (hS : 0 ≤ S) (hT : 0 ≤ T) (hx : Ok a S x) (hy : Ok b T y)
    (hw : Within a (A - 1) S x x') (hw' : Within b (B - 1) T y y') (he : evalBin op x y = some v)
    (h : FlBin F op x' y' z) :
    0 ≤ ampBin op S T ∧ 1 ≤ facBin F.u op A B ∧ Ok c (ampBin op S T) v ∧
      Within c (facBin F.u op A B - 1) (ampBin op S T) v z := by
  have U := one_le_U F
  have hmax : 1 ≤ max A B * (1 + F.u) := one_le_mul' (hA.trans (le_max_left _ _)) U
  have hprod : 1 ≤ A * B * (1 + F.u) := one_le_mul' (one_le_mul' hA hB) U
  cases op with
  | sum k =>
    cases Option.some.inj he
    exact ⟨add_nonneg hS hT, hmax, add_near hA hB hx hy hw hw' h⟩
  | sumPV =>
    cases Option.some.inj he
    exact ⟨add_nonneg hS hT, hmax, add_near hA hB hx hy hw hw' h⟩
  | sumVP =>
    cases Option.some.inj he
    exact ⟨add_nonneg hS hT, hmax, add_near hA hB hx hy hw hw' h⟩
  | sub k =>
    cases Option.some.inj he
    exact ⟨add_nonneg hS hT, hmax, sub_near hA hB hx hy hw hw' h⟩
  | subPP =>
    cases Option.some.inj he
    exact ⟨add_nonneg hS hT, hmax, sub_near hA hB hx hy hw hw' h⟩
  | subPV =>
    cases Option.some.inj he
    exact ⟨add_nonneg hS hT, hmax, sub_near hA hB hx hy hw hw' h⟩
  | scale k =>
    cases Option.some.inj he
    exact ⟨mul_nonneg hS hT, hprod, scale_near hA hB ((len_sc x).symm.le.trans hx) hy
      ((len_sc (x' - x)).symm.le.trans hw) hw' h⟩
  | scaleR k =>
    cases Option.some.inj he
    have e : vScaleR (n := k.Idx) x (y (0 : Fin 1)) = (y (0 : Fin 1)) • (show k.Idx → ℝ from x) := by
      funext i
      exact mul_comm _ _
    have := scale_near (n := k.Idx) hB hA ((len_sc y).symm.le.trans hy) hx
      ((len_sc (y' - y)).symm.le.trans hw') hw (z := z)
      (fun i => (h i).trans (congrArg F.rnd (mul_comm _ _)))
    rw [← e, mul_comm B A, mul_comm T S] at this
    exact ⟨mul_nonneg hS hT, hprod, this⟩
  | scaleDiv k => exact h.elim
  | dot k =>
    cases Option.some.inj he
    have := dot_near hA hB hx hy hw hw' h
    exact ⟨mul_nonneg hS hT, one_le_mul' (one_le_mul' hA hB) (one_le_pow₀ U),
      (len_sc _).le.trans this.1, (len_sc _).le.trans this.2⟩
  | product =>
    cases Option.some.inj he
    refine ⟨mul_nonneg hS hT, hprod, scale_near (n := Fin 1) hA hB ((len_sc x).symm.le.trans hx) hy
      ((len_sc (x' - x)).symm.le.trans hw) hw' fun i => ?_⟩
    rw [Subsingleton.elim i 0]
    exact h
  | divide => exact h.elim
  | composeQ =>
    cases Option.some.inj he
    have := compose_near (k := .quat) hx hy hA hB hw hw' h
    exact ⟨add_nonneg hS hT, one_le_composeFactor .quat hA hB, this⟩
  | composeM =>
    cases Option.some.inj he
    have := compose_near (k := .mat) hx hy hA hB hw hw' h
    exact ⟨add_nonneg hS hT, one_le_composeFactor .mat hA hB, this⟩
  | composeRigid p q =>
    cases p <;> cases q
    · exact ⟨add_nonneg hS hT, rigid_near hA hB hx hy hw hw' he h⟩
    · exact h.elim
    · exact ⟨add_nonneg hS hT, mixed_near hA hB hx hy hw hw' he h⟩
    · exact ⟨add_nonneg hS hT, rigid_near hA hB hx hy hw hw' he h⟩
  | flipQ =>
    cases Option.some.inj he
    have := compose_near (k := .quat) hy hx hB hA hw' hw h
    have e : composeFactor F.u .quat B A = composeFactor F.u .quat A B := by
      simp only [composeFactor, mul_comm]
    rw [e] at this
    exact ⟨add_nonneg hS hT, one_le_composeFactor .quat hA hB, this⟩
  | flipM =>
    cases Option.some.inj he
    have := compose_near (k := .mat) hy hx hB hA hw' hw h
    have e : composeFactor F.u .mat B A = composeFactor F.u .mat A B := by
      simp only [composeFactor, mul_comm]
    rw [e] at this
    exact ⟨add_nonneg hS hT, one_le_composeFactor .mat hA hB, this⟩
  | flipRigid p q =>
    cases p <;> cases q
    · have := rigid_near hB hA hy hx hw' hw he h
      rw [add_comm T S] at this
      exact ⟨add_nonneg hS hT, this⟩
    · have := mixed_near hB hA hy hx hw' hw he h
      rw [add_comm T S] at this
      exact ⟨add_nonneg hS hT, this⟩
    · exact h.elim
    · have := rigid_near hB hA hy hx hw' hw he h
      rw [add_comm T S] at this
      exact ⟨add_nonneg hS hT, this⟩
  | rotateQ =>
    cases Option.some.inj he
    have := rotate_near (k := .quat) hx hA hB hy hw hw' h
    exact ⟨hT, one_le_rotateFactor .quat hA hB, this.2.le.trans hy, this.1⟩
  | rotateM =>
    cases Option.some.inj he
    have := rotate_near (k := .mat) hx hA hB hy hw hw' h
    exact ⟨hT, one_le_rotateFactor .mat hA hB, this.2.le.trans hy, this.1⟩
  | transform k =>
    cases Option.some.inj he
    obtain ⟨t, ht, hz⟩ := h
    obtain ⟨a1, a2⟩ := within_rigid.mp hw
    have := rotAdd_near hx.1 hA hB hy hx.2 a1 hw' a2 ht hz
    rw [← rotate_eq_rotVec] at this
    exact ⟨add_nonneg hS hT, one_le_mul' (one_le_rotateFactor _ hA hB) U, this⟩

end WG.Round
