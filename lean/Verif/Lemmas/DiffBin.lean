import Verif.Lemmas.DiffUn

/-! The local Jacobians are differentials: binary operators. -/

namespace WG
open Matrix Spec Filter Topology

variable {E : Type} [NormedAddCommGroup E] [NormedSpace ℝ E] {x : E}

section vec
variable {n : Type} [Fintype n] [DecidableEq n] {v V : E → n → ℝ} {s S : E → Fin 1 → ℝ}

theorem colMat_mulVec (a : n → ℝ) (b : Fin 1 → ℝ) (i : n) : (colMat a *ᵥ b) i = a i * b 0 := by
  simp [colMat, Matrix.mulVec, dotProduct]

theorem mat1_mulVec (a : ℝ) (b : Fin 1 → ℝ) (i : Fin 1) : (mat1 a *ᵥ b) i = a * b 0 := by
  simp [mat1, Matrix.mulVec, dotProduct]

theorem diff_sum {a b A B : E → n → ℝ} (ha : DiffV a x A) (hb : DiffV b x B) :
    DiffV (fun e => vSum (a e) (b e)) x fun h => sumJac *ᵥ A h + sumJac *ᵥ B h :=
  (ha.add hb).congr_right fun h => by unfold sumJac; rw [one_mulVec, one_mulVec]

theorem diff_sub {a b A B : E → n → ℝ} (ha : DiffV a x A) (hb : DiffV b x B) :
    DiffV (fun e => vSub (a e) (b e)) x fun h => subJacL *ᵥ A h + subJacR *ᵥ B h :=
  (ha.sub hb).congr_right fun h => by
    unfold subJacL subJacR; rw [one_mulVec, Matrix.neg_mulVec, one_mulVec, sub_eq_add_neg]

theorem diff_scale (hs : DiffV s x S) (hv : DiffV v x V) :
    DiffV (fun e => vScale (s e 0) (v e)) x fun h =>
      scaleJacL (v x) *ᵥ S h + scaleJacR (s x 0) *ᵥ V h := fun i =>
  ((hs 0).mul (hv i)).congr_right fun h => by
    unfold scaleJacL scaleJacR
    beta_reduce
    rw [Pi.add_apply, colMat_mulVec, smul_mulVec, one_mulVec, Pi.smul_apply, smul_eq_mul]
    ring

theorem diff_scaleR (hs : DiffV s x S) (hv : DiffV v x V) :
    DiffV (fun e => vScaleR (v e) (s e 0)) x fun h =>
      scaleRJacL (s x 0) *ᵥ V h + scaleRJacR (v x) *ᵥ S h := fun i =>
  ((hv i).mul (hs 0)).congr_right fun h => by
    unfold scaleRJacL scaleRJacR
    beta_reduce
    rw [Pi.add_apply, colMat_mulVec, smul_mulVec, one_mulVec, Pi.smul_apply, smul_eq_mul]
    ring

theorem diff_scaleDiv (hs : DiffV s x S) (hv : DiffV v x V) (h0 : s x 0 ≠ 0) :
    DiffV (fun e => fun i => v e i / s e 0) x fun h =>
      ((1 / s x 0) • (1 : Matrix n n ℝ)) *ᵥ V h + (colMat fun i => -v x i / (s x 0 * s x 0)) *ᵥ S h :=
  fun i => ((hv i).div (hs 0) h0).congr_right fun h => by
    beta_reduce
    rw [Pi.add_apply, colMat_mulVec, smul_mulVec, one_mulVec, Pi.smul_apply, smul_eq_mul]
    field_simp
    ring

theorem diff_dot {a b A B : E → n → ℝ} (ha : DiffV a x A) (hb : DiffV b x B) :
    DiffV (fun e => sc (vDot (a e) (b e))) x fun h => dotJacL (b x) *ᵥ A h + dotJacR (a x) *ᵥ B h :=
  fun i => (ha.dot hb).congr_right fun h => by
    change b x ⬝ᵥ A h + a x ⬝ᵥ B h = _
    rw [dotProduct_comm (b x)]

theorem diff_product {a b A B : E → Fin 1 → ℝ} (ha : DiffV a x A) (hb : DiffV b x B) :
    DiffV (fun e => sc (sProduct (a e 0) (b e 0))) x fun h =>
      productJacL (b x 0) *ᵥ A h + productJacR (a x 0) *ᵥ B h :=
  fun i => ((ha 0).mul (hb 0)).congr_right fun h => by
    unfold productJacL productJacR
    beta_reduce
    rw [Pi.add_apply, mat1_mulVec, mat1_mulVec]
    ring

theorem diff_divide {a b A B : E → Fin 1 → ℝ} (ha : DiffV a x A) (hb : DiffV b x B)
    (h0 : b x 0 ≠ 0) :
    DiffV (fun e => sc (a e 0 / b e 0)) x fun h =>
      mat1 (1 / b x 0) *ᵥ A h + mat1 (-a x 0 / (b x 0 * b x 0)) *ᵥ B h :=
  fun i => ((ha 0).div (hb 0) h0).congr_right fun h => by
    beta_reduce
    rw [Pi.add_apply, mat1_mulVec, mat1_mulVec]
    field_simp
    ring
end vec

theorem turns_composeQ {a b : E → Quat} {A B : E → V3} (ha : TurnsBy .quat a x A)
    (hb : TurnsBy .quat b x B) (hu : (a x).IsUnit) :
    TurnsBy .quat (fun e => (a e).mul (b e)) x fun h => A h + (a x).toMatrix *ᵥ B h := by
  apply turnsBy_quat
  have hR : IsRotation (a x).hom := by
    rw [← Quat.toMatrix_eq_hom hu]; exact Quat.toMatrix_isRotation hu
  refine ((diffM_mul_turn ha.hom hb.hom hR).congr_left
    (Eventually.of_forall fun e => Quat.hom_mul _ _)).congr_right fun h => ?_
  rw [Quat.hom_mul, Quat.toMatrix_eq_hom hu]

theorem turns_composeM {a b : E → M3} {A B : E → V3} (ha : TurnsBy .mat a x A)
    (hb : TurnsBy .mat b x B) (hu : IsRotation (a x)) (hw : IsRotation (b x)) :
    TurnsBy .mat (fun e => a e * b e) x fun h => A h + a x *ᵥ B h :=
  turnsBy_mat (diffM_mul_turn (ha.matrix hu) (hb.matrix hw) hu)

/-- Local Jacobians of the binary operators are the differentials of their evaluation. -/
theorem bin_moves {a b t : Ty} (op : Bin a b t) {c : E → a.Val} {d : E → b.Val}
    {A : E → a.Idx → ℝ} {B : E → b.Idx → ℝ} (hv : Valid a (c x)) (hw : Valid b (d x))
    (hc : MovesBy a c x A) (hd : MovesBy b d x B) (hr : RegularBin op (den a (c x)) (den b (d x)))
    {z : t.Val} (hz : evalBin op (c x) (d x) = some z) :
    ∃ JL JR, jacL op z (c x) (d x) = some JL ∧ jacR op z (c x) (d x) = some JR ∧
    ∃ f : E → t.Val, (∀ᶠ e in 𝓝 x, evalBin op (c e) (d e) = some (f e)) ∧
      MovesBy t f x fun h => JL *ᵥ A h + JR *ᵥ B h := by
  cases op with
  | sum k => exact ⟨_, _, rfl, rfl, _, Eventually.of_forall fun e => rfl, diff_sum (n := k.Idx) hc hd⟩
  | sumPV => exact ⟨_, _, rfl, rfl, _, Eventually.of_forall fun e => rfl, diff_sum (n := Fin 3) hc hd⟩
  | sumVP => exact ⟨_, _, rfl, rfl, _, Eventually.of_forall fun e => rfl, diff_sum (n := Fin 3) hc hd⟩
  | sub k => exact ⟨_, _, rfl, rfl, _, Eventually.of_forall fun e => rfl, diff_sub (n := k.Idx) hc hd⟩
  | subPP => exact ⟨_, _, rfl, rfl, _, Eventually.of_forall fun e => rfl, diff_sub (n := Fin 3) hc hd⟩
  | subPV => exact ⟨_, _, rfl, rfl, _, Eventually.of_forall fun e => rfl, diff_sub (n := Fin 3) hc hd⟩
  | scale k =>
    exact ⟨_, _, rfl, rfl, _, Eventually.of_forall fun e => rfl, diff_scale (n := k.Idx) hc hd⟩
  | scaleR k =>
    exact ⟨_, _, rfl, rfl, _, Eventually.of_forall fun e => rfl, diff_scaleR (n := k.Idx) hd hc⟩
  | scaleDiv k =>
    have h0 : d x (0 : Fin 1) ≠ 0 := hr
    refine ⟨_, _, if_neg h0, if_neg (mul_ne_zero h0 h0), fun e => fun i => c e i / d e (0 : Fin 1),
      ?_, diff_scaleDiv (n := k.Idx) hd hc h0⟩
    have : ContinuousAt (fun e => d e (0 : Fin 1)) x := (hd (0 : Fin 1)).continuousAt
    filter_upwards [this.eventually_ne h0] with e he
    exact if_neg he
  | dot k =>
    exact ⟨_, _, rfl, rfl, _, Eventually.of_forall fun e => rfl, diff_dot (n := k.Idx) hc hd⟩
  | product =>
    exact ⟨_, _, rfl, rfl, _, Eventually.of_forall fun e => rfl, diff_product hc hd⟩
  | divide =>
    have h0 : d x (0 : Fin 1) ≠ 0 := hr
    refine ⟨mat1 (1 / d x (0 : Fin 1)), mat1 (-c x (0 : Fin 1) / (d x (0 : Fin 1) * d x (0 : Fin 1))),
      ?_, ?_, fun e => sc (c e (0 : Fin 1) / d e (0 : Fin 1)), ?_, diff_divide hc hd h0⟩
    · change (rdiv _ _).map mat1 = _
      unfold rdiv; rw [if_neg h0]; rfl
    · change (rdiv _ _).map mat1 = _
      unfold rdiv; rw [if_neg (mul_ne_zero h0 h0)]; rfl
    · have : ContinuousAt (fun e => d e (0 : Fin 1)) x := (hd (0 : Fin 1)).continuousAt
      filter_upwards [this.eventually_ne h0] with e he
      change (rdiv _ _).map sc = _
      unfold rdiv; rw [if_neg he]; rfl
  | composeQ =>
    refine ⟨_, _, rfl, rfl, _, Eventually.of_forall fun e => rfl, ?_⟩
    exact TurnsBy.congr (turns_composeQ hc hd ((validRot_quat _).mp hv))
      (Eventually.of_forall fun e => rfl) fun h => by rw [one_mulVec]
  | composeM =>
    refine ⟨_, _, rfl, rfl, _, Eventually.of_forall fun e => rfl, ?_⟩
    exact TurnsBy.congr (turns_composeM hc hd hv hw)
      (Eventually.of_forall fun e => rfl) fun h => by rw [one_mulVec]
  | composeRigid k k' =>
    obtain ⟨f, h1, h2⟩ := moves_composeRigid k k' hc hd hv hw
    refine ⟨_, _, rfl, rfl, f, Eventually.of_forall h1, ?_⟩
    exact MovesBy.congr h2 (Eventually.of_forall fun e => rfl) fun h => by rw [one_mulVec]
  | flipQ =>
    refine ⟨_, _, rfl, rfl, _, Eventually.of_forall fun e => rfl, ?_⟩
    exact TurnsBy.congr (turns_composeQ hd hc ((validRot_quat _).mp hw))
      (Eventually.of_forall fun e => rfl) fun h => by rw [one_mulVec, add_comm]
  | flipM =>
    refine ⟨_, _, rfl, rfl, _, Eventually.of_forall fun e => rfl, ?_⟩
    exact TurnsBy.congr (turns_composeM hd hc hw hv)
      (Eventually.of_forall fun e => rfl) fun h => by rw [one_mulVec, add_comm]
  | flipRigid k k' =>
    obtain ⟨f, h1, h2⟩ := moves_composeRigid k' k hd hc hw hv
    refine ⟨_, _, rfl, rfl, f, Eventually.of_forall h1, ?_⟩
    exact MovesBy.congr h2 (Eventually.of_forall fun e => rfl) fun h => by rw [one_mulVec, add_comm]
  | rotateQ =>
    cases hz
    refine ⟨_, _, rfl, rfl, _, Eventually.of_forall fun e => rfl, ?_⟩
    have := turns_rotate (TurnsBy.matrix (k := .quat) hc hv) hd
    refine (DiffV.congr_left this (Eventually.of_forall fun e => ?_)).congr_right fun h => ?_
    · exact Quat.rotate_eq _ _
    · unfold rotateQ
      rw [Quat.rotate_eq]; rfl
  | rotateM =>
    cases hz
    refine ⟨_, _, rfl, rfl, _, Eventually.of_forall fun e => rfl, ?_⟩
    exact turns_rotate (TurnsBy.matrix (k := .mat) hc hv) hd
  | transform k =>
    cases hz
    exact ⟨_, _, rfl, rfl, _, Eventually.of_forall fun e => rfl, moves_transform k hc hd hv⟩

end WG
