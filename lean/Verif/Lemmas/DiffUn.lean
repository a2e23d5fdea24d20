import Verif.Lemmas.DiffOps
import Verif.Lemmas.Sound

/-! The local Jacobians are differentials: unary operators. -/

namespace WG
open Matrix Spec Filter Topology

variable {E : Type} [NormedAddCommGroup E] [NormedSpace ℝ E] {x : E}

/-- The quaternion of the small-angle branch of ExpMap (helper). -/
noncomputable def smallQ (v : V3) : Quat :=
  Quat.ofVec (1 - normSq v / 8) ((1 / 2 + normSq v / 48) • v)

theorem turns_smallQ {v δ : E → V3} (hv : DiffV v x δ) (h0 : v x = 0) :
    TurnsBy .quat (fun e => smallQ (v e)) x δ := by
  apply turnsBy_quat
  have hn := hv.normSq
  have hn0 : normSq (v x) = 0 := by rw [h0]; simp [normSq]
  have dw : Diff (fun e => 1 - normSq (v e) / 8) x fun _ => 0 := by
    refine (((Diff.const (x := x) 1).sub (hn.const_mul (1 / 8))).congr_left
      (Eventually.of_forall fun e => by ring)).congr_right fun h => ?_
    rw [h0]; simp [dot]
  have dc : ∀ i, Diff (fun e => (1 / 2 + normSq (v e) / 48) * v e i) x fun h => δ h i / 2 := by
    intro i
    refine ((((Diff.const (x := x) (1 / 2)).add (hn.const_mul (1 / 48))).mul (hv i)).congr_left
      (Eventually.of_forall fun e => by ring)).congr_right fun h => ?_
    rw [hn0, h0]; simp [dot]; ring
  have e0 : ∀ i, v x i = 0 := fun i => by rw [h0]; rfl
  have key : ∀ {f g F G : E → ℝ} (_ : Diff f x F) (_ : Diff g x G) (c : ℝ),
      Diff (fun e => c * f e * g e) x fun h => c * F h * g x + c * f x * G h := fun hf hg c =>
    ((hf.const_mul c).mul hg).congr_right fun h => by ring
  have dww := dw.mul dw
  have dxx := (dc 0).mul (dc 0)
  have dyy := (dc 1).mul (dc 1)
  have dzz := (dc 2).mul (dc 2)
  intro i j
  fin_cases i <;> fin_cases j
  · exact (((dww.add dxx).sub dyy).sub dzz).congr_right fun h => by
      simp [Matrix.mul_apply, Fin.sum_univ_three, smallQ, Quat.ofVec, Quat.hom, crossMatrix, e0, hn0]
      try ring
  · exact ((key (dc 1) (dc 0) 2).sub (key (dc 2) dw 2)).congr_right fun h => by
      simp [Matrix.mul_apply, Fin.sum_univ_three, smallQ, Quat.ofVec, Quat.hom, crossMatrix, e0, hn0]
      try ring
  · exact ((key (dc 2) (dc 0) 2).add (key (dc 1) dw 2)).congr_right fun h => by
      simp [Matrix.mul_apply, Fin.sum_univ_three, smallQ, Quat.ofVec, Quat.hom, crossMatrix, e0, hn0]
      try ring
  · exact ((key (dc 1) (dc 0) 2).add (key (dc 2) dw 2)).congr_right fun h => by
      simp [Matrix.mul_apply, Fin.sum_univ_three, smallQ, Quat.ofVec, Quat.hom, crossMatrix, e0, hn0]
      try ring
  · exact (((dww.sub dxx).add dyy).sub dzz).congr_right fun h => by
      simp [Matrix.mul_apply, Fin.sum_univ_three, smallQ, Quat.ofVec, Quat.hom, crossMatrix, e0, hn0]
      try ring
  · exact ((key (dc 2) (dc 1) 2).sub (key (dc 0) dw 2)).congr_right fun h => by
      simp [Matrix.mul_apply, Fin.sum_univ_three, smallQ, Quat.ofVec, Quat.hom, crossMatrix, e0, hn0]
      try ring
  · exact ((key (dc 2) (dc 0) 2).sub (key (dc 1) dw 2)).congr_right fun h => by
      simp [Matrix.mul_apply, Fin.sum_univ_three, smallQ, Quat.ofVec, Quat.hom, crossMatrix, e0, hn0]
      try ring
  · exact ((key (dc 2) (dc 1) 2).add (key (dc 0) dw 2)).congr_right fun h => by
      simp [Matrix.mul_apply, Fin.sum_univ_three, smallQ, Quat.ofVec, Quat.hom, crossMatrix, e0, hn0]
      try ring
  · exact (((dww.sub dxx).sub dyy).add dzz).congr_right fun h => by
      simp [Matrix.mul_apply, Fin.sum_univ_three, smallQ, Quat.ofVec, Quat.hom, crossMatrix, e0, hn0]
      try ring

theorem normSq_sq_gt {ε n : ℝ} (hε : 0 < ε) (h1 : ε ≤ 1) (hn : 0 ≤ n) (h : n * n > ε) : ε < n := by
  by_contra hc
  have : n * n ≤ ε * ε := mul_self_le_mul_self hn (not_lt.mp hc)
  nlinarith

theorem Spec.TurnsBy.congr {k : RotK} {c c' : E → k.Val} {A A' : E → V3} (h : TurnsBy k c x A)
    (ec : ∀ᶠ e in 𝓝 x, c' e = c e) (eA : ∀ h, A' h = A h) : TurnsBy k c' x A' := by
  have hx : c' x = c x := ec.self_of_nhds
  refine ⟨(h.1.congr_left (ec.mono fun e he => by rw [he])).congr_right fun y => by rw [eA, hx],
    fun hk => ?_⟩
  filter_upwards [ec, h.2 hk] with e he hv
  rw [he]; exact hv

theorem Spec.MovesBy.congr {τ : Ty} {c c' : E → τ.Val} {A A' : E → τ.Idx → ℝ} (h : MovesBy τ c x A)
    (ec : ∀ᶠ e in 𝓝 x, c' e = c e) (eA : ∀ h, A' h = A h) : MovesBy τ c' x A' := by
  have hx : c' x = c x := ec.self_of_nhds
  have eA' : A' = A := funext eA
  subst eA'
  cases τ with
  | vec k => exact DiffV.congr_left (n := k.Idx) h ec
  | point => exact DiffV.congr_left (n := Fin 3) h ec
  | rot k => exact TurnsBy.congr h ec fun _ => rfl
  | rigid k =>
    exact ⟨(DiffM.congr_left h.1 (ec.mono fun e he => by rw [he])).congr_right fun y => by rw [hx],
      (DiffV.congr_left h.2 (ec.mono fun e he => by rw [he])).congr_right fun y => by rw [hx]⟩

theorem diffV_rot {A : E → Twist} {c : E → Twist} (h : DiffV c x A) :
    DiffV (fun e => Twist.rot (c e)) x fun h => Twist.rot (A h) := fun i => h (.inl i)
theorem diffV_trans {A : E → Twist} {c : E → Twist} (h : DiffV c x A) :
    DiffV (fun e => Twist.trans (c e)) x fun h => Twist.trans (A h) := fun i => h (.inr i)
theorem diffV_twist {A : E → Twist} {r t : E → V3} (h1 : DiffV r x fun h => Twist.rot (A h))
    (h2 : DiffV t x fun h => Twist.trans (A h)) : DiffV (fun e => Twist.mk (r e) (t e)) x A := by
  intro i
  cases i with
  | inl i => exact h1 i
  | inr i => exact h2 i

section vec
variable {n : Type} [Fintype n] [DecidableEq n] {v V : E → n → ℝ}

theorem diff_vNorm (hv : DiffV v x V) (h0 : vSqNorm (v x) ≠ 0) :
    Diff (fun e => vNorm (v e)) x fun h => (v x ⬝ᵥ V h) / vNorm (v x) := by
  have d := (hv.dot hv).sqrt h0
  refine d.congr_right fun h => ?_
  have : √(vSqNorm (v x)) ≠ 0 := by
    exact (Real.sqrt_ne_zero (dot_self_nonneg (v x))).mpr h0
  unfold vNorm
  change _ = (V h ⬝ᵥ v x + v x ⬝ᵥ V h) / (2 * √(vSqNorm (v x)))
  rw [dotProduct_comm (V h)]
  field_simp
  ring

theorem rowMat_mulVec (a b : n → ℝ) (i : Fin 1) : (rowMat a *ᵥ b) i = a ⬝ᵥ b := rfl
end vec

/-- Local Jacobians of the unary operators are the differentials of their evaluation. -/
theorem un_moves {ε : ℝ} (hε : 0 < ε) (hε1 : ε ≤ 1) {a b : Ty} (op : Un a b) {c : E → a.Val}
    {A : E → a.Idx → ℝ} {y : b.Val} {J : Matrix b.Idx a.Idx ℝ} (hv : Valid a (c x))
    (hm : MovesBy a c x A) (hr : RegularUn ε op (den a (c x)))
    (hy : evalUn ε op (c x) = some y) (hJ : jacUn ε op y (c x) = some J) :
    ∃ d : E → b.Val, (∀ᶠ e in 𝓝 x, evalUn ε op (c e) = some (d e)) ∧
      MovesBy b d x fun h => J *ᵥ A h := by
  cases op with
  | minus k =>
    cases hJ
    refine ⟨_, Eventually.of_forall fun e => rfl, ?_⟩
    refine (DiffV.neg (n := k.Idx) hm).congr_right fun h => ?_
    unfold minusJac
    rw [Matrix.neg_mulVec, one_mulVec]
  | sqNorm k =>
    cases hJ
    refine ⟨_, Eventually.of_forall fun e => rfl, fun i => ?_⟩
    refine (DiffV.dot (n := k.Idx) hm hm).congr_right fun h => ?_
    rw [dotProduct_comm (A h)]
    change ((fun j => 2 * c x j) ⬝ᵥ A h) = _
    rw [show (fun j => 2 * c x j) = (2 : ℝ) • c x from rfl, smul_dotProduct, smul_eq_mul]
    ring
  | norm k =>
    cases hy
    have h0 : vNorm (n := k.Idx) (c x) ≠ 0 := by
      intro e
      simp [jacUn, normJac, sc, e] at hJ
    have h0' : vSqNorm (n := k.Idx) (c x) ≠ 0 := by
      intro e; exact h0 (by unfold vNorm; rw [e, Real.sqrt_zero])
    have hJ' : J = rowMat fun j => c x j / vNorm (n := k.Idx) (c x) := by
      change (if vNorm (n := k.Idx) (c x) = 0 then none else some _) = _ at hJ
      rw [if_neg h0] at hJ
      exact (Option.some.inj hJ).symm
    subst hJ'
    refine ⟨_, Eventually.of_forall fun e => rfl, fun i => ?_⟩
    refine (diff_vNorm (n := k.Idx) hm h0').congr_right fun h => ?_
    change (fun j => c x j / vNorm (n := k.Idx) (c x)) ⬝ᵥ A h = _
    simp only [dotProduct, Finset.sum_div]
    exact Finset.sum_congr rfl fun j _ => by ring
  | normalize k =>
    cases hy
    have h0 : vNorm (n := k.Idx) (c x) ≠ 0 := by
      intro e
      simp [jacUn, normalizeJac, e] at hJ
    have h0' : vSqNorm (n := k.Idx) (c x) ≠ 0 := by
      intro e; exact h0 (by unfold vNorm; rw [e, Real.sqrt_zero])
    have hpos : 0 < vSqNorm (n := k.Idx) (c x) := lt_of_le_of_ne (dot_self_nonneg _) (Ne.symm h0')
    simp only [jacUn, normalizeJac, if_neg h0, Option.some.injEq] at hJ
    subst hJ
    refine ⟨_, Eventually.of_forall fun e => rfl, ?_⟩
    have ev : ∀ᶠ e in 𝓝 x, 0 < vSqNorm (n := k.Idx) (c e) :=
      (DiffV.dot (n := k.Idx) hm hm).continuousAt.eventually_const_lt hpos
    have dN := diff_vNorm (n := k.Idx) hm h0'
    have hx : vNormalize (n := k.Idx) (c x) = fun i => c x i / vNorm (n := k.Idx) (c x) := by
      unfold vNormalize; rw [if_pos hpos]
    intro i
    refine ((hm i).div dN h0 |>.congr_left (ev.mono fun e he => ?_)).congr_right fun h => ?_
    · beta_reduce; unfold vNormalize; rw [if_pos he]
    · rw [hx]
      have hq : vNorm (n := k.Idx) (c x) ^ 2 = vSqNorm (n := k.Idx) (c x) := vNorm_sq (n := k.Idx) _
      change ∑ j : k.Idx, ((1 : Matrix k.Idx k.Idx ℝ) i j - (c x i / vNorm (n := k.Idx) (c x)) *
        (c x j / vNorm (n := k.Idx) (c x))) / vNorm (n := k.Idx) (c x) * A h j = _
      have e1 : A h i = ∑ j : k.Idx, (1 : Matrix k.Idx k.Idx ℝ) i j * A h j := by
        change _ = ((1 : Matrix k.Idx k.Idx ℝ) *ᵥ A h) i
        rw [one_mulVec]
      rw [e1]
      generalize vNorm (n := k.Idx) (c x) = N at *
      change _ = ((∑ j : k.Idx, (1 : Matrix k.Idx k.Idx ℝ) i j * A h j) * N - c x i *
        ((∑ j : k.Idx, c x j * A h j) / N)) / N ^ 2
      have key : ∀ j : k.Idx, ((1 : Matrix k.Idx k.Idx ℝ) i j - (c x i / N) * (c x j / N)) / N * A h j
          = ((1 : Matrix k.Idx k.Idx ℝ) i j * A h j) / N - (c x i / N ^ 3) * (c x j * A h j) := by
        intro j; field_simp
      rw [Finset.sum_congr rfl fun j _ => key j, Finset.sum_sub_distrib, ← Finset.mul_sum,
        ← Finset.sum_div]
      field_simp
  | acos =>
    obtain ⟨h1, h2⟩ : -1 ≤ c x (0 : Fin 1) ∧ c x (0 : Fin 1) ≤ 1 := hr
    have hne : 1 - c x (0 : Fin 1) * c x (0 : Fin 1) ≠ 0 := by
      intro e
      simp only [jacUn, acosJac, e] at hJ
      simp [rsqrt, rdiv] at hJ
    have hp : 0 < 1 - c x (0 : Fin 1) * c x (0 : Fin 1) := lt_of_le_of_ne (by nlinarith) (Ne.symm hne)
    have hs : √(1 - c x (0 : Fin 1) * c x (0 : Fin 1)) ≠ 0 := (Real.sqrt_pos.mpr hp).ne'
    have hJ' : J = mat1 (-1 / √(1 - c x (0 : Fin 1) * c x (0 : Fin 1))) := by
      simp only [jacUn, acosJac, rsqrt, if_pos hp.le, rdiv, Option.bind_eq_bind, Option.bind_some,
        if_neg hs, Option.some.injEq] at hJ
      exact hJ.symm
    subst hJ'
    have cont : ContinuousAt (fun e => c e (0 : Fin 1)) x := (hm (0 : Fin 1)).continuousAt
    have n1 : c x (0 : Fin 1) ≠ -1 := by intro e; rw [e] at hne; norm_num at hne
    have n2 : c x (0 : Fin 1) ≠ 1 := by intro e; rw [e] at hne; norm_num at hne
    have ev1 : ∀ᶠ e in 𝓝 x, -1 < c e (0 : Fin 1) :=
      cont.eventually_const_lt (lt_of_le_of_ne h1 (Ne.symm n1))
    have ev2 : ∀ᶠ e in 𝓝 x, c e (0 : Fin 1) < 1 :=
      cont.eventually_lt_const (lt_of_le_of_ne h2 n2)
    refine ⟨fun e => sc (Real.arccos (c e (0 : Fin 1))), ?_, fun i => ?_⟩
    · filter_upwards [ev1, ev2] with e h1 h2
      change (sACos _).map sc = _
      unfold sACos racos
      rw [if_pos ⟨h1.le, h2.le⟩]; rfl
    · have d := Diff.comp (f := fun e => c e (0 : Fin 1)) (Real.hasDerivAt_arccos n1 n2) (hm (0 : Fin 1))
      refine d.congr_right fun h => ?_
      simp [mat1, Matrix.mulVec, dotProduct, pow_two]
      ring
  | invRot k =>
    cases hy
    cases hJ
    refine ⟨_, Eventually.of_forall fun e => rfl, ?_⟩
    refine TurnsBy.congr (TurnsBy.inv hm hv) (Eventually.of_forall fun e => rfl) fun h => ?_
    rw [Matrix.neg_mulVec]
  | invRigid k =>
    cases hy
    cases hJ
    exact ⟨_, Eventually.of_forall fun e => rfl, moves_invRigid k hm hv⟩
  | expRel =>
    have hx := hr
    change c x = 0 ∨ ε < sqLen (c x) ^ 2 at hx
    rcases hx with h0 | hbig
    · have hJ' : J = 1 := by
        have : jacUn ε .expRel y (c x) = some (1 : M3) := by
          change expRelJac ε _ (c x) = _
          rw [h0]
          have hz : ¬ (normSq (0 : V3) > ε) := by simp [normSq, hε.le]
          simp only [expRelJac, if_neg hz]
          rw [show crossMatrix (0 : V3) = 0 by mat3 [crossMatrix], smul_zero, add_zero]
        rw [this] at hJ
        exact (Option.some.inj hJ).symm
      subst hJ'
      refine ⟨fun e => smallQ (c e), ?_, ?_⟩
      · have d := DiffV.normSq hm
        have ev : ∀ᶠ e in 𝓝 x, normSq (c e) * normSq (c e) < ε := by
          apply (d.mul d).continuousAt.eventually_lt_const (u := ε)
          beta_reduce; rw [h0]; simpa [normSq] using hε
        filter_upwards [ev] with e he
        exact expRel_small he.le
      · exact TurnsBy.congr (turns_smallQ hm h0) (Eventually.of_forall fun e => rfl) fun h =>
          one_mulVec _
    · rw [sqLen_eq, pow_two] at hbig
      have h1 := normSq_sq_gt hε hε1 (normSq_nonneg _) hbig
      have hne : c x ≠ 0 := by
        intro e; rw [e] at h1; simp [normSq] at h1; linarith
      have hy' := expRel_big hε hbig
      rw [show evalUn ε .expRel (c x) = expRel ε (c x) from rfl, hy'] at hy
      cases hy
      have hJ' : J = vmat (c x) := by
        have : jacUn ε .expRel (expQ (c x)) (c x) = some (vmat (c x)) := by
          change expRelJac ε (Quat.toMatrix (expQ (c x))) (c x) = _
          rw [expQ_toMatrix hne]
          exact expRelJac_big hε h1
        rw [this] at hJ
        exact (Option.some.inj hJ).symm
      subst hJ'
      have d := DiffV.normSq hm
      have ev : ∀ᶠ e in 𝓝 x, ε < normSq (c e) * normSq (c e) :=
        (d.mul d).continuousAt.eventually_const_lt hbig
      have evne : ∀ᶠ e in 𝓝 x, c e ≠ 0 := by
        filter_upwards [ev] with e he h
        rw [h] at he; simp [normSq] at he; linarith
      refine ⟨fun e => expQ (c e), ?_, ?_⟩
      · filter_upwards [ev] with e he
        exact expRel_big hε he
      · apply turnsBy_quat
        refine ((diff_rodr hm hne).congr_left ?_).congr_right fun h => ?_
        · filter_upwards [evne] with e he
          rw [← Quat.toMatrix_eq_hom (expQ_isUnit he), expQ_toMatrix he]
        · rw [← Quat.toMatrix_eq_hom (expQ_isUnit hne), expQ_toMatrix hne]
  | expTwist =>
    have hx := hr
    change Twist.rot (c x) = (0 : V3) ∨ ε < sqLen (Twist.rot (c x)) at hx
    rcases hx with h0 | hbig
    · exfalso
      change expTwistJac ε _ (c x) = some J at hJ
      unfold expTwistJac at hJ
      rw [h0, eadeB_zero] at hJ
      cases h : expRelJac ε (rotBlock y) 0 <;> rw [h] at hJ <;> simp at hJ
    · rw [sqLen_eq] at hbig
      have hne : Twist.rot (c x) ≠ 0 := by
        intro e; rw [e] at hbig; simp [normSq] at hbig; linarith
      rw [show evalUn ε .expTwist (c x) = expTwist ε (c x) from rfl, expTwist_big hε hbig] at hy
      cases hy
      have hJ' : J = fromBlocks (vmat (Twist.rot (c x))) 0 (eadeM (Twist.rot (c x)) (Twist.trans (c x)))
          (vmat (Twist.rot (c x))) := by
        change expTwistJac ε (rotBlock (mk4 _ _)) (c x) = some J at hJ
        unfold expTwistJac at hJ
        rw [rotBlock_mk4, expRelJac_big hε hbig, eadeB_eq hne] at hJ
        exact (Option.some.inj hJ).symm
      subst hJ'
      have dr := diffV_rot hm
      have dt := diffV_trans hm
      have ev : ∀ᶠ e in 𝓝 x, ε < normSq (Twist.rot (c e)) :=
        dr.normSq.continuousAt.eventually_const_lt hbig
      refine ⟨fun e => RigK.mat.mk (rodr (Twist.rot (c e))) (vmat (Twist.rot (c e)) *ᵥ Twist.trans (c e)),
        ?_, ?_⟩
      · filter_upwards [ev] with e he
        exact expTwist_big hε he
      · apply movesBy_rigid_mk
        · apply turnsBy_mat
          refine (diff_rodr dr hne).congr_right fun h => ?_
          rw [rot_mulVec, zero_mulVec, add_zero]
        · refine (diff_vmat dr dt hne).congr_right fun h => ?_
          rw [rot_mulVec, zero_mulVec, add_zero, trans_mulVec, ← add_assoc]
  | logRot =>
    obtain ⟨φ, e, hφ, hl, hz⟩ := logMat_regular hε (R := c x) hv hr
    rw [show evalUn ε .logRot (c x) = logMat ε (c x) from rfl, e] at hy
    obtain rfl := Option.some.inj hy
    rcases hz with rfl | hz
    · change logRotJac 0 = some J at hJ
      rw [logRotJac_zero] at hJ; cases hJ
    · have hπ : √(normSq φ) < Real.pi := by
        rw [Real.sqrt_lt' Real.pi_pos]; exact hl
      have hne : φ ≠ 0 := by
        rintro rfl; simp [normSq] at hz; linarith
      have hJ' : J = vinv φ := by
        change logRotJac φ = some J at hJ
        rw [logRotJac_eq hne (cos_ne_of_lt_pi hne hπ)] at hJ
        exact (Option.some.inj hJ).symm
      subst hJ'
      obtain ⟨ev, -, d⟩ := diff_logM hε (TurnsBy.matrix (k := .mat) hm hv) hφ.symm hz hπ
      exact ⟨_, ev, d⟩
  | logRigid k =>
    have hd := rigidDen_eq k (c x) hv
    have hr' : k.rotMatrix (c x) = 1 ∨
        (ε < angle (k.rotMatrix (c x)) ^ 2 ∧ angle (k.rotMatrix (c x)) ≠ Real.pi) := by
      have : (rigidDen k (c x)).R = 1 ∨
        (ε < angle (rigidDen k (c x)).R ^ 2 ∧ angle (rigidDen k (c x)).R ≠ Real.pi) := hr
      rwa [hd] at this
    have hR := validRigid_rotation k (c x) hv
    obtain ⟨φ, e, hφ, hl, hz⟩ := logMat_regular hε hR hr'
    obtain ⟨hr1, ht1⟩ := movesBy_rigid.mp hm
    have hv1 := rigid_validRot hv
    have m1 : DiffM (fun e => k.rotMatrix (c e)) x fun h =>
        crossMatrix (Twist.rot (A h)) * k.rotMatrix (c x) := by
      simp only [rotMatrix_eq]; exact hr1.matrix hv1
    rcases hz with rfl | hz
    · exfalso
      change logRigid ε _ _ = some y at hy
      have : Twist.rot y = 0 := by
        unfold logRigid at hy
        rw [e] at hy
        simp only [Option.bind_eq_bind, Option.bind_some] at hy
        cases hu : logTrans ε 0 (k.trans (c x)) with
        | none => rw [hu] at hy; simp at hy
        | some u => rw [hu] at hy; cases hy; rfl
      change logRigidJac y = some J at hJ
      unfold logRigidJac at hJ
      rw [this, logRotJac_zero] at hJ
      simp at hJ
    · have hπ : √(normSq φ) < Real.pi := by
        rw [Real.sqrt_lt' Real.pi_pos]; exact hl
      have hne : φ ≠ 0 := by
        rintro rfl; simp [normSq] at hz; linarith
      obtain ⟨-, hval, dω⟩ := diff_logM hε m1 hφ.symm hz hπ
      obtain ⟨ev, d⟩ := diff_logT hε m1 ht1 hφ.symm hz hπ
      have hy' := ev.self_of_nhds
      rw [show evalUn ε (.logRigid k) (c x) = logRigid ε (k.rotMatrix (c x)) (k.trans (c x)) from rfl,
        hy'] at hy
      cases hy
      have hJ' : J = fromBlocks (vinv φ) 0
          (-(vinv φ) * eadeM φ (logT (k.rotMatrix (c x)) (k.trans (c x))) * vinv φ) (vinv φ) := by
        change logRigidJac (Twist.mk _ _) = some J at hJ
        unfold logRigidJac at hJ
        rw [show Twist.rot (Twist.mk (logM (k.rotMatrix (c x))) (logT (k.rotMatrix (c x)) (k.trans (c x)))) =
          logM (k.rotMatrix (c x)) from rfl, hval,
          show ∀ a b : V3, Twist.trans (Twist.mk a b) = b from fun _ _ => rfl,
          logRotJac_eq hne (cos_ne_of_lt_pi hne hπ), eadeB_eq hne] at hJ
        exact (Option.some.inj hJ).symm
      subst hJ'
      refine ⟨_, ev, ?_⟩
      apply diffV_twist
      · refine dω.congr_right fun h => ?_
        rw [rot_mulVec, zero_mulVec, add_zero]
      · refine d.congr_right fun h => ?_
        rw [trans_mulVec, Matrix.neg_mul, Matrix.neg_mul, Matrix.neg_mulVec, mulVec_mulVec,
          mulVec_mulVec]
        funext i
        simp only [Pi.add_apply, Pi.sub_apply, Pi.neg_apply]
        ring
  | getRot k =>
    cases hJ
    refine ⟨_, Eventually.of_forall fun e => rfl, ?_⟩
    refine TurnsBy.congr (movesBy_rigid.mp hm).1 (Eventually.of_forall fun e => rfl) fun h => ?_
    rw [getRotJac, cols_mulVec, one_mulVec, zero_mulVec, add_zero]
  | getTrans k =>
    cases hy
    cases hJ
    refine ⟨_, Eventually.of_forall fun e => rfl, ?_⟩
    refine DiffV.congr_right (movesBy_rigid.mp hm).2 fun h => ?_
    rw [getTransJac, cols_mulVec, one_mulVec, crossMatrix_mulVec, cross_neg_left,
      cross_anti _ (Twist.rot (A h)), neg_neg]
  | zeroTrans k => cases hJ
  | convRot k k' =>
    cases hJ
    obtain ⟨d, h1, h2⟩ := turns_conv k k' hm hv
    exact ⟨d, Eventually.of_forall h1, TurnsBy.congr h2 (Eventually.of_forall fun e => rfl) fun h =>
      one_mulVec _⟩
  | convRigid k k' =>
    cases hJ
    obtain ⟨hr1, ht1⟩ := movesBy_rigid.mp hm
    obtain ⟨d, h1, h2⟩ := turns_conv k.rotK k'.rotK hr1 (rigid_validRot hv)
    cases k <;> cases k'
    · exact ⟨c, Eventually.of_forall fun e => rfl, MovesBy.congr hm (Eventually.of_forall fun e => rfl)
        fun h => one_mulVec _⟩
    · refine ⟨fun e => RigK.compact.mk (d e) (RigK.mat.trans (c e)), Eventually.of_forall fun e => ?_, ?_⟩
      · change (Quat.ofMatrix (rotBlock (c e))).map _ = _
        have : Quat.ofMatrix (rotBlock (c e)) = some (d e) := h1 e
        rw [this]; rfl
      · exact MovesBy.congr (movesBy_rigid_mk h2 ht1) (Eventually.of_forall fun e => rfl)
          fun h => one_mulVec _
    · refine ⟨fun e => RigK.mat.mk (d e) (RigK.compact.trans (c e)), Eventually.of_forall fun e => ?_, ?_⟩
      · have : some (Quat.toMatrix (QuatTrans.q (c e))) = some (d e) := h1 e
        change some (mk4 (Quat.toMatrix (QuatTrans.q (c e))) _) = some (mk4 (d e) _)
        rw [← Option.some.inj this]
        rfl
      · exact MovesBy.congr (movesBy_rigid_mk h2 ht1) (Eventually.of_forall fun e => rfl)
          fun h => one_mulVec _
    · exact ⟨c, Eventually.of_forall fun e => rfl, MovesBy.congr hm (Eventually.of_forall fun e => rfl)
        fun h => one_mulVec _⟩
  | recast τ =>
    cases hJ
    exact ⟨c, Eventually.of_forall fun e => rfl, MovesBy.congr hm (Eventually.of_forall fun e => rfl)
      fun h => one_mulVec _⟩

end WG
