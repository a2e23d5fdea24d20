import Verif.Lemmas.Affine
import Verif.Props.Differentiation

/-!
# C14-C16, C25: the Jacobians returned are the derivatives of the values returned
-/

namespace WG
open Matrix Spec Filter Topology

variable {ε : ℝ}

/-! ## C14 -/

/-- **C14.** At a regular point, whenever `jacobian(x)` has finite entries it is the derivative at
zero of `d ↦ eval(e with x replaced by x + d) - eval(e)`, with `+` and `-` the library's own box
operators (which are defined near zero). -/
theorem c14_jacobian_is_derivative (hε : 0 < ε) (hε1 : ε ≤ 1) (s : Store (geoLib ε))
    (t : Target (geoLib ε)) {τ : Ty} (e : Expr (geoLib ε) τ) (hreg : RegularAt ε s e)
    (ht : t ∈ objects e) (ho : ∀ o ∈ objects e, o.addr = t.addr → o.ty = t.ty → o = t)
    (hc : e.noProxy ∨ e.fwdCompiles t ∧ Distinguished t e) {J : Matrix τ.Idx t.ty.Idx ℝ}
    (hJ : e.jacobianAuto s t = some J) :
    ∃ F : (t.ty.Idx → ℝ) → τ.Idx → ℝ,
      (∀ᶠ d in 𝓝 0, ((boxPlusVal ε t.ty (s t.addr t.ty) d).bind fun v =>
        (e.eval (s.set t.addr t.ty v)).bind fun y => (e.eval s).bind fun y₀ =>
          boxMinusVal ε τ y y₀) = some (F d)) ∧
      F 0 = 0 ∧ HasFDerivAt F (linMap J) 0 := by
  rw [c20_auto s t e ht hc] at hJ
  obtain ⟨F, h1, h2, h3⟩ := response_deriv hε hε1 s t e hreg ht ho hJ
  refine ⟨F, ?_, h2, h3⟩
  filter_upwards [h1] with d hd
  rw [← hd]
  simp only [Expr.eval, mk_val, response]

/-- **C14 (dynamic evaluation).** The same for the Jacobian computed through dynamic nodes. -/
theorem c14_dynamic_jacobian_is_derivative (hε : 0 < ε) (hε1 : ε ≤ 1) (s : Store (geoLib ε))
    (t : Target (geoLib ε)) {τ : Ty} (e : Expr (geoLib ε) τ) (hreg : RegularAt ε s e)
    (ht : t ∈ objects e) (hd : Distinguished t e) {J : Matrix τ.Idx t.ty.Idx ℝ}
    (hJ : e.dynJacobian s t.addr t.ty = some J) :
    ∃ F : (t.ty.Idx → ℝ) → τ.Idx → ℝ,
      (∀ᶠ d in 𝓝 0, ((boxPlusVal ε t.ty (s t.addr t.ty) d).bind fun v =>
        (e.eval (s.set t.addr t.ty v)).bind fun y => (e.eval s).bind fun y₀ =>
          boxMinusVal ε τ y y₀) = some (F d)) ∧
      F 0 = 0 ∧ HasFDerivAt F (linMap J) 0 := by
  have h0 : orZero ((ETree.mk s e).dyn t.addr t.ty) = some J := hJ
  rw [dyn_eq s t e hd, orZero_blockOf] at h0
  obtain ⟨F, h1, h2, h3⟩ := response_deriv hε hε1 s t e hreg ht (fun o h1 h2 _ => hd.1 o h1 h2) h0
  refine ⟨F, ?_, h2, h3⟩
  filter_upwards [h1] with d hd
  rw [← hd]
  simp only [Expr.eval, mk_val, response]

/-! ## C15 -/

/-- **C15 (unary operators, intrinsic form).** Whenever the operand moves in any differentiable way,
the result moves, and its velocity is the Jacobian times the velocity of the operand. -/
theorem c15_unary_velocity (hε : 0 < ε) (hε1 : ε ≤ 1) {E : Type} [NormedAddCommGroup E]
    [NormedSpace ℝ E] {x : E} {a b : Ty} (op : Un a b) {c : E → a.Val} {A : E → a.Idx → ℝ}
    (hv : Valid a (c x)) (hm : MovesBy a c x A) (hr : RegularUn ε op (den a (c x))) {y : b.Val}
    (hy : evalUn ε op (c x) = some y) {J : Matrix b.Idx a.Idx ℝ}
    (hJ : jacUn ε op y (c x) = some J) :
    ∃ d : E → b.Val, (∀ᶠ e in 𝓝 x, evalUn ε op (c e) = some (d e)) ∧
      MovesBy b d x fun h => J *ᵥ A h :=
  un_moves hε hε1 op hv hm hr hy hJ

/-- **C15 (binary operators, intrinsic form).** Both Jacobians exist at regular operands, and the
velocity of the result is the sum of each Jacobian times the velocity of its operand. -/
theorem c15_binary_velocity {E : Type} [NormedAddCommGroup E] [NormedSpace ℝ E] {x : E}
    {a b t : Ty} (op : Bin a b t) {c : E → a.Val} {d : E → b.Val} {A : E → a.Idx → ℝ}
    {B : E → b.Idx → ℝ} (hv : Valid a (c x)) (hw : Valid b (d x)) (hc : MovesBy a c x A)
    (hd : MovesBy b d x B) (hr : RegularBin op (den a (c x)) (den b (d x))) {z : t.Val}
    (hz : evalBin op (c x) (d x) = some z) :
    ∃ JL JR, jacL op z (c x) (d x) = some JL ∧ jacR op z (c x) (d x) = some JR ∧
      ∃ f : E → t.Val, (∀ᶠ e in 𝓝 x, evalBin op (c e) (d e) = some (f e)) ∧
        MovesBy t f x fun h => JL *ᵥ A h + JR *ᵥ B h :=
  bin_moves op hv hw hc hd hr hz

/-- A memory holding one given value. -/
private noncomputable def mem1 (a : Ty) (v : a.Val) : Store (geoLib ε) := Store.set (L := geoLib ε) demo 0 a v
/-- A memory holding two given values. -/
private noncomputable def mem2 (a b : Ty) (v : a.Val) (w : b.Val) : Store (geoLib ε) :=
  (mem1 (ε := ε) a v).set 1 b w

private theorem mem2_0 (a b : Ty) (v : a.Val) (w : b.Val) : mem2 (ε := ε) a b v w 0 a = v := by
  unfold mem2
  rw [Store.set_of_ne _ _ (by simp)]
  exact Store.set_get _ _ _ _

private theorem mem2_1 (a b : Ty) (v : a.Val) (w : b.Val) : mem2 (ε := ε) a b v w 1 b = w :=
  Store.set_get _ _ _ _

private theorem vNorm_eq_zero {n : Type} [Fintype n] (v : n → ℝ) : vNorm v = 0 ↔ v = 0 := by
  unfold vNorm vSqNorm
  rw [Real.sqrt_eq_zero (dot_self_nonneg v), dotProduct_self_eq_zero]

/-- **C15 (unary operators).** At every valid regular operand, a finite Jacobian is the derivative of
the result under box-plus perturbation of the operand. -/
theorem c15_unary (hε : 0 < ε) (hε1 : ε ≤ 1) {a b : Ty} (op : Un a b) (v : a.Val) (hv : Valid a v)
    (hr : RegularUn ε op (den a v)) {y : b.Val} (hy : evalUn ε op v = some y)
    {J : Matrix b.Idx a.Idx ℝ} (hJ : jacUn ε op y v = some J) :
    ∃ F : (a.Idx → ℝ) → b.Idx → ℝ,
      (∀ᶠ d in 𝓝 0, ((boxPlusVal ε a v d).bind fun v' => (evalUn ε op v').bind fun y' =>
        boxMinusVal ε b y' y) = some (F d)) ∧ F 0 = 0 ∧ HasFDerivAt F (linMap J) 0 := by
  set s : Store (geoLib ε) := mem1 a v with hs
  have s0 : s 0 a = v := Store.set_get _ _ _ _
  set e : Expr (geoLib ε) b := .un 1 op (gleaf ε 0 0 a) with he
  have hJ' : total (occurrences s ⟨0, 0, a⟩ e) = some J := by
    have h1 : occurrences s ⟨0, 0, a⟩ (gleaf ε 0 0 a) = [some 1] := by
      unfold occurrences
      rw [dif_pos rfl]; rfl
    change total ((occurrences s ⟨0, 0, a⟩ (gleaf ε 0 0 a)).map (OMat.mul (slopeU s op _))) = _
    have h2 : slopeU s op (gleaf ε 0 0 a) = some J := by
      change (evalUn ε op (s 0 a)).bind (fun y => jacUn ε op y (s 0 a)) = _
      rw [s0, hy]; exact hJ
    rw [h1, h2]
    refine (@add_zero (OMat b.Idx a.Idx) _ (some (J * 1))).trans ?_
    rw [Matrix.mul_one]
  obtain ⟨F, h1, h2, h3⟩ := response_deriv hε hε1 s ⟨0, 0, a⟩ e
    ⟨by change Valid a (s 0 a); rw [s0]; exact hv, by
      intro x hx
      have : x = v := by rw [← s0]; exact (Option.some.inj hx).symm
      rw [this]; exact hr⟩
    (by simp [he, objects]) (by simp [he, objects]) hJ'
  refine ⟨F, ?_, h2, h3⟩
  filter_upwards [h1] with d hd
  rw [← hd]
  change _ = (boxPlusVal ε a (s 0 a) d).bind fun v' => (evalUn ε op (s.set 0 a v' 0 a)).bind fun y' =>
    (evalUn ε op (s 0 a)).bind fun y0 => boxMinusVal ε b y' y0
  rw [s0, hy]
  simp only [Store.set_get, Option.bind_some]

/-- **C15 (binary operators, left operand).** -/
theorem c15_binary_left (hε : 0 < ε) (hε1 : ε ≤ 1) {a b c : Ty} (op : Bin a b c) (v : a.Val)
    (w : b.Val) (hv : Valid a v) (hw : Valid b w) (hr : RegularBin op (den a v) (den b w))
    {z : c.Val} (hz : evalBin op v w = some z) :
    ∃ (J : Matrix c.Idx a.Idx ℝ) (F : (a.Idx → ℝ) → c.Idx → ℝ), jacL op z v w = some J ∧
      (∀ᶠ d in 𝓝 0, ((boxPlusVal ε a v d).bind fun v' => (evalBin op v' w).bind fun z' =>
        boxMinusVal ε c z' z) = some (F d)) ∧ F 0 = 0 ∧ HasFDerivAt F (linMap J) 0 := by
  set s : Store (geoLib ε) := mem2 a b v w with hs
  have s0 : s 0 a = v := mem2_0 _ _ _ _
  have s1 : s 1 b = w := mem2_1 _ _ _ _
  obtain ⟨JL, JR, hL, hR⟩ := bin_jac_some op hz
  set e : Expr (geoLib ε) c := .bin 2 op (gleaf ε 0 0 a) (gleaf ε 1 0 b) with he
  have hJ' : total (occurrences s ⟨0, 0, a⟩ e) = some JL := by
    have h1 : occurrences s ⟨0, 0, a⟩ (gleaf ε 0 0 a) = [some 1] := by
      unfold occurrences
      rw [dif_pos rfl]; rfl
    have h1' : occurrences s ⟨0, 0, a⟩ (gleaf ε 1 0 b) = [] := by
      unfold occurrences
      rw [dif_neg (by simp)]
    change total ((occurrences s ⟨0, 0, a⟩ (gleaf ε 0 0 a)).map (OMat.mul (slopeL s op _ _)) ++
      (occurrences s ⟨0, 0, a⟩ (gleaf ε 1 0 b)).map (OMat.mul (slopeR s op _ _))) = _
    have h2 : slopeL s op (gleaf ε 0 0 a) (gleaf ε 1 0 b) = some JL := by
      change (evalBin op (s 0 a) (s 1 b)).bind (fun z => jacL op z (s 0 a) (s 1 b)) = _
      rw [s0, s1, hz]; exact hL
    rw [h1, h1', h2]
    refine (@add_zero (OMat c.Idx a.Idx) _ (some (JL * 1))).trans ?_
    rw [Matrix.mul_one]
  obtain ⟨F, h1, h2, h3⟩ := response_deriv hε hε1 s ⟨0, 0, a⟩ e
    ⟨by change Valid a (s 0 a); rw [s0]; exact hv, by change Valid b (s 1 b); rw [s1]; exact hw, by
      intro x y hx hy
      have e1 : x = v := by rw [← s0]; exact (Option.some.inj hx).symm
      have e2 : y = w := by rw [← s1]; exact (Option.some.inj hy).symm
      rw [e1, e2]; exact hr⟩
    (by simp [he, objects]) (by simp [he, objects]) hJ'
  refine ⟨JL, F, hL, ?_, h2, h3⟩
  filter_upwards [h1] with d hd
  rw [← hd]
  change _ = (boxPlusVal ε a (s 0 a) d).bind fun v' =>
    (evalBin op (s.set 0 a v' 0 a) (s.set 0 a v' 1 b)).bind fun z' =>
    (evalBin op (s 0 a) (s 1 b)).bind fun z0 => boxMinusVal ε c z' z0
  rw [s0, s1, hz]
  simp only [Store.set_get, Store.set_of_ne s _ (show ¬ ((1 : ℕ) = 0 ∧ a = b) by simp), s1,
    Option.bind_some]

/-- **C15 (binary operators, right operand).** -/
theorem c15_binary_right (hε : 0 < ε) (hε1 : ε ≤ 1) {a b c : Ty} (op : Bin a b c) (v : a.Val)
    (w : b.Val) (hv : Valid a v) (hw : Valid b w) (hr : RegularBin op (den a v) (den b w))
    {z : c.Val} (hz : evalBin op v w = some z) :
    ∃ (J : Matrix c.Idx b.Idx ℝ) (F : (b.Idx → ℝ) → c.Idx → ℝ), jacR op z v w = some J ∧
      (∀ᶠ d in 𝓝 0, ((boxPlusVal ε b w d).bind fun w' => (evalBin op v w').bind fun z' =>
        boxMinusVal ε c z' z) = some (F d)) ∧ F 0 = 0 ∧ HasFDerivAt F (linMap J) 0 := by
  set s : Store (geoLib ε) := mem2 a b v w with hs
  have s0 : s 0 a = v := mem2_0 _ _ _ _
  have s1 : s 1 b = w := mem2_1 _ _ _ _
  obtain ⟨JL, JR, hL, hR⟩ := bin_jac_some op hz
  set e : Expr (geoLib ε) c := .bin 2 op (gleaf ε 0 0 a) (gleaf ε 1 0 b) with he
  have hJ' : total (occurrences s ⟨1, 0, b⟩ e) = some JR := by
    have h1 : occurrences s ⟨1, 0, b⟩ (gleaf ε 1 0 b) = [some 1] := by
      unfold occurrences
      rw [dif_pos rfl]; rfl
    have h1' : occurrences s ⟨1, 0, b⟩ (gleaf ε 0 0 a) = [] := by
      unfold occurrences
      rw [dif_neg (by simp)]
    change total ((occurrences s ⟨1, 0, b⟩ (gleaf ε 0 0 a)).map (OMat.mul (slopeL s op _ _)) ++
      (occurrences s ⟨1, 0, b⟩ (gleaf ε 1 0 b)).map (OMat.mul (slopeR s op _ _))) = _
    have h2 : slopeR s op (gleaf ε 0 0 a) (gleaf ε 1 0 b) = some JR := by
      change (evalBin op (s 0 a) (s 1 b)).bind (fun z => jacR op z (s 0 a) (s 1 b)) = _
      rw [s0, s1, hz]; exact hR
    rw [h1, h1', h2]
    refine (@add_zero (OMat c.Idx b.Idx) _ (some (JR * 1))).trans ?_
    rw [Matrix.mul_one]
  obtain ⟨F, h1, h2, h3⟩ := response_deriv hε hε1 s ⟨1, 0, b⟩ e
    ⟨by change Valid a (s 0 a); rw [s0]; exact hv, by change Valid b (s 1 b); rw [s1]; exact hw, by
      intro x y hx hy
      have e1 : x = v := by rw [← s0]; exact (Option.some.inj hx).symm
      have e2 : y = w := by rw [← s1]; exact (Option.some.inj hy).symm
      rw [e1, e2]; exact hr⟩
    (by simp [he, objects]) (by simp [he, objects]) hJ'
  refine ⟨JR, F, hR, ?_, h2, h3⟩
  filter_upwards [h1] with d hd
  rw [← hd]
  change _ = (boxPlusVal ε b (s 1 b) d).bind fun w' =>
    (evalBin op (s.set 1 b w' 0 a) (s.set 1 b w' 1 b)).bind fun z' =>
    (evalBin op (s 0 a) (s 1 b)).bind fun z0 => boxMinusVal ε c z' z0
  rw [s0, s1, hz]
  simp only [Store.set_get, Store.set_of_ne s _ (show ¬ ((0 : ℕ) = 1 ∧ b = a) by simp), s0,
    Option.bind_some]

/-- **C15 (finiteness).** At every valid regular operand away from the listed singular arguments the
Jacobian of a unary operator is finite. -/
theorem c15_unary_finite (hε : 0 < ε) (hε1 : ε ≤ 1) {a b : Ty} (op : Un a b) (v : a.Val)
    (hv : Valid a v) (hr : RegularUn ε op (den a v)) (hs : AwayFromSingular op (den a v)) {y : b.Val}
    (hy : evalUn ε op v = some y) : ∃ J, jacUn ε op y v = some J := by
  cases op with
  | norm k =>
    have e1 : y = sc (vNorm (n := k.Idx) v) := (Option.some.inj hy).symm
    have hs' : v ≠ (0 : k.Idx → ℝ) := hs
    refine ⟨_, if_neg ?_⟩
    rw [e1]
    intro h
    exact hs' ((vNorm_eq_zero (n := k.Idx) v).mp h)
  | normalize k =>
    have hs' : v ≠ (0 : k.Idx → ℝ) := hs
    exact ⟨_, if_neg fun h => hs' ((vNorm_eq_zero (n := k.Idx) v).mp h)⟩
  | acos =>
    obtain ⟨h1, h2⟩ : -1 ≤ v (0 : Fin 1) ∧ v (0 : Fin 1) ≤ 1 := hr
    obtain ⟨h3, h4⟩ : v (0 : Fin 1) ≠ 1 ∧ v (0 : Fin 1) ≠ -1 := hs
    have h5 : -1 < v (0 : Fin 1) := lt_of_le_of_ne h1 (Ne.symm h4)
    have h6 : v (0 : Fin 1) < 1 := lt_of_le_of_ne h2 h3
    have hp : 0 < 1 - v (0 : Fin 1) * v (0 : Fin 1) := by nlinarith
    refine ⟨mat1 (-1 / √(1 - v (0 : Fin 1) * v (0 : Fin 1))), ?_⟩
    change acosJac (v (0 : Fin 1)) = _
    simp [acosJac, rsqrt, hp.le, rdiv, (Real.sqrt_pos.mpr hp).ne']
  | expRel =>
    change ∃ J, expRelJac ε _ v = some J
    unfold expRelJac
    by_cases h : normSq v > ε
    · simp only [if_pos h, rdiv, if_neg (show normSq v ≠ 0 by linarith), Option.bind_eq_bind,
        Option.bind_some]
      exact ⟨_, rfl⟩
    · simp only [if_neg h]
      exact ⟨_, rfl⟩
  | expTwist =>
    have hs' : Twist.rot v ≠ 0 := hs
    change ∃ J, expTwistJac ε _ v = some J
    unfold expTwistJac
    rw [eadeB_eq hs']
    unfold expRelJac
    by_cases h : normSq (Twist.rot v) > ε
    · simp only [if_pos h, rdiv, if_neg (show normSq (Twist.rot v) ≠ 0 by linarith),
        Option.bind_eq_bind, Option.bind_some]
      exact ⟨_, rfl⟩
    · simp only [if_neg h]
      exact ⟨_, rfl⟩
  | logRot =>
    obtain ⟨φ, e, hφ, hl, hz⟩ := logMat_regular hε (R := v) hv hr
    rw [show evalUn ε .logRot v = logMat ε v from rfl, e] at hy
    obtain rfl := Option.some.inj hy
    have hs' : v ≠ (1 : M3) := hs
    have hne : φ ≠ 0 := by
      rintro rfl
      exact hs' (by rw [← hφ, rodr_zero])
    have hπ : √(normSq φ) < Real.pi := by
      rw [Real.sqrt_lt' Real.pi_pos]; exact hl
    exact ⟨_, logRotJac_eq hne (cos_ne_of_lt_pi hne hπ)⟩
  | logRigid k =>
    have hd := rigidDen_eq k v hv
    have hr' : k.rotMatrix v = 1 ∨
        (ε < angle (k.rotMatrix v) ^ 2 ∧ angle (k.rotMatrix v) ≠ Real.pi) := by
      have : (rigidDen k v).R = 1 ∨
        (ε < angle (rigidDen k v).R ^ 2 ∧ angle (rigidDen k v).R ≠ Real.pi) := hr
      rwa [hd] at this
    have hs' : k.rotMatrix v ≠ 1 := by
      have : (rigidDen k v).R ≠ 1 := hs
      rwa [hd] at this
    obtain ⟨φ, e, hφ, hl, hz⟩ := logMat_regular hε (validRigid_rotation k v hv) hr'
    have hne : φ ≠ 0 := by
      rintro rfl
      exact hs' (by rw [← hφ, rodr_zero])
    have hπ : √(normSq φ) < Real.pi := by
      rw [Real.sqrt_lt' Real.pi_pos]; exact hl
    have hrot : Twist.rot y = φ := by
      change logRigid ε _ _ = some y at hy
      unfold logRigid at hy
      rw [e] at hy
      simp only [Option.bind_eq_bind, Option.bind_some] at hy
      cases hu : logTrans ε φ (k.trans v) with
      | none => rw [hu] at hy; simp at hy
      | some u => rw [hu] at hy; cases hy; rfl
    change ∃ J, logRigidJac y = some J
    unfold logRigidJac
    rw [hrot, logRotJac_eq hne (cos_ne_of_lt_pi hne hπ), eadeB_eq hne]
    exact ⟨_, rfl⟩
  | zeroTrans k => exact absurd hs id
  | _ => exact ⟨_, rfl⟩

end WG
