import Verif.Lemmas.NumericalRounding
import Verif.Props.Numerical
import Verif.Props.Rounding

/-!
# C67: the numerical Jacobian in floating-point arithmetic
-/

namespace WG
open Matrix Spec Round

variable {ε : ℝ} {F : Fl}

/-- Leaves of an expression after a step of a vector, scalar or point. -/
theorem leaves_stepped {s : Store (geoLib ε)} (t : Target (geoLib ε)) (hf : IsFlat t.ty)
    (d : t.ty.Idx → ℝ) {τ : Ty} (e : Expr (geoLib ε) τ)
    (hs : ∀ o ∈ e.leaves, Valid o.ty (s o.addr o.ty)) :
    ∀ o ∈ e.leaves, Valid o.ty (stepStore s t d o.addr o.ty) ∧
      Within o.ty F.u (size o.ty (stepStore s t d o.addr o.ty)) (stepStore s t d o.addr o.ty)
        (s.set t.addr t.ty (flStep F t.ty (s t.addr t.ty) d) o.addr o.ty) := by
  intro o ho
  unfold stepStore
  obtain ⟨a, c, σ⟩ := o
  obtain ⟨b, c', σ'⟩ := t
  by_cases h : a = b ∧ σ' = σ
  · obtain ⟨rfl, rfl⟩ := h
    simp only [Store.set_get]
    exact ⟨valid_flat hf _, within_step hf _ _⟩
  · simp only [Store.set_of_ne _ _ h]
    exact ⟨hs _ ho, within_refl (u_nonneg F) _⟩

theorem bump_class {t a : ℕ} {σ τ : Ty} {d : σ.Idx → ℝ} {x z : τ.Val} (h : FlBump F t σ d a τ x z)
    (ha : a = t) : τ = σ := by
  unfold FlBump at h
  rw [if_pos ha] at h
  by_cases hσ : σ = τ
  · exact hσ.symm
  · rw [dif_neg hσ] at h; exact h.elim

theorem delta_class {s : Store (geoLib ε)} {t : ℕ} {σ : Ty} {d : σ.Idx → ℝ} : {τ : Ty} →
    (e : Expr (geoLib ε) τ) → {z : τ.Val} → ComputesDelta F s t σ d e z → OneClass t (σ : (geoLib ε).Ty) e
  | _, .leaf _ _ _, _, h => bump_class h
  | _, .un _ (_ : Un _ _) e, _, h => by
    obtain ⟨_, _, h, _, hb⟩ := h
    exact ⟨bump_class hb, delta_class e h⟩
  | _, .bin _ (_ : Bin _ _ _) l r, _, h => by
    obtain ⟨_, _, _, h, k, _, hb⟩ := h
    exact ⟨bump_class hb, delta_class l h, delta_class r k⟩
  | _, .proxy _ e, _, h => by
    obtain ⟨_, h, hb⟩ := h
    exact ⟨bump_class hb, delta_class e h⟩

/-- **C67.** There is a result only if no object of another class has the target's address. -/
theorem c67_one_class {s : Store (geoLib ε)} {t : ℕ} {σ : Ty} {δ : ℝ} {τ : Ty}
    {e : Expr (geoLib ε) τ} {j : σ.Idx} {z : τ.Idx → ℝ} (h : FlNumColumn F s t σ δ e j z) :
    OneClass t (σ : (geoLib ε).Ty) e := by
  obtain ⟨_, _, _, h, _⟩ := h
  exact delta_class e h

/-- **C67.** Every column of the numerical Jacobian computed in floating point is within the stated
bound of the exact difference quotient. -/
theorem c67_error {s : Store (geoLib ε)} (t : Target (geoLib ε)) (hft : IsFlat t.ty) {τ : Ty}
    (hfe : IsFlat τ) (e : Expr (geoLib ε) τ) (hd : Distinguished t e)
    (hs : ∀ o ∈ e.leaves, Valid o.ty (s o.addr o.ty)) {δ : ℝ} (j : t.ty.Idx) {c z : τ.Idx → ℝ}
    (hc : e.numColumn s t.addr t.ty δ j = some c) (hz : FlNumColumn F s t.addr t.ty δ e j z) :
    len (z - c) ≤ quotientError F.u δ (valueErrors F.u s t (coordStep j δ) e) (len c) := by
  obtain ⟨a', b', diff, h1, h2, h3, hδ, h4⟩ := hz
  rw [computesDelta_iff s t hft _ e hd] at h1
  unfold Expr.numColumn at hc
  obtain ⟨a, ha, hc⟩ := Option.bind_eq_some_iff.mp hc
  obtain ⟨b, hb, hc⟩ := Option.bind_eq_some_iff.mp hc
  obtain ⟨dd, hdd, hc⟩ := Option.bind_eq_some_iff.mp hc
  rw [if_neg hδ] at hc
  have hc := (Option.some.inj hc).symm
  rw [evalDelta_eq s t _ (boxPlus_flat hft _ _) e hd, ← mk_val] at ha
  have e1 := (near_of_computes (u_nonneg F) e (leaves_stepped t hft (coordStep j δ) e hs) ha h1).2.2.2
  have e2 := (near_of_computes le_rfl e (fun o ho => ⟨hs o ho, within_refl le_rfl _⟩) hb h2).2.2.2
  cases τ with
  | vec k =>
    have hdd' : dd = a - b := (Option.some.inj hdd).symm
    have : c = δ⁻¹ • (a - b) := by
      rw [hc, hdd']
      funext i
      rw [Pi.smul_apply, smul_eq_mul, div_eq_inv_mul]
    rw [this]
    exact quotient_near (n := k.Idx) hδ e1 e2 h3 h4
  | point =>
    have hdd' : dd = fun i : Fin 3 => a i - b i := (Option.some.inj hdd).symm
    have : c = δ⁻¹ • (fun i : Fin 3 => a i - b i) := by
      rw [hc, hdd']
      funext i
      rw [Pi.smul_apply, smul_eq_mul, div_eq_inv_mul]
    rw [this]
    exact quotient_near (n := Fin 3) (a := a) (b := b) hδ e1 e2 h3 h4
  | rot k => exact hfe.elim
  | rigid k => exact hfe.elim

/-- **C67.** For an expression affine in the target, the exact difference quotient is the column of
the Jacobian, so the bound is on the distance from the Jacobian. -/
theorem c67_affine {s : Store (geoLib ε)} (t : Target (geoLib ε)) (hft : IsFlat t.ty) {τ : Ty}
    (hfe : IsFlat τ) (e : Expr (geoLib ε) τ) (ha : AffineIn t e) (ht : t ∈ objects e)
    (hd : Distinguished t e) (hp : e.noProxy ∨ e.fwdCompiles t)
    (hs : ∀ o ∈ e.leaves, Valid o.ty (s o.addr o.ty)) {y : τ.Val} (hy : e.eval s = some y)
    {J : Matrix τ.Idx t.ty.Idx ℝ} (hJ : e.jacobianAuto s t = some J) {δ : ℝ} (j : t.ty.Idx)
    {z : τ.Idx → ℝ} (hz : FlNumColumn F s t.addr t.ty δ e j z) :
    len (z - fun i => J i j) ≤
      quotientError F.u δ (valueErrors F.u s t (coordStep j δ) e) (len fun i => J i j) := by
  have hδ : δ ≠ 0 := by
    obtain ⟨_, _, _, -, -, -, h, -⟩ := hz
    exact h
  exact c67_error t hft hfe e hd hs j (c25_affine_exact s t hft hfe e ha ht hd hp hy hJ hδ j) hz

/-- **C67.** The numerical Jacobian of an expression without divisions and transcendental functions
has an outcome, for every non-zero step. -/
theorem c67_outcome (F : Fl) (s : Store (geoLib ε)) (t : Target (geoLib ε)) (hft : IsFlat t.ty) {τ : Ty}
    (hfe : IsFlat τ) (e : Expr (geoLib ε) τ) (hd : Distinguished t e) (hcov : Covered e) {δ : ℝ}
    (hδ : δ ≠ 0) (j : t.ty.Idx) : ∃ z, FlNumColumn F s t.addr t.ty δ e j z := by
  obtain ⟨v, hv⟩ := c60_outcome F s e hcov
  obtain ⟨w, hw⟩ := c60_outcome F
    (s.set t.addr t.ty (flStep F t.ty (s t.addr t.ty) (coordStep j δ))) e hcov
  have hw' := (computesDelta_iff (F := F) s t hft (coordStep j δ) e hd w).2 hw
  cases τ with
  | vec k => exact ⟨_, w, v, _, hw', hv, fun _ => rfl, hδ, fun _ => rfl⟩
  | point => exact ⟨_, w, v, _, hw', hv, fun _ => rfl, hδ, fun _ => rfl⟩
  | rot k => exact hfe.elim
  | rigid k => exact hfe.elim

/-- **C67.** Without rounding, the outcome is the exact difference quotient. -/
theorem c67_exact (hu : F.u = 0) {s : Store (geoLib ε)} (t : Target (geoLib ε)) (hft : IsFlat t.ty)
    {τ : Ty} (hfe : IsFlat τ) (e : Expr (geoLib ε) τ) (hd : Distinguished t e) {δ : ℝ} (j : t.ty.Idx)
    {z : τ.Idx → ℝ} (hz : FlNumColumn F s t.addr t.ty δ e j z) :
    e.numColumn s t.addr t.ty δ j = some z := by
  have hr : ∀ x, F.rnd x = x := fun x => by
    have := F.err x
    rw [hu, zero_mul] at this
    exact sub_eq_zero.1 (abs_nonpos_iff.1 this)
  obtain ⟨a, b, diff, h1, h2, h3, hδ, h4⟩ := hz
  rw [computesDelta_iff s t hft _ e hd] at h1
  have hst : flStep F t.ty (s t.addr t.ty) (coordStep j δ) =
      stepped t.ty (s t.addr t.ty) (coordStep j δ) := by
    obtain ⟨_, _, σ⟩ := t
    cases σ with
    | vec k => exact funext fun i => hr _
    | point => exact funext fun i => hr _
    | rot k => exact hft.elim
    | rigid k => exact hft.elim
  rw [hst] at h1
  unfold Expr.numColumn
  rw [evalDelta_eq s t _ (boxPlus_flat hft _ _) e hd, ← mk_val]
  have k1 := c60_exact hu _ e h1
  have k2 := c60_exact hu s e h2
  refine Option.bind_eq_some_iff.mpr ⟨a, k1, Option.bind_eq_some_iff.mpr ⟨b, k2, ?_⟩⟩
  refine Option.bind_eq_some_iff.mpr ⟨diff, ?_, ?_⟩
  · cases τ with
    | vec k =>
      change some (a - b) = some diff
      congr 1
      funext i
      rw [h3 i, hr]
      exact sub_eq_add_neg _ _
    | point =>
      change some (fun i : Fin 3 => a i - b i) = some diff
      congr 1
      funext i
      rw [h3 i, hr]
      exact sub_eq_add_neg _ _
    | rot k => exact hfe.elim
    | rigid k => exact hfe.elim
  · rw [if_neg hδ]
    congr 1
    funext i
    rw [h4 i, hr]

/-! ### The rotation of a vector -/

/-- `R * v`. -/
noncomputable abbrev rotTimes (ε : ℝ) (a b : ℕ) (n : ℕ) : Expr (geoLib ε) (.vec .trans) :=
  Expr.bin (L := geoLib ε) n Bin.rotateM (Expr.leaf (L := geoLib ε) a 0 (Ty.rot .mat))
    (Expr.leaf (L := geoLib ε) b 0 (Ty.vec .trans))

theorem rotTimes_column (s : Store (geoLib ε)) {a b n : ℕ} (hab : a ≠ b) (hn : n ≠ b) {δ : ℝ} (hδ : δ ≠ 0)
    (j : Fin 3) : (rotTimes ε a b n).numColumn s b (Ty.vec .trans) δ j =
      some fun i => (s a (.rot .mat) : M3) i j := by
  have hd : Distinguished (⟨b, 0, .vec .trans⟩ : Target (geoLib ε)) (rotTimes ε a b n) := by
    simp [Distinguished, objects, nodeAddrs, hab, Ne.symm hn]
  refine numColumn_affine s ⟨b, 0, .vec .trans⟩ trivial (τ := .vec .trans) trivial
    (rotTimes ε a b n) ?_ hd
    (y := rotateM (s a (.rot .mat)) (s b (.vec .trans))) rfl
    (J := (s a (.rot .mat) : M3)) ?_ hδ j
  · simp [AffineIn, depBin, objects, hab]
  · have h1 : occurrences s (⟨b, 0, .vec .trans⟩ : Target (geoLib ε))
        (Expr.leaf (L := geoLib ε) a 0 (Ty.rot .mat)) = [] := by
      unfold occurrences
      rw [dif_neg (by intro h; cases h)]
    have h2 : occurrences s (⟨b, 0, .vec .trans⟩ : Target (geoLib ε))
        (Expr.leaf (L := geoLib ε) b 0 (Ty.vec .trans)) = [some 1] := by
      unfold occurrences
      rw [dif_pos rfl]
      rfl
    change total (List.map _ (occurrences s (⟨b, 0, .vec .trans⟩ : Target (geoLib ε))
      (Expr.leaf (L := geoLib ε) a 0 (Ty.rot .mat))) ++ List.map _ (occurrences s
      (⟨b, 0, .vec .trans⟩ : Target (geoLib ε)) (Expr.leaf (L := geoLib ε) b 0 (Ty.vec .trans)))) = _
    rw [h1, h2]
    refine (add_zero (M := OMat (Fin 3) (Fin 3)) (some ((s a (.rot .mat) : M3) * 1))).trans ?_
    rw [Matrix.mul_one]

theorem len_column {R : M3} (h : Rᵀ * R = 1) (j : Fin 3) : len (fun i => R i j) = 1 := by
  have h1 : len (fun i => R i j) ^ 2 = 1 := by
    rw [len_sq]
    have := congrFun (congrFun h j) j
    simp only [Matrix.mul_apply, Matrix.transpose_apply, Matrix.one_apply_eq] at this
    rw [← this]
    exact Finset.sum_congr rfl fun i _ => sq _
  have := len_nonneg fun i => R i j
  nlinarith

/-- **C67.** In double precision, with the step `2 ^ -26` of the code: every column of the numerical
Jacobian of `R * v` with respect to `v` is within `(1 + |v|) / 2 ^ 22` of that of `R`. -/
theorem c67_rotate {s : Store (geoLib ε)} {a b n : ℕ} (hab : a ≠ b) (hn : n ≠ b)
    (hR : IsRotation (s a (.rot .mat) : M3)) (j : Fin 3) {z : Fin 3 → ℝ}
    (hz : FlNumColumn (ieee 52) s b (Ty.vec .trans) (1 / 2 ^ 26) (rotTimes ε a b n) j z) :
    len (z - fun i => (s a (.rot .mat) : M3) i j) ≤
      (1 + len (s b (.vec .trans) : Fin 3 → ℝ)) / 2 ^ 22 := by
  have hd : Distinguished (⟨b, 0, .vec .trans⟩ : Target (geoLib ε)) (rotTimes ε a b n) := by
    simp [Distinguished, objects, nodeAddrs, hab, Ne.symm hn]
  have hs : ∀ o ∈ (rotTimes ε a b n).leaves, Valid o.ty (s o.addr o.ty) := by
    intro o ho
    have ho : o ∈ [(⟨a, 0, Ty.rot .mat⟩ : Target (geoLib ε)), ⟨b, 0, Ty.vec .trans⟩] := ho
    rcases List.mem_pair.1 ho with rfl | rfl
    · exact hR
    · trivial
  have h := c67_error (F := ieee 52) (⟨b, 0, .vec .trans⟩ : Target (geoLib ε)) trivial
    (τ := .vec .trans) trivial (rotTimes ε a b n) hd hs j (rotTimes_column s hab hn (by norm_num) j) hz
  refine h.trans ?_
  rw [len_column hR.transpose_mul_self]
  have hu : (ieee 52).u = 1 / 2 ^ 53 := by
    change (2 : ℝ) ^ (-((52 : ℕ) + 1 : ℤ)) = _
    norm_num
  rw [hu]
  set V := len (s b (.vec .trans) : Fin 3 → ℝ) with hV
  have hV0 : 0 ≤ V := len_nonneg _
  have hstep : len (stepStore s (⟨b, 0, .vec .trans⟩ : Target (geoLib ε)) (coordStep j (1 / 2 ^ 26)) b
      (Ty.vec .trans) : Fin 3 → ℝ) ≤ V + 1 / 2 ^ 26 := by
    unfold stepStore
    rw [Store.set_get]
    refine (len_add_le _ _).trans (add_le_add le_rfl ?_)
    refine len_le_of_sq (by norm_num) ?_
    simp [coordStep]
  have hamp : amp (stepStore s (⟨b, 0, .vec .trans⟩ : Target (geoLib ε)) (coordStep j (1 / 2 ^ 26)))
      (rotTimes ε a b n) ≤ V + 1 / 2 ^ 26 := hstep
  have hval : valueErrors (1 / 2 ^ 53) s (⟨b, 0, .vec .trans⟩ : Target (geoLib ε))
      (coordStep j (1 / 2 ^ 26)) (rotTimes ε a b n) ≤
      9 / 2 ^ 53 * (V + 1 / 2 ^ 26) + 7 / 2 ^ 53 * V := by
    have f1 : factor (1 / 2 ^ 53) (1 / 2 ^ 53) (rotTimes ε a b n) - 1 ≤ 9 / 2 ^ 53 := by
      change (1 + 1 / 2 ^ 53 : ℝ) * (1 + 1 / 2 ^ 53) * (1 + 2 * growth (1 / 2 ^ 53) 3) - 1 ≤ _
      norm_num [growth]
    have f2 : factor (1 / 2 ^ 53) 0 (rotTimes ε a b n) - 1 ≤ 7 / 2 ^ 53 := by
      change (1 + 0 : ℝ) * (1 + 0) * (1 + 2 * growth (1 / 2 ^ 53) 3) - 1 ≤ _
      norm_num [growth]
    have h0 : 0 ≤ amp (stepStore s (⟨b, 0, .vec .trans⟩ : Target (geoLib ε))
        (coordStep j (1 / 2 ^ 26))) (rotTimes ε a b n) := len_nonneg _
    unfold valueErrors
    refine add_le_add (mul_le_mul f1 hamp h0 (by norm_num)) (mul_le_mul_of_nonneg_right f2 ?_)
    exact hV0
  unfold quotientError
  rw [abs_of_pos (by norm_num)]
  have : (1 + 1 / 2 ^ 53 : ℝ) ^ 2 * valueErrors (1 / 2 ^ 53) s (⟨b, 0, .vec .trans⟩ : Target (geoLib ε))
      (coordStep j (1 / 2 ^ 26)) (rotTimes ε a b n) ≤
      2 * (9 / 2 ^ 53 * (V + 1 / 2 ^ 26) + 7 / 2 ^ 53 * V) :=
    mul_le_mul (by norm_num) hval (by
      unfold valueErrors
      refine add_nonneg (mul_nonneg ?_ (len_nonneg _)) (mul_nonneg ?_ hV0)
      · change (0 : ℝ) ≤ (1 + 1 / 2 ^ 53 : ℝ) * (1 + 1 / 2 ^ 53) * (1 + 2 * growth (1 / 2 ^ 53) 3) - 1
        norm_num [growth]
      · change (0 : ℝ) ≤ (1 + 0 : ℝ) * (1 + 0) * (1 + 2 * growth (1 / 2 ^ 53) 3) - 1
        norm_num [growth]) (by norm_num)
  have h2 : (1 + 1 / 2 ^ 53 : ℝ) ^ 2 - 1 ≤ 3 / 2 ^ 53 := by norm_num
  rw [div_div_eq_mul_div, div_one, mul_one]
  nlinarith

/-! ### The step is absolute -/

/-- **C67.** If the step is lost in the rounding of the target, zero is an outcome of the numerical
Jacobian, whatever the expression. -/
theorem c67_lost_step (s : Store (geoLib ε)) (t : Target (geoLib ε)) (hft : IsFlat t.ty) {τ : Ty}
    (hfe : IsFlat τ) (e : Expr (geoLib ε) τ) (hd : Distinguished t e) {δ : ℝ} (hδ : δ ≠ 0)
    (j : t.ty.Idx) (h : FlPlus F t.ty (s t.addr t.ty) (coordStep j δ) (s t.addr t.ty)) {v : τ.Val}
    (hv : Computes F s e v) : FlNumColumn F s t.addr t.ty δ e j 0 := by
  have h1 : ComputesDelta F s t.addr t.ty (coordStep j δ) e v := by
    rw [computesDelta_iff s t hft _ e hd, ← (flPlus_iff hft _ _ _).1 h, Store.set_self]
    exact hv
  have h0 : ∀ x : ℝ, F.rnd (x + -x) = 0 := fun x => by rw [add_neg_cancel, rnd_zero]
  refine ⟨v, v, 0, h1, hv, ?_, hδ, fun i => ?_⟩
  · cases τ with
    | vec k => exact fun i => (h0 _).symm
    | point => exact fun i => (h0 _).symm
    | rot k => exact hfe.elim
    | rigid k => exact hfe.elim
  · change 0 = F.rnd (0 / δ)
    rw [zero_div, rnd_zero]

/-- **C67.** In double precision the step `2 ^ -26` of the code is lost for every coefficient that is
`2 ^ 28` or more. -/
theorem c67_lost (x : ℝ) (hs : ieeeRnd 52 x = x) (hx : 2 ^ 28 ≤ x) :
    ieeeRnd 52 (x + 1 / 2 ^ 26) = x := by
  have h0 : 0 < x := lt_of_lt_of_le (by norm_num) hx
  refine ieee_absorb h0 hs (by norm_num) ?_
  have h1 : (28 : ℤ) ≤ Int.log 2 x := by
    refine (Int.zpow_le_iff_le_log (b := 2) (by norm_num) h0).mp ?_
    exact_mod_cast hx
  have h2 : (2 : ℝ) ^ ((28 : ℤ) - (52 : ℕ)) ≤ 2 ^ (Int.log 2 x - (52 : ℕ)) :=
    zpow_le_zpow_right₀ (by norm_num) (by omega)
  refine le_trans ?_ h2
  norm_num

/-- **C67.** So the numerical Jacobian of a stored scalar with respect to itself is computed as zero,
and as nothing else, once the scalar is `2 ^ 28` or more; the Jacobian is one. -/
theorem c67_large_scalar (s : Store (geoLib ε)) (a c : ℕ)
    (hs : ieeeRnd 52 ((s a (.vec .scalar) : Fin 1 → ℝ) 0) = (s a (.vec .scalar) : Fin 1 → ℝ) 0)
    (hx : 2 ^ 28 ≤ (s a (.vec .scalar) : Fin 1 → ℝ) 0) (z : Fin 1 → ℝ) :
    (FlNumColumn (ieee 52) s a (.vec .scalar) (1 / 2 ^ 26)
      (Expr.leaf (L := geoLib ε) a c (Ty.vec .scalar)) (0 : Fin 1) z ↔ z = 0) ∧
    (Expr.leaf (L := geoLib ε) a c (Ty.vec .scalar)).jacobianAuto s ⟨a, c, .vec .scalar⟩ =
      some (1 : Matrix (Fin 1) (Fin 1) ℝ) := by
  have hl := c67_lost _ hs hx
  have hst : FlPlus (ieee 52) (.vec .scalar) (s a (.vec .scalar)) (coordStep (0 : Fin 1) (1 / 2 ^ 26))
      (s a (.vec .scalar)) := by
    intro i
    rw [show i = (0 : Fin 1) from Subsingleton.elim _ _]
    exact hl.symm
  have hd : Distinguished (⟨a, c, .vec .scalar⟩ : Target (geoLib ε))
      (Expr.leaf (L := geoLib ε) a c (Ty.vec .scalar)) := by
    simp [Distinguished, objects, nodeAddrs]
  refine ⟨⟨?_, ?_⟩, ?_⟩
  · rintro ⟨v, w, d, h1, h2, h3, -, h4⟩
    rw [computesDelta_iff s ⟨a, c, .vec .scalar⟩ trivial _ _ hd, ← (flPlus_iff (τ := .vec .scalar) trivial _ _ _).1 hst,
      Store.set_self] at h1
    have h1 : v = s a (.vec .scalar) := h1
    have h2 : w = s a (.vec .scalar) := h2
    subst h1
    subst h2
    funext i
    rw [h4 i, h3 i]
    change (ieee 52).rnd ((ieee 52).rnd (_ + -_) / _) = 0
    rw [add_neg_cancel, rnd_zero, zero_div, rnd_zero]
  · rintro rfl
    exact c67_lost_step s ⟨a, c, .vec .scalar⟩ trivial (τ := .vec .scalar) trivial _ hd
      (by norm_num) 0 hst rfl
  · rw [c20_auto _ _ _ (List.mem_singleton.2 rfl) (.inl rfl)]
    have : occurrences s (⟨a, c, .vec .scalar⟩ : Target (geoLib ε))
        (Expr.leaf (L := geoLib ε) a c (Ty.vec .scalar)) = [some 1] := by
      unfold occurrences
      rw [dif_pos rfl]
      rfl
    rw [this]
    exact add_zero (M := OMat (Fin 1) (Fin 1)) (some 1)

section Examples

/-- A scalar of `2 ^ 28`: the hypotheses of `c67_large_scalar`. -/
noncomputable def bigMem (ε : ℝ) : Store (geoLib ε) := fun a τ => match τ with
  | .vec .scalar => fun _ : Fin 1 => (2 ^ 28 : ℝ)
  | τ => demo a τ

example : ieeeRnd 52 ((bigMem ε 0 (.vec .scalar) : Fin 1 → ℝ) 0) =
    (bigMem ε 0 (.vec .scalar) : Fin 1 → ℝ) 0 := by
  change ieeeRnd 52 (2 ^ 28) = 2 ^ 28
  have hl : Int.log 2 (2 ^ 28 : ℝ) = 28 := log_eq_of (by norm_num) (by norm_num)
  unfold ieeeRnd
  rw [if_neg (by norm_num), abs_of_pos (by norm_num), hl]
  have : roundEven ((2 ^ 28 : ℝ) / 2 ^ ((28 : ℤ) - (52 : ℕ))) = 2 ^ 52 := by
    have hf : ⌊(2 ^ 28 : ℝ) / 2 ^ ((28 : ℤ) - (52 : ℕ))⌋ = 2 ^ 52 := by
      rw [Int.floor_eq_iff]
      constructor <;> norm_num
    unfold roundEven
    rw [hf, if_pos (by norm_num)]
  rw [this]
  norm_num

/-- `R * v` has a numerical Jacobian in floating point, and `c67_rotate` bounds its error. -/
example (j : Fin 3) : ∃ z, FlNumColumn (ieee 52) demo 1 (Ty.vec .trans) (1 / 2 ^ 26)
    (rotTimes dblEps 0 1 2) j z ∧ len (z - fun i => (demo 0 (.rot .mat) : M3) i j) ≤
      (1 + len (demo 1 (.vec .trans) : Fin 3 → ℝ)) / 2 ^ 22 := by
  obtain ⟨z, hz⟩ := c67_outcome (ieee 52) demo ⟨1, 0, .vec .trans⟩ trivial (τ := .vec .trans) trivial
    (rotTimes dblEps 0 1 2) (by simp [Distinguished, objects, nodeAddrs])
    ⟨trivial, trivial, trivial⟩ (δ := 1 / 2 ^ 26) (by norm_num) j
  exact ⟨z, hz, c67_rotate (by decide) (by decide) demo_quarter j hz⟩

/-- A scalar and a vector at one address: no result. -/
example (z : Fin 3 → ℝ) (j : Fin 1) : ¬ FlNumColumn F demo 1 (Ty.vec .scalar) (1 / 2 ^ 26)
    (rotTimes dblEps 0 1 2) j z := fun h => by
  have := (c67_one_class h).2.2 rfl
  cases this

end Examples

end WG
