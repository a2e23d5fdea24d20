import Verif.Lemmas.RoundingOutcome
import Verif.Props.Evaluation

/-!
# C60: evaluation in floating-point arithmetic
-/

namespace WG
open Matrix Spec Round

variable {ε : ℝ} {F : Fl}

/-- **C60.** Every outcome of evaluating an expression in floating point, from leaves stored with
relative error at most `η`, is within the error bound of the expression of the exact value. -/
theorem c60_error {η : ℝ} (hη : 0 ≤ η) {s s' : Store (geoLib ε)} {τ : Ty} (e : Expr (geoLib ε) τ)
    (hs : ∀ t ∈ e.leaves, Valid t.ty (s t.addr t.ty) ∧
      Within t.ty η (size t.ty (s t.addr t.ty)) (s t.addr t.ty) (s' t.addr t.ty))
    {v z : τ.Val} (hv : e.eval (L := geoLib ε) s = some v) (hz : Computes F s' e z) :
    Within τ (factor F.u η e - 1) (amp s e) v z :=
  (near_of_computes hη e hs hv hz).2.2.2

/-- **C60.** Leaves whose coefficients are the rounded coefficients of valid objects have relative
error at most two units of roundoff. -/
theorem c60_stored {τ : Ty} {x z : τ.Val} (hx : Valid τ x) (h : Stored F τ x z) :
    Within τ (2 * F.u) (size τ x) x z := within_stored τ hx h

/-- **C60.** In terms of the mathematical meaning of the expression written by the user. -/
theorem c60_meaning (hε : 0 < ε) {η : ℝ} (hη : 0 ≤ η) {s s' : Memory} {e : SExpr} {o : Obj}
    (h : Means ε s e o) :
    ∃ (τ : Ty) (p : Expr (geoLib ε) τ) (v : τ.Val), SExpr.elab ε e = some ⟨τ, p⟩ ∧ obj τ v = o ∧
      ∀ z, (∀ t ∈ p.leaves, Valid t.ty (s t.addr t.ty) ∧
          Within t.ty η (size t.ty (s t.addr t.ty)) (s t.addr t.ty) (s' t.addr t.ty)) →
        Computes F s' p z → Within τ (factor F.u η p - 1) (amp (ε := ε) s p) v z := by
  obtain ⟨τ, p, v, h1, h2, -, h4⟩ := c01_evaluation_meaning hε h
  exact ⟨τ, p, v, h1, h4, fun z hs hz => c60_error hη p hs h2 hz⟩

/-- **C60.** Every expression without divisions and transcendental functions has an outcome. -/
theorem c60_outcome (F : Fl) (s : Store (geoLib ε)) : {τ : Ty} → (e : Expr (geoLib ε) τ) → Covered e →
    ∃ z, Computes F s e z
  | _, .leaf _ _ _, _ => ⟨_, rfl⟩
  | _, .un _ op e, h => by
    obtain ⟨x, hx⟩ := c60_outcome F s e h.2
    obtain ⟨z, hz⟩ := flUn_exists (F := F) op h.1 x
    exact ⟨z, x, hx, hz⟩
  | _, .bin _ op l r, h => by
    obtain ⟨x, hx⟩ := c60_outcome F s l h.2.1
    obtain ⟨y, hy⟩ := c60_outcome F s r h.2.2
    obtain ⟨z, hz⟩ := flBin_exists (F := F) op h.1 x y
    exact ⟨z, x, y, hx, hy, hz⟩
  | _, .proxy _ e, h => c60_outcome F s e h

/-- **C60.** Without rounding, the outcome is the value of the real-number model, and the only one. -/
theorem c60_exact (hu : F.u = 0) (s : Store (geoLib ε)) : {τ : Ty} → (e : Expr (geoLib ε) τ) →
    {z : τ.Val} → Computes F s e z → e.eval (L := geoLib ε) s = some z
  | _, .leaf _ _ _, _, h => congrArg some h.symm
  | _, .un _ op e, z, h => by
    obtain ⟨x, hx, h⟩ := h
    refine Option.bind_eq_some_iff.mpr ⟨x, c60_exact hu s e hx, flUn_exact hu op h⟩
  | _, .bin _ op l r, z, h => by
    obtain ⟨x, y, hx, hy, h⟩ := h
    refine Option.bind_eq_some_iff.mpr ⟨x, c60_exact hu s l hx, ?_⟩
    exact Option.bind_eq_some_iff.mpr ⟨y, c60_exact hu s r hy, flBin_exact hu op h⟩
  | _, .proxy _ e, z, h => c60_exact hu s e h

/-- **C60.** Inverses of rotations, parts of transforms, negations and frame casts do not round: the
outcome is exactly the value at the stored leaves. -/
theorem c60_moves (s : Store (geoLib ε)) : {τ : Ty} → (e : Expr (geoLib ε) τ) → Moves e →
    (z : τ.Val) → Computes F s e z ↔ e.eval (L := geoLib ε) s = some z
  | _, .leaf _ _ _, _, _ => ⟨fun h => congrArg some h.symm, fun h => (Option.some.inj h).symm⟩
  | _, .un _ op e, hm, z => by
    have key : ∀ x, FlUn F op x z ↔ evalUn ε op x = some z := by
      intro x
      obtain ⟨h1, -⟩ := hm
      cases op with
      | minus k => exact ⟨fun h => congrArg some h.symm, fun h => (Option.some.inj h).symm⟩
      | invRot k => exact ⟨fun h => congrArg some h.symm, fun h => (Option.some.inj h).symm⟩
      | getRot k => exact ⟨fun h => congrArg some h.symm, fun h => (Option.some.inj h).symm⟩
      | getTrans k => exact ⟨fun h => congrArg some h.symm, fun h => (Option.some.inj h).symm⟩
      | zeroTrans k => exact ⟨fun h => congrArg some h.symm, fun h => (Option.some.inj h).symm⟩
      | recast k => exact ⟨fun h => congrArg some h.symm, fun h => (Option.some.inj h).symm⟩
      | _ => exact h1.elim
    constructor
    · rintro ⟨x, hx, h⟩
      exact Option.bind_eq_some_iff.mpr ⟨x, (c60_moves s e hm.2 x).mp hx, (key x).mp h⟩
    · intro h
      obtain ⟨x, hx, h'⟩ := Option.bind_eq_some_iff.mp h
      exact ⟨x, (c60_moves s e hm.2 x).mpr hx, (key x).mpr h'⟩
  | _, .bin _ _ _ _, hm, _ => hm.elim
  | _, .proxy _ e, hm, z => c60_moves s e hm z

/-! ### Products of many rotations -/

/-- `R₀ * R₁ * … * Rₖ`, as written without brackets. -/
noncomputable def rotChain (ε : ℝ) {τ : Ty} (op : Bin τ τ τ) (a : ℕ → ℕ) : ℕ → Expr (geoLib ε) τ
  | 0 => Expr.leaf (L := geoLib ε) (a 0) 0 τ
  | k + 1 => Expr.bin (L := geoLib ε) 0 op (rotChain ε op a k) (Expr.leaf (L := geoLib ε) (a (k + 1)) 0 τ)

theorem rotChain_factor_mat (u : ℝ) (a : ℕ → ℕ) :
    (k : ℕ) → factor u 0 (rotChain ε .composeM a k) = (1 + 3 * growth u 3) ^ k
  | 0 => by
    change (1 : ℝ) + 0 = _
    simp
  | k + 1 => by
    change factor u 0 (rotChain ε .composeM a k) * (1 + 0) * (1 + 3 * growth u 3) = _
    rw [rotChain_factor_mat u a k]
    ring

theorem rotChain_factor_quat (u : ℝ) (a : ℕ → ℕ) :
    (k : ℕ) → factor u 0 (rotChain ε .composeQ a k) = (1 + 2 * growth u 4) ^ k
  | 0 => by
    change (1 : ℝ) + 0 = _
    simp
  | k + 1 => by
    change factor u 0 (rotChain ε .composeQ a k) * (1 + 0) * (1 + 2 * growth u 4) = _
    rw [rotChain_factor_quat u a k]
    ring

theorem frob_sub_self (A : M3) : frob (A - A) = 0 := by
  rw [sub_self]
  exact len_zero

/-- **C60.** The product of `k + 1` rotation matrices is computed with an error that grows linearly:
at most `11 k` units of roundoff in Frobenius norm; and it is orthogonal up to `24 k` units. -/
theorem c60_chain_mat {s : Store (geoLib ε)} (a : ℕ → ℕ) (k : ℕ)
    (hs : ∀ i, IsRotation (s (a i) (.rot .mat) : M3)) (hk : k * F.u ≤ 1 / 121) (h1 : F.u ≤ 1 / 121)
    {v z : M3} (hv : (rotChain ε .composeM a k).eval (L := geoLib ε) s = some v)
    (hz : Computes F s (rotChain ε .composeM a k) z) :
    frob (z - v) ≤ 11 * (k * F.u) ∧ frob (zᵀ * z - 1) ≤ 24 * (k * F.u) := by
  have u0 := u_nonneg F
  have main : ∀ k, ∀ t ∈ (rotChain ε .composeM a k).leaves, Valid t.ty (s t.addr t.ty) ∧
      Within t.ty 0 (size t.ty (s t.addr t.ty)) (s t.addr t.ty) (s t.addr t.ty) := by
    intro k
    induction k with
    | zero =>
      intro t ht
      rw [List.mem_singleton.mp ht]
      exact ⟨hs 0, (frob_sub_self _).le⟩
    | succ k ih =>
      intro t ht
      rcases List.mem_append.mp ht with h | h
      · exact ih t h
      · rw [List.mem_singleton.mp h]
        exact ⟨hs _, (frob_sub_self _).le⟩
  obtain ⟨-, -, i3, i4⟩ := near_of_computes (F := F) (le_refl 0) _ (main k) hv hz
  have i4' : frob (z - v) ≤ factor F.u 0 (rotChain ε .composeM a k) - 1 := i4
  rw [rotChain_factor_mat] at i4'
  have g : 3 * growth F.u 3 ≤ 10 * F.u := by
    unfold growth
    nlinarith [mul_nonneg u0 u0, mul_nonneg (mul_nonneg u0 u0) u0]
  have g0 : 0 ≤ 3 * growth F.u 3 := by linarith [growth_nonneg F 3]
  have k0 : (0 : ℝ) ≤ k := Nat.cast_nonneg k
  have kx := mul_le_mul_of_nonneg_left g k0
  have := pow_growth g0 k (by nlinarith)
  have e1 : frob (z - v) ≤ 11 * (k * F.u) := by nlinarith
  refine ⟨e1, ?_⟩
  have hv1 : vᵀ * v = 1 := i3
  have e : zᵀ * z - 1 = (z - v)ᵀ * v + (vᵀ * (z - v) + (z - v)ᵀ * (z - v)) := by
    rw [← hv1, Matrix.transpose_sub]
    noncomm_ring
  have t1 : frob ((z - v)ᵀ * v) = frob (z - v) := by
    rw [frob_mul_orth hv1, frob_transpose]
  have t2 : frob (vᵀ * (z - v)) = frob (z - v) := by
    refine frob_orth_mul ?_ _
    rw [Matrix.transpose_transpose]
    exact orth_comm hv1
  have t3 := frob_mul_le (z - v)ᵀ (z - v)
  rw [frob_transpose] at t3
  rw [e]
  refine (frob_add_le _ _).trans ((add_le_add t1.le ((frob_add_le _ _).trans
    (add_le_add t2.le t3))).trans ?_)
  have y0 := frob_nonneg (z - v)
  nlinarith

/-- **C60.** The product of `k + 1` unit quaternions: error at most `10 k` units of roundoff, and the
norm of the result stays within `10 k` units of one. -/
theorem c60_chain_quat {s : Store (geoLib ε)} (a : ℕ → ℕ) (k : ℕ)
    (hs : ∀ i, Quat.IsUnit (s (a i) (.rot .quat))) (hk : k * F.u ≤ 1 / 121) (h1 : F.u ≤ 1 / 121)
    {v z : Quat} (hv : (rotChain ε .composeQ a k).eval (L := geoLib ε) s = some v)
    (hz : Computes F s (rotChain ε .composeQ a k) z) :
    len (coeffs z - coeffs v) ≤ 10 * (k * F.u) ∧ |len (coeffs z) - 1| ≤ 10 * (k * F.u) := by
  have u0 := u_nonneg F
  have main : ∀ k, ∀ t ∈ (rotChain ε .composeQ a k).leaves, Valid t.ty (s t.addr t.ty) ∧
      Within t.ty 0 (size t.ty (s t.addr t.ty)) (s t.addr t.ty) (s t.addr t.ty) := by
    have z0 : ∀ q : Quat, len (coeffs q - coeffs q) ≤ 0 := fun q => by rw [sub_self, len_zero]
    intro k
    induction k with
    | zero =>
      intro t ht
      rw [List.mem_singleton.mp ht]
      exact ⟨(validRot_quat _).mpr (hs 0), z0 _⟩
    | succ k ih =>
      intro t ht
      rcases List.mem_append.mp ht with h | h
      · exact ih t h
      · rw [List.mem_singleton.mp h]
        exact ⟨(validRot_quat _).mpr (hs _), z0 _⟩
  obtain ⟨-, -, i3, i4⟩ := near_of_computes (F := F) (le_refl 0) _ (main k) hv hz
  have i4' : len (coeffs z - coeffs v) ≤ factor F.u 0 (rotChain ε .composeQ a k) - 1 := i4
  rw [rotChain_factor_quat] at i4'
  have g : 2 * growth F.u 4 ≤ 9 * F.u := by
    unfold growth
    have h2 : 0 ≤ F.u * F.u := mul_nonneg u0 u0
    have h3 : F.u * F.u ≤ 1 / 121 * F.u := mul_le_mul_of_nonneg_right h1 u0
    have h4 : F.u * (F.u * F.u) ≤ 1 / 121 * (F.u * F.u) := mul_le_mul_of_nonneg_right h1 h2
    have h5 : F.u * (F.u * (F.u * F.u)) ≤ 1 / 121 * (F.u * (F.u * F.u)) :=
      mul_le_mul_of_nonneg_right h1 (mul_nonneg u0 h2)
    nlinarith
  have g0 : 0 ≤ 2 * growth F.u 4 := by linarith [growth_nonneg F 4]
  have k0 : (0 : ℝ) ≤ k := Nat.cast_nonneg k
  have kx := mul_le_mul_of_nonneg_left g k0
  have := pow_growth g0 k (by nlinarith)
  have e1 : len (coeffs z - coeffs v) ≤ 10 * (k * F.u) := by nlinarith
  refine ⟨e1, le_trans ?_ e1⟩
  rw [← len_unit i3, len_eq, len_eq, len_eq, WithLp.toLp_sub]
  exact abs_norm_sub_norm_le _ _

/-- **C60.** A million and one rotations multiplied in double precision: the result is within
`1.3e-9` of the exact product and orthogonal to `2.7e-9`. -/
theorem c60_million {s : Store (geoLib ε)} (a : ℕ → ℕ)
    (hs : ∀ i, IsRotation (s (a i) (.rot .mat) : M3)) {v z : M3}
    (hv : (rotChain ε .composeM a 1000000).eval (L := geoLib ε) s = some v)
    (hz : Computes (ieee 52) s (rotChain ε .composeM a 1000000) z) :
    frob (z - v) ≤ 1.3e-9 ∧ frob (zᵀ * z - 1) ≤ 2.7e-9 := by
  have hu : (ieee 52).u = 1 / 2 ^ 53 := by
    change (2 : ℝ) ^ (-(52 + 1 : ℤ)) = _
    norm_num
  have := c60_chain_mat (F := ieee 52) a 1000000 hs (by rw [hu]; norm_num) (by rw [hu]; norm_num) hv hz
  rw [hu] at this
  refine ⟨this.1.trans ?_, this.2.trans ?_⟩ <;> norm_num

/-! ### Rounding is visible -/

theorem log_of {x : ℝ} {e : ℤ} (h1 : (2 : ℝ) ^ e ≤ x) (h2 : x < 2 ^ (e + 1)) : Int.log 2 x = e := by
  have hx : 0 < x := (zpow_pos two_pos e).trans_le h1
  apply le_antisymm
  · have := (Int.lt_zpow_iff_log_lt (b := 2) (by norm_num) hx (x := e + 1)).mp (by exact_mod_cast h2)
    omega
  · exact (Int.zpow_le_iff_le_log (b := 2) (by norm_num) hx).mp (by exact_mod_cast h1)

theorem ieee_tie : ieeeRnd 52 (1 + 1 / 2 ^ 53) = 1 := by
  have hl : Int.log 2 |(1 + 1 / 2 ^ 53 : ℝ)| = 0 := by
    rw [abs_of_pos (by norm_num)]
    exact log_of (by norm_num) (by norm_num)
  have hf : ⌊(1 + 1 / 2 ^ 53 : ℝ) / 2 ^ (0 - ((52 : ℕ) : ℤ))⌋ = 2 ^ 52 := by
    rw [Int.floor_eq_iff]
    constructor <;> norm_num
  have hr : roundEven ((1 + 1 / 2 ^ 53 : ℝ) / 2 ^ (0 - ((52 : ℕ) : ℤ))) = 2 ^ 52 := by
    unfold roundEven
    rw [hf]
    have he : Even ((2 : ℤ) ^ 52) := ⟨2 ^ 51, by norm_num⟩
    rw [if_neg (by norm_num), if_neg (by norm_num), if_pos he]
  unfold ieeeRnd
  rw [hl, abs_of_pos (by norm_num), hr]
  norm_num

theorem ieee_two : ieeeRnd 52 (1 / 2 ^ 53 + 1 / 2 ^ 53) = 1 / 2 ^ 52 := by
  have hl : Int.log 2 |(1 / 2 ^ 53 + 1 / 2 ^ 53 : ℝ)| = -52 := by
    rw [abs_of_pos (by norm_num)]
    exact log_of (by norm_num) (by norm_num)
  have hf : ⌊(1 / 2 ^ 53 + 1 / 2 ^ 53 : ℝ) / 2 ^ (-52 - ((52 : ℕ) : ℤ))⌋ = 2 ^ 52 := by
    rw [Int.floor_eq_iff]
    constructor <;> norm_num
  have hr : roundEven ((1 / 2 ^ 53 + 1 / 2 ^ 53 : ℝ) / 2 ^ (-52 - ((52 : ℕ) : ℤ))) = 2 ^ 52 := by
    unfold roundEven
    rw [hf, if_pos (by norm_num)]
  unfold ieeeRnd
  rw [hl, abs_of_pos (by norm_num), hr]
  norm_num

theorem ieee_exact : ieeeRnd 52 (1 + 1 / 2 ^ 52) = 1 + 1 / 2 ^ 52 := by
  have hl : Int.log 2 |(1 + 1 / 2 ^ 52 : ℝ)| = 0 := by
    rw [abs_of_pos (by norm_num)]
    exact log_of (by norm_num) (by norm_num)
  have hf : ⌊(1 + 1 / 2 ^ 52 : ℝ) / 2 ^ (0 - ((52 : ℕ) : ℤ))⌋ = 2 ^ 52 + 1 := by
    rw [Int.floor_eq_iff]
    constructor <;> norm_num
  have hr : roundEven ((1 + 1 / 2 ^ 52 : ℝ) / 2 ^ (0 - ((52 : ℕ) : ℤ))) = 2 ^ 52 + 1 := by
    unfold roundEven
    rw [hf, if_pos (by norm_num)]
  unfold ieeeRnd
  rw [hl, abs_of_pos (by norm_num), hr]
  norm_num

/-- A scalar leaf. -/
noncomputable def scalarLeaf (ε : ℝ) (a : ℕ) : Expr (geoLib ε) (.vec .scalar) :=
  Expr.leaf (L := geoLib ε) a 0 (Ty.vec .scalar)

/-- The sum of two scalar expressions. -/
noncomputable def addS {ε : ℝ} (x y : Expr (geoLib ε) (.vec .scalar)) : Expr (geoLib ε) (.vec .scalar) :=
  Expr.bin (L := geoLib ε) 0 (Bin.sum .scalar) x y

/-- Scalars `1` at address 0 and half a unit in the last place elsewhere. -/
noncomputable def tiny (ε : ℝ) : Store (geoLib ε) := fun a τ => match τ with
  | .vec .scalar => fun _ : Fin 1 => if a = 0 then (1 : ℝ) else 1 / 2 ^ 53
  | τ => demo a τ

/-- **C60.** The equalities of real arithmetic do not survive rounding: in double precision
`(x + y) + z` and `x + (y + z)`, equal in exact arithmetic, have one outcome each, and they differ. -/
theorem c60_not_associative (ε : ℝ) :
    (addS (addS (scalarLeaf ε 0) (scalarLeaf ε 1)) (scalarLeaf ε 2)).eval (L := geoLib ε) (tiny ε) =
        (addS (scalarLeaf ε 0) (addS (scalarLeaf ε 1) (scalarLeaf ε 2))).eval (L := geoLib ε) (tiny ε) ∧
      ∃ x y : Fin 1 → ℝ, x ≠ y ∧
        (∀ z, Computes (ieee 52) (tiny ε) (addS (addS (scalarLeaf ε 0) (scalarLeaf ε 1)) (scalarLeaf ε 2)) z ↔ z = x) ∧
        ∀ z, Computes (ieee 52) (tiny ε) (addS (scalarLeaf ε 0) (addS (scalarLeaf ε 1) (scalarLeaf ε 2))) z ↔ z = y := by
  constructor
  · exact congrArg some (add_assoc (G := Fin 1 → ℝ) _ _ _)
  · refine ⟨fun _ => 1, fun _ => 1 + 1 / 2 ^ 52, ?_, ?_, ?_⟩
    · intro h
      have := congrFun h 0
      norm_num at this
    · intro z
      constructor
      · rintro ⟨p, q, ⟨p1, p2, rfl, rfl, hp⟩, rfl, hz⟩
        funext i
        have h1 : p i = 1 := (hp i).trans ieee_tie
        refine (hz i).trans ?_
        rw [h1]
        exact ieee_tie
      · rintro rfl
        refine ⟨fun _ => 1, _, ⟨_, _, rfl, rfl, fun i => ieee_tie.symm⟩, rfl, fun i => ieee_tie.symm⟩
    · intro z
      constructor
      · rintro ⟨p, q, rfl, ⟨p1, p2, rfl, rfl, hp⟩, hz⟩
        funext i
        have h1 : q i = 1 / 2 ^ 52 := (hp i).trans ieee_two
        refine (hz i).trans ?_
        rw [h1]
        exact ieee_exact
      · rintro rfl
        refine ⟨_, fun _ => 1 / 2 ^ 52, rfl, ⟨_, _, rfl, rfl, fun i => ieee_two.symm⟩,
          fun i => ieee_exact.symm⟩

/-! ### Examples -/

/-- `T * (R * v + v)` in double precision: an outcome exists, and it is within the bound. -/
example : ∃ z v, ∃ e : Expr (geoLib dblEps) (.vec .trans), Computes (ieee 52) demo e z ∧
    e.eval (L := geoLib dblEps) demo = some v ∧
    Within (.vec .trans) (factor (ieee 52).u 0 e - 1) (amp (ε := dblEps) demo e) v z := by
  let lf' : (τ : Ty) → Expr (geoLib dblEps) τ := fun τ => Expr.leaf (L := geoLib dblEps) 0 0 τ
  let e : Expr (geoLib dblEps) (Ty.vec .trans) := Expr.bin (L := geoLib dblEps) 0 (Bin.transform .compact)
    (lf' (.rigid .compact)) (Expr.bin (L := geoLib dblEps) 0 (Bin.sum .trans)
      (Expr.bin (L := geoLib dblEps) 0 Bin.rotateM (lf' (.rot .mat)) (lf' (.vec .trans)))
      (lf' (.vec .trans)))
  obtain ⟨z, hz⟩ := c60_outcome (ieee 52) (ε := dblEps) demo e
    ⟨trivial, trivial, trivial, ⟨trivial, trivial, trivial⟩, trivial⟩
  refine ⟨z, _, e, hz, rfl, c60_error le_rfl e (fun t ht => ?_) rfl hz⟩
  have ht' : t ∈ ([⟨0, 0, .rigid .compact⟩, ⟨0, 0, .rot .mat⟩, ⟨0, 0, .vec .trans⟩,
    ⟨0, 0, .vec .trans⟩] : List (Target (geoLib dblEps))) := ht
  simp only [List.mem_cons, List.not_mem_nil, or_false] at ht'
  have z0 : ∀ {n : Type} [Fintype n] (x : n → ℝ) (c : ℝ), len (x - x) ≤ 0 * c := fun x c => by
    rw [sub_self, len_zero, zero_mul]
  rcases ht' with rfl | rfl | rfl | rfl
  · exact ⟨demo_valid _ _, by rw [sub_self, len_zero], z0 _ _⟩
  · exact ⟨demo_valid _ _, (frob_sub_self _).le⟩
  · exact ⟨trivial, z0 _ _⟩
  · exact ⟨trivial, z0 _ _⟩

/-- Three quarter turns multiplied in double precision. -/
example : ∃ v z : M3, (rotChain dblEps .composeM (fun i => i) 3).eval (L := geoLib dblEps) demo = some v ∧
    Computes (ieee 52) demo (rotChain dblEps .composeM (fun i => i) 3) z ∧
    frob (z - v) ≤ 11 * ((3 : ℕ) * (ieee 52).u) ∧ frob (zᵀ * z - 1) ≤ 24 * ((3 : ℕ) * (ieee 52).u) := by
  obtain ⟨z, hz⟩ := c60_outcome (ieee 52) (ε := dblEps) demo (rotChain dblEps .composeM (fun i => i) 3)
    ⟨trivial, ⟨trivial, ⟨trivial, trivial, trivial⟩, trivial⟩, trivial⟩
  have hu : (ieee 52).u = 1 / 2 ^ 53 := by
    change (2 : ℝ) ^ (-(52 + 1 : ℤ)) = _
    norm_num
  exact ⟨_, z, rfl, hz, c60_chain_mat _ 3 (fun i => demo_quarter) (by rw [hu]; norm_num)
    (by rw [hu]; norm_num) rfl hz⟩

/-- A unit quaternion rounded to double precision. -/
example : Stored (ieee 52) (.rot .quat) (⟨3/5, 0, 0, 4/5⟩ : Quat)
    (⟨ieeeRnd 52 (3/5), ieeeRnd 52 0, ieeeRnd 52 0, ieeeRnd 52 (4/5)⟩ : Quat) := rfl

/-- `R.inverse().inverse()`. -/
noncomputable def invInv (ε : ℝ) : Expr (geoLib ε) (.rot .mat) :=
  Expr.un (L := geoLib ε) 0 (Un.invRot .mat) (Expr.un (L := geoLib ε) 0 (Un.invRot .mat)
    (Expr.leaf (L := geoLib ε) 0 0 (Ty.rot .mat)))

/-- `R.inverse().inverse()` is exactly `R`, whatever the rounding. -/
example (F : Fl) (s : Store (geoLib dblEps)) (z : M3) :
    Computes F s (invInv dblEps) z ↔ z = s 0 (.rot .mat) := by
  rw [c60_moves (F := F) s (invInv dblEps) ⟨trivial, trivial, trivial⟩ z]
  change some (Matrix.transpose (Matrix.transpose (s 0 (.rot .mat)))) = some z ↔ _
  rw [Matrix.transpose_transpose]
  exact ⟨fun h => (Option.some.inj h).symm, fun h => congrArg some h.symm⟩

end WG
