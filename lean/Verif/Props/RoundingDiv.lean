import Verif.Lemmas.RoundingDiv
import Verif.Lemmas.NumericalRounding
import Verif.Props.Rounding

/-!
# C68: divisions, normalisation, `acos` and `exp` in floating-point arithmetic
-/

namespace WG
open Matrix Spec Round

variable {ε : ℝ} {F : Fl}

/-- **C68.** Every outcome of evaluating an expression in floating point, from leaves stored with
relative error at most `η`, is within the error bound of the expression (for `exp`, of the exponential
itself), if divisors, vectors to be normalised and arguments of `acos` are known well enough. -/
theorem c68_error {m : ℝ} (hm : 0 ≤ m) {η : ℝ} (hη : 0 ≤ η) {s s' : Store (geoLib ε)} {τ : Ty}
    (e : Expr (geoLib ε) τ)
    (hs : ∀ t ∈ e.leaves, Valid t.ty (s t.addr t.ty) ∧
      Within t.ty η (size t.ty (s t.addr t.ty)) (s t.addr t.ty) (s' t.addr t.ty))
    (hc : Conditioned F.u m η s e) {v z : τ.Val} (hv : ideal s e = some v)
    (hz : ComputesD F m s' e z) : Within τ (factorD F.u m η s e - 1) (ampD s e) v z :=
  (near_of_computesD hm hη e hs hc hv hz).2.2.2

/-- **C68.** In that case no divisor is rounded to zero and no argument of `acos` leaves the domain:
there is an outcome. -/
theorem c68_outcome {m : ℝ} (hm : 0 ≤ m) {η : ℝ} (hη : 0 ≤ η) {s s' : Store (geoLib ε)} :
    {τ : Ty} → (e : Expr (geoLib ε) τ) → CoveredD e →
    (∀ t ∈ e.leaves, Valid t.ty (s t.addr t.ty) ∧
      Within t.ty η (size t.ty (s t.addr t.ty)) (s t.addr t.ty) (s' t.addr t.ty)) →
    Conditioned F.u m η s e → {v : τ.Val} → ideal s e = some v →
    ∃ z, ComputesD F m s' e z
  | _, .leaf _ _ _, _, _, _, _, _ => ⟨_, rfl⟩
  | _, .un _ op e, hk, hs, hc, v, hv => by
    obtain ⟨x, hx, -⟩ := Option.bind_eq_some_iff.mp hv
    obtain ⟨x', hx'⟩ := c68_outcome hm hη e hk.2 hs hc.1 hx
    have hw := c68_error hm hη e hs hc.1 hx hx'
    have hc2 := hc.2
    rw [magnitude_of hx] at hc2
    obtain ⟨z, hz⟩ := unD_exists (F := F) hm op hk.1 hw hc2
    exact ⟨z, x', hx', hz⟩
  | _, .bin _ op l r, hk, hs, hc, v, hv => by
    obtain ⟨x, hx, h1⟩ := Option.bind_eq_some_iff.mp hv
    obtain ⟨y, hy, -⟩ := Option.bind_eq_some_iff.mp h1
    have hr := fun t ht => hs t (List.mem_append_right l.leaves ht)
    obtain ⟨x', hx'⟩ := c68_outcome hm hη l hk.2.1 (fun t ht => hs t (List.mem_append_left _ ht)) hc.1 hx
    obtain ⟨y', hy'⟩ := c68_outcome hm hη r hk.2.2 hr hc.2.1 hy
    have hw := c68_error hm hη r hr hc.2.1 hy hy'
    have hc2 := hc.2.2
    rw [magnitude_of hy] at hc2
    obtain ⟨z, hz⟩ := binD_exists (F := F) op hk.1 x' hw hc2
    exact ⟨z, x', y', hx', hy', hz⟩
  | _, .proxy _ e, hk, hs, hc, _, hv => c68_outcome hm hη e hk hs hc hv

/-- **C68.** Without rounding, the outcomes are the values of the real-number model: a division by
zero there is one here, and conversely. -/
theorem c68_exact (hu : F.u = 0) (s : Store (geoLib ε)) : {τ : Ty} → (e : Expr (geoLib ε) τ) →
    CoveredD e → (z : τ.Val) → (ComputesD F 0 s e z ↔ e.eval (L := geoLib ε) s = some z)
  | _, .leaf _ _ _, _, _ => ⟨fun h => congrArg some h.symm, fun h => (Option.some.inj h).symm⟩
  | _, .un _ op e, hk, z => by
    constructor
    · rintro ⟨x, hx, h⟩
      exact Option.bind_eq_some_iff.mpr ⟨x, (c68_exact hu s e hk.2 x).mp hx, flUnD_exact hu op h⟩
    · intro h
      obtain ⟨x, hx, h'⟩ := Option.bind_eq_some_iff.mp h
      exact ⟨x, (c68_exact hu s e hk.2 x).mpr hx, flUnD_of_exact hu op hk.1 h'⟩
  | _, .bin _ op l r, hk, z => by
    constructor
    · rintro ⟨x, y, hx, hy, h⟩
      refine Option.bind_eq_some_iff.mpr ⟨x, (c68_exact hu s l hk.2.1 x).mp hx, ?_⟩
      exact Option.bind_eq_some_iff.mpr ⟨y, (c68_exact hu s r hk.2.2 y).mp hy, flBinD_exact hu op h⟩
    · intro h
      obtain ⟨x, hx, h1⟩ := Option.bind_eq_some_iff.mp h
      obtain ⟨y, hy, h'⟩ := Option.bind_eq_some_iff.mp h1
      exact ⟨x, y, (c68_exact hu s l hk.2.1 x).mpr hx, (c68_exact hu s r hk.2.2 y).mpr hy,
        flBinD_of_exact hu op hk.1 h'⟩
  | _, .proxy _ e, hk, z => c68_exact hu s e hk z

/-- **C68.** For expressions without these operations, outcomes and bounds are those of C60, and
nothing has to be known about the condition. -/
theorem c68_extends {m : ℝ} (η : ℝ) (s : Store (geoLib ε)) : {τ : Ty} → (e : Expr (geoLib ε) τ) →
    Covered e → ideal s e = e.eval (L := geoLib ε) s ∧ (∀ s' z, ComputesD F m s' e z ↔ Computes F s' e z) ∧ ampD s e = amp s e ∧
      factorD F.u m η s e = factor F.u η e ∧ Conditioned F.u m η s e ∧ CoveredD e
  | _, .leaf _ _ _, _ => ⟨rfl, fun _ _ => Iff.rfl, rfl, rfl, trivial, trivial⟩
  | _, .un _ op e, h => by
    obtain ⟨i0, i1, i2, i3, i4, i5⟩ := c68_extends (m := m) η s e h.2
    obtain ⟨j0, j1, j2, j3, j4, j5⟩ := unD_eq (F := F) (ε := ε) (m := m) op h.1
    refine ⟨?_, fun s' z => ?_, ?_, ?_, ⟨i4, j4 _ _ _ _⟩, j5, i5⟩
    · exact congrArg₂ Option.bind i0 (funext j0)
    · exact exists_congr fun x => and_congr (i1 s' x) (j1 x z)
    · exact (j2 _).trans (congrArg _ i2)
    · exact (j3 _ _ _ _).trans (congrArg _ i3)
  | _, .bin _ op l r, h => by
    obtain ⟨i0, i1, i2, i3, i4, i5⟩ := c68_extends (m := m) η s l h.2.1
    obtain ⟨k0, k1, k2, k3, k4, k5⟩ := c68_extends (m := m) η s r h.2.2
    obtain ⟨j1, j2, j3, j4, j5⟩ := binD_eq (F := F) op h.1
    refine ⟨?_, fun s' z => ?_, ?_, ?_, ⟨i4, k4, j4 _ _ _⟩, j5, i5, k5⟩
    · exact congrArg₂ Option.bind i0 (funext fun x => congrArg (Option.bind · _) k0)
    · exact exists_congr fun x => exists_congr fun y =>
        and_congr (i1 s' x) (and_congr (k1 s' y) (j1 x y z))
    · exact (j2 _ _ _).trans (congrArg₂ _ i2 k2)
    · exact (j3 _ _ _ _ _).trans (congrArg₂ _ i3 k3)
  | _, .proxy _ e, h => c68_extends η s e h

/-- **C68.** The value compared with is that of exact arithmetic, if there is no `exp`. -/
theorem c68_ideal (s : Store (geoLib ε)) : {τ : Ty} → (e : Expr (geoLib ε) τ) → NoExp e →
    ideal s e = e.eval (L := geoLib ε) s
  | _, .leaf _ _ _, _ => rfl
  | _, .un _ op e, h => by
    have key : idealUn ε op = evalUn ε op := by
      obtain ⟨h, -⟩ := h
      cases op with
      | expRel => exact h.elim
      | _ => rfl
    exact congrArg₂ Option.bind (c68_ideal s e h.2) key
  | _, .bin _ op l r, h =>
    congrArg₂ Option.bind (c68_ideal s l h.1)
      (funext fun x => congrArg (Option.bind · _) (c68_ideal s r h.2))
  | _, .proxy _ e, h => c68_ideal s e h

/-- **C68.** The quaternion compared with for `exp` is a unit quaternion, of the rotation that is the
matrix exponential of the rotation vector. -/
theorem c68_exp_meaning (v : V3) :
    (trueExp v).IsUnit ∧ (trueExp v).toMatrix = NormedSpace.exp (hat v) := by
  refine ⟨trueExp_isUnit v, ?_⟩
  rw [trueExp_eq]
  by_cases h : v = 0
  · subst h
    rw [← trueExp_eq, hat_eq, crossMatrix_zero, NormedSpace.exp_zero]
    have : trueExp 0 = Quat.one := by
      simp [trueExp, Quat.one, len_zero]
    rw [this]
    mat3 [Quat.one, Quat.toMatrix]
  · rw [expQ_toMatrix h, rodr_eq_exp h]

/-! ### The exponential in double precision -/

theorem ieee52_u : (ieee 52).u = 1 / 2 ^ 53 := by
  change (2 : ℝ) ^ (-(52 + 1 : ℤ)) = _
  norm_num

/-- `exp(φ)`. -/
noncomputable def expOf (ε : ℝ) (a : ℕ) : Expr (geoLib ε) (.rot .quat) :=
  Expr.un (L := geoLib ε) 0 Un.expRel (Expr.leaf (L := geoLib ε) a 0 (Ty.vec .relrot))

/-- **C68.** In double precision, with `sin` and `cos` correct to one unit in the last place, `exp` is
within `2⁻⁴² + (1 + |φ|) 2⁻⁴⁹` of the unit quaternion of the rotation, on both sides of the switch to
the small-angle formula. -/
theorem c68_exp (s : Store (geoLib (1 / 2 ^ 52))) (a : ℕ) {q : Quat}
    (hq : ComputesD (ieee 52) (1 / 2 ^ 52) s (expOf (1 / 2 ^ 52) a) q) :
    len (coeffs q - coeffs (trueExp (s a (.vec .relrot)))) ≤
      1 / 2 ^ 42 + (1 + len (s a (.vec .relrot) : Fin 3 → ℝ)) / 2 ^ 49 := by
  obtain ⟨x, rfl, h⟩ := hq
  have hu := ieee52_u
  refine (Round.exp_near (F := ieee 52) (by norm_num) (by norm_num) (by rw [hu]; norm_num) h).trans ?_
  have θ0 := len_nonneg (s a (.vec .relrot) : Fin 3 → ℝ)
  have key : ∀ θ : ℝ, 0 ≤ θ → expError (ieee 52).u (1 / 2 ^ 52) (1 / 2 ^ 52) θ ≤
      1 / 2 ^ 42 + (1 + θ) / 2 ^ 49 := by
    intro θ h0
    unfold expError growth
    rw [hu]
    refine max_le ?_ ?_
    · have h1 : ((1 : ℝ) + 1 / 2 ^ 53) ^ 5 - 1 ≤ 1 / 2 ^ 49 := by norm_num
      have h2 := mul_le_mul_of_nonneg_right h1 h0
      have h3 : ((1 : ℝ) + 1 / 2 ^ 52) * ((1 + 1 / 2 ^ 53) ^ 2 - 1 + ((1 + 1 / 2 ^ 53) ^ 4 - 1)) /
        (1 - ((1 + 1 / 2 ^ 53) ^ 4 - 1)) + 2 * (1 / 2 ^ 52) ≤ 1 / 2 ^ 49 + 1 / 2 ^ 42 := by norm_num
      linarith
    · have h1 : √√(2 * (1 / 2 ^ 52)) ≤ 1 / 2 ^ 12 * (3 / 5) := by
        rw [Real.sqrt_le_left (by norm_num), Real.sqrt_le_left (by norm_num)]
        norm_num
      have h2 := pow_le_pow_left₀ (Real.sqrt_nonneg _) h1 3
      have h3 : (1 / 2 ^ 12 * (3 / 5) : ℝ) ^ 3 / 22 + 4 * (1 / 2 ^ 53) +
        ((1 + 1 / 2 ^ 53) ^ 4 - 1) / 6 ≤ 1 / 2 ^ 42 := by norm_num
      have h4 : 0 ≤ (1 + θ) / 2 ^ 49 := by positivity
      linarith
  exact key _ θ0

/-- **C68.** For angles above the switch the error is of the order of rounding. -/
theorem c68_exp_large (s : Store (geoLib (1 / 2 ^ 52))) (a : ℕ) {q : Quat}
    (hl : 1 / 2 ^ 50 ≤ len (s a (.vec .relrot) : Fin 3 → ℝ) ^ 4)
    (hq : ComputesD (ieee 52) (1 / 2 ^ 52) s (expOf (1 / 2 ^ 52) a) q) :
    len (coeffs q - coeffs (trueExp (s a (.vec .relrot)))) ≤
      (1 + len (s a (.vec .relrot) : Fin 3 → ℝ)) / 2 ^ 49 := by
  obtain ⟨x, rfl, h⟩ := hq
  have hu := ieee52_u
  set v : Fin 3 → ℝ := s a (.vec .relrot) with hv
  have θ0 := len_nonneg v
  obtain ⟨t, b, k, c, ht, hb, h, hw, hvec⟩ := h
  split_ifs at h with hbr
  · obtain ⟨⟨sa, h1, hb0, hk⟩, hc⟩ := h
    have := exp_big (F := ieee 52) (m := 1 / 2 ^ 52) (by norm_num)
      (by unfold growth; rw [hu]; norm_num) ht hb h1 hb0 hk hc hw hvec
    refine this.trans ?_
    unfold growth
    rw [hu]
    have h1 : ((1 : ℝ) + 1 / 2 ^ 53) ^ 5 - 1 ≤ 1 / 2 ^ 49 := by norm_num
    have h2 := mul_le_mul_of_nonneg_right h1 θ0
    have h3 : ((1 : ℝ) + 1 / 2 ^ 52) * ((1 + 1 / 2 ^ 53) ^ 2 - 1 + ((1 + 1 / 2 ^ 53) ^ 4 - 1)) /
      (1 - ((1 + 1 / 2 ^ 53) ^ 4 - 1)) + 2 * (1 / 2 ^ 52) ≤ 1 / 2 ^ 49 := by norm_num
    linarith
  · exfalso
    have hd := flDot_err ht
    rw [← sq] at hd
    change |t - v ⬝ᵥ v| ≤ growth _ 3 * len v ^ 2 at hd
    rw [← len_sq_dot] at hd
    obtain ⟨-, h2, -⟩ := small_angle (F := ieee 52) (by norm_num) (by rw [hu]; norm_num) θ0 hd
      (not_lt.1 hbr)
    have h3 := pow_le_pow_left₀ θ0 h2 4
    have h4 : √√(2 * (1 / 2 ^ 52) : ℝ) ^ 4 = 2 * (1 / 2 ^ 52) := by
      rw [show (4 : ℕ) = 2 * 2 from rfl, pow_mul, Real.sq_sqrt (Real.sqrt_nonneg _),
        Real.sq_sqrt (by norm_num)]
    rw [h4] at h3
    have := hl.trans h3
    norm_num at this

/-! ### Normalisation in double precision -/

/-- `v.normalized()`. -/
noncomputable def unitOf (ε : ℝ) (a : ℕ) : Expr (geoLib ε) (.vec .trans) :=
  Expr.un (L := geoLib ε) 0 (Un.normalize .trans) (Expr.leaf (L := geoLib ε) a 0 (Ty.vec .trans))

/-- **C68.** However short or long a nonzero vector is, in double precision its `normalized()` is within
six units of roundoff of the vector divided by its length. -/
theorem c68_normalize (m : ℝ) (hm : 0 ≤ m) (s : Store (geoLib ε)) (a : ℕ)
    (h0 : 0 < len (s a (.vec .trans) : Fin 3 → ℝ)) {z : Fin 3 → ℝ}
    (hz : ComputesD (ieee 52) m s (unitOf ε a) z) :
    len (z - (len (s a (.vec .trans) : Fin 3 → ℝ))⁻¹ • (s a (.vec .trans) : Fin 3 → ℝ)) ≤ 6 / 2 ^ 53 ∧
      |len z - 1| ≤ 6 / 2 ^ 53 := by
  set v : Fin 3 → ℝ := s a (.vec .trans) with hv
  obtain ⟨x, rfl, t, ht, h⟩ := hz
  have hu := ieee52_u
  have hg : growth (ieee 52).u 4 = (1 + 1 / 2 ^ 53) ^ 4 - 1 := by
    unfold growth
    rw [hu]
  have key := normalize_near (n := Fin 3) (F := ieee 52) (v := v) (v' := v) (z := z) (A := 1) (S := 1)
    (by rw [sub_self, len_zero]; norm_num) (by simpa using h0)
    (by rw [Fintype.card_fin, hg]; norm_num) ht h
  rw [Fintype.card_fin, hg, hu] at key
  have k1 : len (z - (len v)⁻¹ • v) ≤ 6 / 2 ^ 53 := by
    refine key.trans ?_
    rw [sub_self, zero_mul, zero_div, mul_zero, add_zero]
    norm_num
  refine ⟨k1, ?_⟩
  have k2 : len ((len v)⁻¹ • v) = 1 := by
    rw [len_smul, abs_of_pos (inv_pos.2 h0), inv_mul_cancel₀ h0.ne']
  rw [← k2]
  refine le_trans ?_ k1
  generalize (len v)⁻¹ • v = w
  rw [len_eq, len_eq, len_eq, WithLp.toLp_sub]
  exact abs_norm_sub_norm_le _ _

/-! ### The condition is needed -/

/-- Stored scalars. -/
theorem scalars_valid {s : Store (geoLib ε)} {τ : Ty} {e : Expr (geoLib ε) τ}
    (h : ∀ t ∈ e.leaves, t.ty = Ty.vec .scalar) :
    ∀ t ∈ e.leaves, Valid t.ty (s t.addr t.ty) ∧
      Within t.ty 0 (size t.ty (s t.addr t.ty)) (s t.addr t.ty) (s t.addr t.ty) := by
  intro t ht
  refine ⟨?_, within_refl le_rfl _⟩
  have := h t ht
  obtain ⟨a, c, σ⟩ := t
  cases this
  trivial

/-- `x / ((x + y) - x)`. -/
noncomputable def cancelled (ε : ℝ) : Expr (geoLib ε) (.vec .scalar) :=
  Expr.bin (L := geoLib ε) 0 Bin.divide (scalarLeaf ε 0)
    (Expr.bin (L := geoLib ε) 0 (Bin.sub .scalar) (addS (scalarLeaf ε 0) (scalarLeaf ε 1))
      (scalarLeaf ε 0))

/-- **C68.** A divisor that is not larger than its error may be rounded to zero: with `x = 1` and
`y = 2⁻⁵³` the exact value of `x / ((x + y) - x)` is `2⁵³`, in double precision it is not finite. -/
theorem c68_condition (ε : ℝ) {m : ℝ} (hm : 0 ≤ m) :
    (cancelled ε).eval (L := geoLib ε) (tiny ε) = some (fun _ : Fin 1 => (2 : ℝ) ^ 53) ∧
      (∀ z, ¬ComputesD (ieee 52) m (tiny ε) (cancelled ε) z) ∧
      ¬Conditioned (ieee 52).u m 0 (tiny ε) (cancelled ε) := by
  have hcl : ∀ t ∈ (cancelled ε).leaves, t.ty = Ty.vec .scalar := by
    intro t ht
    have ht' : t ∈ ([⟨0, 0, .vec .scalar⟩, ⟨0, 0, .vec .scalar⟩, ⟨1, 0, .vec .scalar⟩,
      ⟨0, 0, .vec .scalar⟩] : List (Target (geoLib ε))) := ht
    simp only [List.mem_cons, List.not_mem_nil, or_false] at ht'
    rcases ht' with rfl | rfl | rfl | rfl <;> rfl
  have hden : (Expr.bin (L := geoLib ε) 0 (Bin.sub .scalar) (addS (scalarLeaf ε 0) (scalarLeaf ε 1))
      (scalarLeaf ε 0)).eval (L := geoLib ε) (tiny ε) = some (fun _ : Fin 1 => (1 : ℝ) / 2 ^ 53) := by
    refine congrArg some (funext fun i : Fin 1 => ?_)
    change ((1 : ℝ) + 1 / 2 ^ 53) - 1 = _
    norm_num
  have hev : (cancelled ε).eval (L := geoLib ε) (tiny ε) = some (fun _ : Fin 1 => (2 : ℝ) ^ 53) := by
    refine (show (cancelled ε).eval (L := geoLib ε) (tiny ε) = ((Expr.bin (L := geoLib ε) 0
      (Bin.sub .scalar) (addS (scalarLeaf ε 0) (scalarLeaf ε 1)) (scalarLeaf ε 0)).eval
      (L := geoLib ε) (tiny ε)).bind (fun y => evalBin .divide (fun _ : Fin 1 => (1 : ℝ)) y)
      from rfl).trans ?_
    refine Option.bind_eq_some_iff.mpr ⟨_, hden, ?_⟩
    change (rdiv 1 (1 / 2 ^ 53)).map sc = _
    unfold rdiv
    rw [if_neg (by norm_num)]
    refine congrArg some (funext fun i : Fin 1 => ?_)
    change (1 : ℝ) / (1 / 2 ^ 53) = _
    norm_num
  have hno : ∀ z, ¬ComputesD (ieee 52) m (tiny ε) (cancelled ε) z := by
    rintro z ⟨x, y, rfl, ⟨p, q, ⟨p1, p2, rfl, rfl, hp⟩, rfl, hy⟩, h0, -⟩
    have h1 : p (0 : Fin 1) = 1 := (hp 0).trans ieee_tie
    refine h0 ((hy 0).trans ?_)
    change ieeeRnd 52 (p (0 : Fin 1) - 1) = 0
    rw [h1, sub_self]
    have := (ieee 52).err 0
    rw [abs_zero, mul_zero, sub_zero] at this
    exact abs_nonpos_iff.1 this
  refine ⟨hev, hno, fun hc => ?_⟩
  obtain ⟨z, hz⟩ := c68_outcome hm le_rfl (cancelled ε)
    ⟨trivial, trivial, trivial, ⟨trivial, trivial, trivial⟩, trivial⟩ (scalars_valid hcl) hc
    ((c68_ideal _ (cancelled ε) ⟨trivial, ⟨trivial, trivial⟩, trivial⟩).trans hev)
  exact hno z hz

/-! ### Examples -/

/-- `acos(x / y)`. -/
noncomputable def acosQuot (ε : ℝ) : Expr (geoLib ε) (.vec .scalar) :=
  Expr.un (L := geoLib ε) 0 Un.acos
    (Expr.bin (L := geoLib ε) 0 Bin.divide (scalarLeaf ε 1) (scalarLeaf ε 0))

theorem acosQuot_value (ε : ℝ) : (Expr.bin (L := geoLib ε) 0 Bin.divide (scalarLeaf ε 1)
    (scalarLeaf ε 0)).eval (L := geoLib ε) (tiny ε) = some (fun _ : Fin 1 => (1 : ℝ) / 2 ^ 53) := by
  change (rdiv (1 / 2 ^ 53) 1).map sc = _
  unfold rdiv
  rw [if_neg (by norm_num)]
  refine congrArg some (funext fun i : Fin 1 => ?_)
  change (1 : ℝ) / 2 ^ 53 / 1 = _
  norm_num

theorem scalar_magnitude (ε : ℝ) (a : ℕ) :
    magnitude (tiny ε) (scalarLeaf ε a) = |if a = 0 then (1 : ℝ) else 1 / 2 ^ 53| :=
  len_one (fun _ : Fin 1 => if a = 0 then (1 : ℝ) else 1 / 2 ^ 53)

/-- In double precision, with `x = 2⁻⁵³` and `y = 1`, and an `acos` correct to one unit in the last
place: the condition holds, an outcome exists and is within the bound. -/
example : ∃ v z, (acosQuot dblEps).eval (L := geoLib dblEps) (tiny dblEps) = some v ∧
    ComputesD (ieee 52) (1 / 2 ^ 52) (tiny dblEps) (acosQuot dblEps) z ∧
    Within (.vec .scalar) (factorD (ieee 52).u (1 / 2 ^ 52) 0 (tiny dblEps) (acosQuot dblEps) - 1)
      (ampD (tiny dblEps) (acosQuot dblEps)) v z := by
  have hl : ∀ t ∈ (acosQuot dblEps).leaves, t.ty = Ty.vec .scalar := by
    intro t ht
    have ht' : t ∈ ([⟨1, 0, .vec .scalar⟩, ⟨0, 0, .vec .scalar⟩] : List (Target (geoLib dblEps))) := ht
    simp only [List.mem_cons, List.not_mem_nil, or_false] at ht'
    rcases ht' with rfl | rfl <;> rfl
  have h0 : magnitude (tiny dblEps) (scalarLeaf dblEps 0) = 1 := by
    rw [scalar_magnitude]
    norm_num
  have h1 : magnitude (tiny dblEps) (scalarLeaf dblEps 1) = 1 / 2 ^ 53 := by
    rw [scalar_magnitude]
    norm_num
  have hm : magnitude (tiny dblEps) (Expr.bin (L := geoLib dblEps) 0 Bin.divide (scalarLeaf dblEps 1)
      (scalarLeaf dblEps 0)) = 1 / 2 ^ 53 := by
    rw [magnitude_of ((c68_ideal _ (Expr.bin (L := geoLib dblEps) 0 Bin.divide
      (scalarLeaf dblEps 1) (scalarLeaf dblEps 0)) ⟨trivial, trivial⟩).trans (acosQuot_value dblEps))]
    refine (len_one (fun _ : Fin 1 => (1 : ℝ) / 2 ^ 53)).trans ?_
    norm_num
  have hc : Conditioned (ieee 52).u (1 / 2 ^ 52) 0 (tiny dblEps) (acosQuot dblEps) := by
    refine ⟨⟨trivial, trivial, ?_⟩, ?_⟩
    · change (1 + 0 - 1) * magnitude (tiny dblEps) (scalarLeaf dblEps 0) <
        magnitude (tiny dblEps) (scalarLeaf dblEps 0)
      rw [h0]
      norm_num
    · change magnitude (tiny dblEps) (Expr.bin (L := geoLib dblEps) 0 Bin.divide (scalarLeaf dblEps 1)
        (scalarLeaf dblEps 0)) + ((1 + 0) * (1 + (ieee 52).u) / (1 - (1 + 0 - 1) *
          magnitude (tiny dblEps) (scalarLeaf dblEps 0) / magnitude (tiny dblEps) (scalarLeaf dblEps 0))
          - 1) * (magnitude (tiny dblEps) (scalarLeaf dblEps 1) /
            magnitude (tiny dblEps) (scalarLeaf dblEps 0)) < 1
      rw [hm, h0, h1, ieee52_u]
      norm_num
  have hv : (acosQuot dblEps).eval (L := geoLib dblEps) (tiny dblEps) =
      some (sc (Real.arccos (1 / 2 ^ 53))) := by
    refine Option.bind_eq_some_iff.mpr ⟨_, acosQuot_value dblEps, ?_⟩
    change (racos (1 / 2 ^ 53)).map sc = _
    unfold racos
    rw [if_pos ⟨by norm_num, by norm_num⟩]
    rfl
  have hi := (c68_ideal (tiny dblEps) (acosQuot dblEps) ⟨trivial, trivial, trivial⟩).trans hv
  obtain ⟨z, hz⟩ := c68_outcome (F := ieee 52) (m := 1 / 2 ^ 52) (by norm_num) le_rfl (acosQuot dblEps)
    ⟨trivial, trivial, trivial, trivial⟩ (scalars_valid hl) hc hi
  exact ⟨_, z, hv, hz, c68_error (by norm_num) le_rfl _ (scalars_valid hl) hc hi hz⟩

/-- `v.normalized()` for `v = (1, 1, 1)`. -/
example : ∃ z : Fin 3 → ℝ, ComputesD (ieee 52) 0 demo (unitOf dblEps 0) z ∧ |len z - 1| ≤ 6 / 2 ^ 53 := by
  have h0 : 0 < len (demo 0 (.vec .trans) : Fin 3 → ℝ) := by
    refine lt_of_le_of_ne (len_nonneg _) fun h => ?_
    have := len_sq_dot (demo 0 (.vec .trans) : Fin 3 → ℝ)
    rw [← h] at this
    simp [demo, dotProduct, Fin.sum_univ_three] at this
  have hc : Conditioned (ieee 52).u 0 0 demo (unitOf dblEps 0) := by
    refine ⟨trivial, ?_, ?_⟩
    · change (1 + 0 - 1) * _ < len (demo 0 (.vec .trans) : Fin 3 → ℝ)
      rw [add_zero, sub_self, zero_mul]
      exact h0
    · change growth _ (Fintype.card (Fin 3) + 1) < 1
      unfold growth
      rw [Fintype.card_fin, ieee52_u]
      norm_num
  obtain ⟨z, hz⟩ := c68_outcome (F := ieee 52) (m := 0) le_rfl le_rfl (unitOf dblEps 0)
    ⟨trivial, trivial⟩ (fun t ht => by
      cases List.mem_singleton.1 ht
      exact ⟨trivial, within_refl le_rfl _⟩) hc rfl
  exact ⟨z, hz, (c68_normalize 0 le_rfl demo 0 h0 hz).2⟩

/-- `exp(φ)` for `φ = (1, 1, 1)` in double precision. -/
example : ∃ q : Quat, ComputesD (ieee 52) (1 / 2 ^ 52) demo (expOf (1 / 2 ^ 52) 0) q ∧
    len (coeffs q - coeffs (trueExp (demo 0 (.vec .relrot)))) ≤
      (1 + len (demo 0 (.vec .relrot) : Fin 3 → ℝ)) / 2 ^ 49 := by
  obtain ⟨q, hq⟩ := flExp_exists (F := ieee 52) (m := 1 / 2 ^ 52) (ε := 1 / 2 ^ 52) (by norm_num)
    (by norm_num) (by rw [ieee52_u]; norm_num) (demo 0 (.vec .relrot))
  refine ⟨q, ⟨_, rfl, hq⟩, c68_exp_large demo 0 ?_ ⟨_, rfl, hq⟩⟩
  have : len (demo 0 (.vec .relrot) : Fin 3 → ℝ) ^ 2 = 3 := by
    rw [len_sq_dot]
    simp [demo, dotProduct]
  rw [show (4 : ℕ) = 2 * 2 from rfl, pow_mul, this]
  norm_num

/-- `exp(φ) * v`, with `φ` as a leaf. -/
noncomputable def expTimes (ε : ℝ) : Expr (geoLib ε) (.vec .trans) :=
  Expr.bin (L := geoLib ε) 0 Bin.rotateQ (expOf ε 0) (Expr.leaf (L := geoLib ε) 0 0 (Ty.vec .trans))

theorem expTimes_covered (ε : ℝ) : CoveredD (expTimes ε) := ⟨trivial, ⟨trivial, trivial⟩, trivial⟩

/-- In double precision the value of `exp(φ) * v` is within the bound of the rotated vector. -/
example : ∃ v z, ideal (ε := 1 / 2 ^ 52) demo (expTimes (1 / 2 ^ 52)) = some v ∧
    ComputesD (ieee 52) (1 / 2 ^ 52) demo (expTimes (1 / 2 ^ 52)) z ∧
    Within (.vec .trans) (factorD (ieee 52).u (1 / 2 ^ 52) 0 demo (expTimes (1 / 2 ^ 52)) - 1)
      (ampD demo (expTimes (1 / 2 ^ 52))) v z := by
  have hs : ∀ t ∈ (expTimes (1 / 2 ^ 52)).leaves, Valid t.ty (demo t.addr t.ty) ∧
      Within t.ty 0 (size t.ty (demo t.addr t.ty)) (demo t.addr t.ty) (demo t.addr t.ty) := by
    intro t ht
    have ht' : t ∈ ([⟨0, 0, .vec .relrot⟩, ⟨0, 0, .vec .trans⟩] :
      List (Target (geoLib (1 / 2 ^ 52)))) := ht
    simp only [List.mem_cons, List.not_mem_nil, or_false] at ht'
    rcases ht' with rfl | rfl
    · exact ⟨trivial, within_refl le_rfl _⟩
    · exact ⟨trivial, within_refl le_rfl _⟩
  have hc : Conditioned (ieee 52).u (1 / 2 ^ 52) 0 demo (expTimes (1 / 2 ^ 52)) :=
    ⟨⟨trivial, by rw [ieee52_u]; norm_num, by norm_num, by norm_num⟩, trivial, trivial⟩
  obtain ⟨z, hz⟩ := c68_outcome (F := ieee 52) (m := 1 / 2 ^ 52) (by norm_num) le_rfl
    (expTimes (1 / 2 ^ 52)) (expTimes_covered _) hs hc rfl
  exact ⟨_, z, rfl, hz, c68_error (by norm_num) le_rfl _ hs hc rfl hz⟩

end WG
