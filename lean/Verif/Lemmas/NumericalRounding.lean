import Verif.Spec.NumericalRounding
import Verif.Lemmas.RoundingOutcome
import Verif.Lemmas.DiffMain

/-! # Rounding of the numerical Jacobian -/

namespace WG.Round
open Spec

variable {F : Fl} {ε : ℝ}

/-- Rounding to the stored result of `x + d`. -/
noncomputable def flStep (F : Fl) : (τ : Ty) → τ.Val → (τ.Idx → ℝ) → τ.Val
  | .vec _, x, d => fun i => F.rnd (x i + d i)
  | .point, x, d => fun i : Fin 3 => F.rnd (x i + d i)
  | .rot _, x, _ => x
  | .rigid _, x, _ => x

theorem flPlus_iff {τ : Ty} (hf : IsFlat τ) (x : τ.Val) (d : τ.Idx → ℝ) (z : τ.Val) :
    FlPlus F τ x d z ↔ z = flStep F τ x d := by
  cases τ with
  | vec k => exact ⟨fun h => funext h, fun h i => congrFun h i⟩
  | point => exact ⟨fun h => funext h, fun h i => congrFun h i⟩
  | rot k => exact hf.elim
  | rigid k => exact hf.elim

/-- The evaluator with an offset computes the value at the perturbed memory. -/
theorem computesDelta_iff (s : Store (geoLib ε)) (t : Target (geoLib ε)) (hf : IsFlat t.ty)
    (d : t.ty.Idx → ℝ) : {τ : Ty} → (e : Expr (geoLib ε) τ) → Distinguished t e → (z : τ.Val) →
    (ComputesDelta F s t.addr t.ty d e z ↔
      Computes F (s.set t.addr t.ty (flStep F t.ty (s t.addr t.ty) d)) e z)
  | _, .leaf a c τ, h, z => by
    unfold ComputesDelta FlBump Computes
    by_cases ha : a = t.addr
    · have := h.1 ⟨a, c, τ⟩ (by simp [objects]) ha
      subst this
      rw [if_pos rfl, dif_pos rfl, Store.set_get]
      exact flPlus_iff hf _ _ z
    · rw [if_neg ha, Store.set_of_ne _ _ (fun h => ha h.1)]
  | _, .un a op e, h, z => by
    have h2 : t.addr ∉ a :: nodeAddrs e := h.2
    rw [List.mem_cons, not_or] at h2
    have ih := computesDelta_iff s t hf d e ⟨h.1, h2.2⟩
    unfold ComputesDelta FlBump Computes
    simp only [if_neg (fun h : a = t.addr => h2.1 h.symm)]
    constructor
    · rintro ⟨x, y, h3, h4, rfl⟩
      exact ⟨x, (ih x).1 h3, h4⟩
    · rintro ⟨x, h3, h4⟩
      exact ⟨x, z, (ih x).2 h3, h4, rfl⟩
  | _, .bin a op l r, h, z => by
    have h2 : t.addr ∉ a :: (nodeAddrs l ++ nodeAddrs r) := h.2
    rw [List.mem_cons, List.mem_append, not_or, not_or] at h2
    have ihl := computesDelta_iff s t hf d l
      ⟨fun o ho => h.1 o (List.mem_append_left _ ho), h2.2.1⟩
    have ihr := computesDelta_iff s t hf d r
      ⟨fun o ho => h.1 o (List.mem_append_right _ ho), h2.2.2⟩
    unfold ComputesDelta FlBump Computes
    simp only [if_neg (fun h : a = t.addr => h2.1 h.symm)]
    constructor
    · rintro ⟨x, y, w, h3, h4, h5, rfl⟩
      exact ⟨x, y, (ihl x).1 h3, (ihr y).1 h4, h5⟩
    · rintro ⟨x, y, h3, h4, h5⟩
      exact ⟨x, y, z, (ihl x).2 h3, (ihr y).2 h4, h5, rfl⟩
  | _, .proxy a e, h, z => by
    have h2 : t.addr ∉ a :: nodeAddrs e := h.2
    rw [List.mem_cons, not_or] at h2
    have ih := computesDelta_iff s t hf d e ⟨h.1, h2.2⟩
    unfold ComputesDelta FlBump Computes
    simp only [if_neg (fun h : a = t.addr => h2.1 h.symm)]
    constructor
    · rintro ⟨x, h3, rfl⟩
      exact (ih _).1 h3
    · intro h3
      exact ⟨z, (ih z).2 h3, rfl⟩

/-- A step of exact arithmetic. -/
theorem boxPlus_flat {τ : Ty} (hf : IsFlat τ) (x : τ.Val) (d : τ.Idx → ℝ) :
    boxPlusVal ε τ x d = some (stepped τ x d) := by
  cases τ with
  | vec k => rfl
  | point => rfl
  | rot k => exact hf.elim
  | rigid k => exact hf.elim

section
variable {n : Type} [Fintype n]

/-- Rounding every coefficient. -/
theorem rnd_near {x z : n → ℝ} (h : ∀ i, z i = F.rnd (x i)) : len (z - x) ≤ F.u * len x := by
  rw [← abs_of_nonneg (u_nonneg F), ← len_smul]
  refine len_mono fun i => ?_
  rw [Pi.sub_apply, h i, Pi.smul_apply, smul_eq_mul, abs_mul F.u]
  exact (F.err _).trans (mul_le_mul_of_nonneg_right (le_abs_self _) (abs_nonneg _))

/-- A rounded difference quotient. -/
theorem quotient_near {a b a' b' diff z : n → ℝ} {δ E₁ E₂ : ℝ} (hδ : δ ≠ 0)
    (h1 : len (a' - a) ≤ E₁) (h2 : len (b' - b) ≤ E₂) (h3 : FlAdd F a' (-b') diff)
    (h4 : ∀ i, z i = F.rnd (diff i / δ)) :
    len (z - δ⁻¹ • (a - b)) ≤ quotientError F.u δ (E₁ + E₂) (len (δ⁻¹ • (a - b))) := by
  have u0 := u_nonneg F
  have hd : 0 < |δ| := abs_pos.2 hδ
  have k1 : len ((a' - b') - (a - b)) ≤ E₁ + E₂ := by
    rw [show (a' - b') - (a - b) = (a' - a) - (b' - b) by abel]
    exact (len_sub_le _ _).trans (add_le_add h1 h2)
  have k2 : len (a' - b') ≤ len (a - b) + (E₁ + E₂) := by
    have := len_add_le (a - b) ((a' - b') - (a - b))
    rw [add_sub_cancel] at this
    linarith
  have k3 : len (diff - (a' - b')) ≤ F.u * len (a' - b') := by
    have := flAdd_err h3
    rwa [← sub_eq_add_neg] at this
  have k4 : len diff ≤ (1 + F.u) * len (a' - b') := by
    have := len_add_le (a' - b') (diff - (a' - b'))
    rw [add_sub_cancel] at this
    linarith
  have k5 : len (z - δ⁻¹ • diff) ≤ F.u * (|δ|⁻¹ * len diff) := by
    rw [← abs_inv, ← len_smul]
    refine rnd_near fun i => ?_
    rw [h4 i, Pi.smul_apply, smul_eq_mul, div_eq_inv_mul]
  have k6 : len (δ⁻¹ • (diff - (a - b))) ≤ |δ|⁻¹ * (F.u * len (a' - b') + (E₁ + E₂)) := by
    rw [len_smul, abs_inv]
    refine mul_le_mul_of_nonneg_left ?_ (inv_nonneg.2 hd.le)
    have := len_add_le (diff - (a' - b')) ((a' - b') - (a - b))
    rw [sub_add_sub_cancel] at this
    linarith
  have k7 : len (z - δ⁻¹ • (a - b)) ≤ len (z - δ⁻¹ • diff) + len (δ⁻¹ • (diff - (a - b))) := by
    have := len_add_le (z - δ⁻¹ • diff) (δ⁻¹ • (diff - (a - b)))
    rwa [smul_sub, sub_add_sub_cancel, ← smul_sub δ⁻¹ diff] at this
  have hi : 0 ≤ |δ|⁻¹ := inv_nonneg.2 hd.le
  have k8 : F.u * (|δ|⁻¹ * len diff) ≤
      F.u * (|δ|⁻¹ * ((1 + F.u) * (len (a - b) + (E₁ + E₂)))) :=
    mul_le_mul_of_nonneg_left (mul_le_mul_of_nonneg_left (k4.trans
      (mul_le_mul_of_nonneg_left k2 (by linarith))) hi) u0
  have k9 : |δ|⁻¹ * (F.u * len (a' - b') + (E₁ + E₂)) ≤
      |δ|⁻¹ * (F.u * (len (a - b) + (E₁ + E₂)) + (E₁ + E₂)) :=
    mul_le_mul_of_nonneg_left (add_le_add_left (mul_le_mul_of_nonneg_left k2 u0) _) hi
  refine (k7.trans (add_le_add (k5.trans k8) (k6.trans k9))).trans (le_of_eq ?_)
  unfold quotientError
  rw [len_smul, abs_inv, div_eq_mul_inv]
  ring
end

/-- The rounded step is within one unit of roundoff of the exact one. -/
theorem within_step {τ : Ty} (hf : IsFlat τ) (x : τ.Val) (d : τ.Idx → ℝ) :
    Within τ F.u (size τ (stepped τ x d)) (stepped τ x d) (flStep F τ x d) := by
  cases τ with
  | vec k => exact rnd_near (n := k.Idx) fun _ => rfl
  | point => exact rnd_near (n := Fin 3) fun _ => rfl
  | rot k => exact hf.elim
  | rigid k => exact hf.elim

theorem valid_flat {τ : Ty} (hf : IsFlat τ) (x : τ.Val) : Valid τ x := by
  cases τ with
  | vec k => trivial
  | point => trivial
  | rot k => exact hf.elim
  | rigid k => exact hf.elim

theorem within_refl {η : ℝ} (hη : 0 ≤ η) {τ : Ty} (x : τ.Val) : Within τ η (size τ x) x x := by
  have h0 : ∀ {n : Type} [Fintype n] (v : n → ℝ) (c : ℝ), 0 ≤ c → len (v - v) ≤ c := by
    intro n _ v c hc
    rw [sub_self, len_zero]
    exact hc
  have hf : ∀ A : M3, frob (A - A) ≤ η := by
    intro A
    rw [sub_self]
    exact (le_of_eq len_zero).trans hη
  cases τ with
  | vec k => exact h0 (n := k.Idx) x _ (mul_nonneg hη (len_nonneg _))
  | point => exact h0 (n := Fin 3) x _ (mul_nonneg hη (len_nonneg _))
  | rot k =>
    cases k with
    | quat => exact h0 (coeffs x) η hη
    | mat => exact hf x
    | aa => rfl
  | rigid k =>
    cases k with
    | mat => exact ⟨hf _, h0 _ _ (mul_nonneg hη (len_nonneg _))⟩
    | compact => exact ⟨h0 _ _ hη, h0 _ _ (mul_nonneg hη (len_nonneg _))⟩

/-! ### Steps that vanish -/

theorem log_eq_of {x : ℝ} {e : ℤ} (h1 : (2 : ℝ) ^ e ≤ x) (h2 : x < 2 ^ (e + 1)) : Int.log 2 x = e := by
  have hx : 0 < x := (zpow_pos two_pos e).trans_le h1
  apply le_antisymm
  · have := (Int.lt_zpow_iff_log_lt (b := 2) (by norm_num) hx (x := e + 1)).mp (by exact_mod_cast h2)
    omega
  · exact (Int.zpow_le_iff_le_log (b := 2) (by norm_num) hx).mp (by exact_mod_cast h1)

/-- A stored number of `p + 1` bits does not change if less than a quarter of its last place is
added. -/
theorem ieee_absorb {p : ℕ} {x δ : ℝ} (hx : 0 < x) (hs : ieeeRnd p x = x) (h0 : 0 ≤ δ)
    (h1 : 4 * δ ≤ 2 ^ (Int.log 2 x - p)) : ieeeRnd p (x + δ) = x := by
  set e := Int.log 2 x with he
  have hg : (0 : ℝ) < 2 ^ (e - p) := zpow_pos two_pos _
  set m := roundEven (x / 2 ^ (e - p)) with hm
  have hxm : x = m * 2 ^ (e - p) := by
    have : ieeeRnd p x = m * 2 ^ (e - p) := by
      unfold ieeeRnd
      rw [if_neg (not_lt.2 hx.le), abs_of_pos hx]
    rw [← this, hs]
  have lo : (2 : ℝ) ^ e ≤ x := by
    have := Int.zpow_log_le_self (b := 2) (r := x) (by norm_num) hx
    exact_mod_cast this
  have hi : x < 2 ^ (e + 1) := by
    have := Int.lt_zpow_succ_log_self (b := 2) (by norm_num) x
    exact_mod_cast this
  have hpow : (2 : ℝ) ^ (e + 1) = ((2 ^ (p + 1) : ℤ) : ℝ) * 2 ^ (e - p) := by
    push_cast
    rw [← zpow_natCast, ← zpow_add₀ two_ne_zero]
    congr 1
    push_cast
    ring
  have hmlt : m < 2 ^ (p + 1) := by
    rw [hpow, hxm] at hi
    exact_mod_cast lt_of_mul_lt_mul_right hi hg.le
  have hmle : (m : ℝ) + 1 ≤ ((2 ^ (p + 1) : ℤ) : ℝ) := by exact_mod_cast hmlt
  have hl : Int.log 2 (x + δ) = e := by
    refine log_eq_of (by linarith) ?_
    rw [hpow]
    nlinarith
  have hpos : 0 < x + δ := by linarith
  unfold ieeeRnd
  rw [if_neg (not_lt.2 hpos.le), abs_of_pos hpos, hl]
  have hdiv : (x + δ) / 2 ^ (e - p) = m + δ / 2 ^ (e - p) := by
    rw [add_div, ← mul_div_cancel_right₀ (m : ℝ) hg.ne', ← hxm]
  have hr : 0 ≤ δ / 2 ^ (e - p) := div_nonneg h0 hg.le
  have hr1 : δ / 2 ^ (e - p) < 1 / 2 := by
    rw [div_lt_iff₀ hg]
    linarith
  have hf : ⌊(x + δ) / 2 ^ (e - p)⌋ = m := by
    rw [hdiv, Int.floor_intCast_add, Int.floor_eq_zero_iff.2 ⟨hr, by linarith⟩, add_zero]
  have : roundEven ((x + δ) / 2 ^ (e - p)) = m := by
    unfold roundEven
    rw [hf, if_pos (by rw [hdiv]; linarith)]
  rw [this]
  exact hxm.symm

end WG.Round
