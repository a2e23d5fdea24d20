import Verif.Lemmas.RoundingExpr

/-! # Rounding errors of the conversion of a quaternion to a matrix -/

namespace WG.Round
open Matrix Spec

variable {F : Fl}

theorem growth4 (F : Fl) : growth F.u 3 + F.u + growth F.u 3 * F.u = growth F.u 4 := by
  unfold growth
  ring

theorem double_near {t a : ℝ} (h : t = F.rnd (2 * a)) (b : ℝ) :
    |t * b - 2 * a * b| ≤ F.u * (2 * |a * b|) ∧ |t * b| ≤ (1 + F.u) * (2 * |a * b|) := by
  have h1 : |t * b - 2 * a * b| ≤ F.u * (2 * |a * b|) := by
    rw [← sub_mul, abs_mul, h]
    refine (mul_le_mul_of_nonneg_right (F.err (2 * a)) (abs_nonneg b)).trans (le_of_eq ?_)
    rw [abs_mul, abs_two, abs_mul]
    ring
  refine ⟨h1, ?_⟩
  have h2 := abs_add_le (t * b - 2 * a * b) (2 * a * b)
  rw [sub_add_cancel, mul_assoc 2 a b, abs_mul 2, abs_two] at h2
  rw [mul_assoc 2 a b] at h1
  linarith

theorem diag_err {a b ta tb z : ℝ} (ha : ta = F.rnd (2 * a)) (hb : tb = F.rnd (2 * b))
    (h : FlSum F [(1, 1), (-ta, a), (-tb, b)] z) :
    |z - (1 - (2 * a * a + 2 * b * b))| ≤ growth F.u 4 * (1 + (2 * a ^ 2 + 2 * b ^ 2)) := by
  have h1 := flSum_err h
  obtain ⟨a1, a2⟩ := double_near ha a
  obtain ⟨b1, b2⟩ := double_near hb b
  have g3 := growth_nonneg F 3
  have u0 := u_nonneg F
  simp only [sumOf, absOf, List.map_cons, List.map_nil, List.sum_cons, List.sum_nil, List.length_cons,
    List.length_nil, mul_one, abs_one, add_zero, neg_mul, abs_neg] at h1
  norm_num at h1
  have ea : |a * a| = a ^ 2 := by rw [abs_mul_self, sq]
  have eb : |b * b| = b ^ 2 := by rw [abs_mul_self, sq]
  rw [ea] at a1 a2
  rw [eb] at b1 b2
  have e : z - (1 - (2 * a * a + 2 * b * b)) =
      (z - (1 + (-(ta * a) + -(tb * b)))) + (-(ta * a - 2 * a * a) + -(tb * b - 2 * b * b)) := by ring
  rw [e]
  refine (abs_add_le _ _).trans ((add_le_add h1 ((abs_add_le _ _).trans (add_le_add
    ((abs_neg _).le.trans a1) ((abs_neg _).le.trans b1)))).trans ?_)
  rw [← growth4]
  rw [abs_mul] at a2 b2
  have k := mul_le_mul_of_nonneg_left (add_le_add a2 b2) g3
  nlinarith [mul_nonneg g3 u0, sq_nonneg a, sq_nonneg b]

theorem off_err {a b c d ta tc z : ℝ} (ha : ta = F.rnd (2 * a)) (hc : tc = F.rnd (2 * c))
    (h : FlSum F [(ta, b), (tc, d)] z) :
    |z - (2 * a * b + 2 * c * d)| ≤ growth F.u 4 * (2 * |a * b| + 2 * |c * d|) := by
  have h1 := flSum_err h
  obtain ⟨a1, a2⟩ := double_near ha b
  obtain ⟨b1, b2⟩ := double_near hc d
  have g3 := growth_nonneg F 3
  have u0 := u_nonneg F
  simp only [sumOf, absOf, List.map_cons, List.map_nil, List.sum_cons, List.sum_nil, List.length_cons,
    List.length_nil, add_zero] at h1
  norm_num at h1
  have e : z - (2 * a * b + 2 * c * d) =
      (z - (ta * b + tc * d)) + ((ta * b - 2 * a * b) + (tc * d - 2 * c * d)) := by ring
  rw [e]
  have gm : growth F.u 2 ≤ growth F.u 3 := growth_mono F (by norm_num)
  have h2 := h1.trans (mul_le_mul_of_nonneg_right gm (by positivity))
  refine (abs_add_le _ _).trans ((add_le_add h2 ((abs_add_le _ _).trans (add_le_add a1 b1))).trans ?_)
  rw [← growth4]
  rw [abs_mul ta, abs_mul a b] at a2
  rw [abs_mul tc, abs_mul c d] at b2
  have k := mul_le_mul_of_nonneg_left (add_le_add a2 b2) g3
  rw [abs_mul a b, abs_mul c d]
  nlinarith

theorem cs4 (a b c d x y z w : ℝ) : (a * x + b * y + c * z + d * w) ^ 2 ≤
    (a ^ 2 + b ^ 2 + c ^ 2 + d ^ 2) * (x ^ 2 + y ^ 2 + z ^ 2 + w ^ 2) := by
  nlinarith [sq_nonneg (a * y - b * x), sq_nonneg (a * z - c * x), sq_nonneg (a * w - d * x),
    sq_nonneg (b * z - c * y), sq_nonneg (b * w - d * y), sq_nonneg (c * w - d * z)]

/-- A matrix whose entries are bounded by `3 c` on the diagonal and `c` elsewhere. -/
theorem frob_le_entries {E : M3} {c : ℝ} (hc : 0 ≤ c) (hd : ∀ i, |E i i| ≤ 3 * c)
    (ho : ∀ i j, i ≠ j → |E i j| ≤ c) : frob E ≤ 6 * c := by
  refine frob_le_of_sq (by positivity) ?_
  have d : ∀ i, E i i ^ 2 ≤ 9 * c ^ 2 := fun i => by
    have := sq_le_sq.mpr ((hd i).trans (le_abs_self _))
    linarith [this, mul_pow 3 c 2]
  have o : ∀ i j, i ≠ j → E i j ^ 2 ≤ c ^ 2 := fun i j h => sq_le_sq.mpr ((ho i j h).trans (le_abs_self _))
  simp only [Fin.sum_univ_three]
  have := o 0 1 (by decide)
  have := o 0 2 (by decide)
  have := o 1 0 (by decide)
  have := o 1 2 (by decide)
  have := o 2 0 (by decide)
  have := o 2 1 (by decide)
  nlinarith [d 0, d 1, d 2, sq_nonneg c]

theorem toMatrix_err {q : Quat} {M : M3} (h : FlToMatrix F q M) {n : ℝ} (hn : len (coeffs q) ≤ n)
    (h1 : 1 ≤ n) : frob (M - q.toMatrix) ≤ 6 * (growth F.u 4 * n ^ 2) := by
  obtain ⟨t, ht, hM⟩ := h
  have g4 := growth_nonneg F 4
  have hq : q.w ^ 2 + q.x ^ 2 + q.y ^ 2 + q.z ^ 2 ≤ n ^ 2 := by
    rw [← len_coeffs_sq]
    exact pow_le_pow_left₀ (len_nonneg _) hn 2
  have n1 : 1 ≤ n ^ 2 := one_le_pow₀ h1
  have hx : t 0 = F.rnd (2 * q.x) := ht 0
  have hy : t 1 = F.rnd (2 * q.y) := ht 1
  have hz : t 2 = F.rnd (2 * q.z) := ht 2
  have hx' : -t 0 = F.rnd (2 * -q.x) := by rw [hx, mul_neg, F.odd]
  have hy' : -t 1 = F.rnd (2 * -q.y) := by rw [hy, mul_neg, F.odd]
  have hz' : -t 2 = F.rnd (2 * -q.z) := by rw [hz, mul_neg, F.odd]
  have am : ∀ a b : ℝ, 2 * |a * b| ≤ a ^ 2 + b ^ 2 := fun a b => by
    rw [abs_mul]
    nlinarith [sq_nonneg (|a| - |b|), sq_abs a, sq_abs b]
  have pd : ∀ {e a b : ℝ}, |e| ≤ growth F.u 4 * (1 + (2 * a ^ 2 + 2 * b ^ 2)) →
      a ^ 2 + b ^ 2 ≤ n ^ 2 → |e| ≤ 3 * (growth F.u 4 * n ^ 2) := by
    intro e a b he hab
    refine he.trans ?_
    nlinarith
  have po : ∀ {e a b c d : ℝ}, |e| ≤ growth F.u 4 * (2 * |a * b| + 2 * |c * d|) →
      a ^ 2 + b ^ 2 + c ^ 2 + d ^ 2 ≤ n ^ 2 → |e| ≤ growth F.u 4 * n ^ 2 := by
    intro e a b c d he h4
    refine he.trans (mul_le_mul_of_nonneg_left ?_ g4)
    linarith [am a b, am c d]
  have sw := sq_nonneg q.w
  have sx := sq_nonneg q.x
  have sy := sq_nonneg q.y
  have sz := sq_nonneg q.z
  refine frob_le_entries (by positivity) (fun i => ?_) fun i j hij => ?_
  · fin_cases i
    · exact pd (diag_err hy hz (hM 0 0)) (by linarith)
    · exact pd (diag_err hx hz (hM 1 1)) (by linarith)
    · exact pd (diag_err hx hy (hM 2 2)) (by linarith)
  · fin_cases i <;> fin_cases j <;> first | exact absurd rfl hij | skip
    · refine po (a := q.y) (b := q.x) (c := -q.z) (d := q.w) ?_ (by linarith [neg_sq q.z])
      have := off_err hy hz' (hM 0 1)
      refine le_trans (le_of_eq (congrArg abs ?_)) this
      simp [Quat.toMatrix]
      ring
    · refine po (a := q.z) (b := q.x) (c := q.y) (d := q.w) ?_ (by linarith)
      exact off_err hz hy (hM 0 2)
    · refine po (a := q.y) (b := q.x) (c := q.z) (d := q.w) ?_ (by linarith)
      exact off_err hy hz (hM 1 0)
    · refine po (a := q.z) (b := q.y) (c := -q.x) (d := q.w) ?_ (by linarith [neg_sq q.x])
      have := off_err hz hx' (hM 1 2)
      refine le_trans (le_of_eq (congrArg abs ?_)) this
      simp [Quat.toMatrix]
      ring
    · refine po (a := q.z) (b := q.x) (c := -q.y) (d := q.w) ?_ (by linarith [neg_sq q.y])
      have := off_err hz hy' (hM 2 0)
      refine le_trans (le_of_eq (congrArg abs ?_)) this
      simp [Quat.toMatrix]
      ring
    · refine po (a := q.z) (b := q.y) (c := q.x) (d := q.w) ?_ (by linarith)
      exact off_err hz hx (hM 2 1)

/-- `toMatrix` is Lipschitz on bounded quaternions. -/
theorem toMatrix_sub (p q : Quat) {d s : ℝ} (hd : len (coeffs p - coeffs q) ≤ d)
    (hs : len (coeffs p + coeffs q) ≤ s) : frob (p.toMatrix - q.toMatrix) ≤ 5 * (d * s) := by
  have d0 := (len_nonneg _).trans hd
  have s0 := (len_nonneg _).trans hs
  have D : (p.w - q.w) ^ 2 + (p.x - q.x) ^ 2 + (p.y - q.y) ^ 2 + (p.z - q.z) ^ 2 ≤ d ^ 2 := by
    refine le_trans (le_of_eq ?_) (pow_le_pow_left₀ (len_nonneg _) hd 2)
    rw [len_sq, Fin.sum_univ_four]
    rfl
  have P : (p.w + q.w) ^ 2 + (p.x + q.x) ^ 2 + (p.y + q.y) ^ 2 + (p.z + q.z) ^ 2 ≤ s ^ 2 := by
    refine le_trans (le_of_eq ?_) (pow_le_pow_left₀ (len_nonneg _) hs 2)
    rw [len_sq, Fin.sum_univ_four]
    rfl
  have B : ∀ {a b c e x y z w : ℝ}, a ^ 2 + b ^ 2 + c ^ 2 + e ^ 2 ≤ d ^ 2 →
      x ^ 2 + y ^ 2 + z ^ 2 + w ^ 2 ≤ s ^ 2 → (a * x + b * y + c * z + e * w) ^ 2 ≤ d ^ 2 * s ^ 2 := by
    intro a b c e x y z w h1 h2
    refine (cs4 a b c e x y z w).trans (mul_le_mul h1 h2 (by positivity) (by positivity))
  have sw := sq_nonneg (p.w - q.w)
  have sx := sq_nonneg (p.x - q.x)
  have sy := sq_nonneg (p.y - q.y)
  have sz := sq_nonneg (p.z - q.z)
  have tw := sq_nonneg (p.w + q.w)
  have tx := sq_nonneg (p.x + q.x)
  have ty := sq_nonneg (p.y + q.y)
  have tz := sq_nonneg (p.z + q.z)
  refine frob_le_of_sq (by positivity) ?_
  have b00 := B (a := 0) (b := 0) (c := p.y - q.y) (e := p.z - q.z) (x := 0) (y := 0) (z := p.y + q.y)
    (w := p.z + q.z) (by linarith) (by linarith)
  have b11 := B (a := 0) (b := 0) (c := p.x - q.x) (e := p.z - q.z) (x := 0) (y := 0) (z := p.x + q.x)
    (w := p.z + q.z) (by linarith) (by linarith)
  have b22 := B (a := 0) (b := 0) (c := p.x - q.x) (e := p.y - q.y) (x := 0) (y := 0) (z := p.x + q.x)
    (w := p.y + q.y) (by linarith) (by linarith)
  have b01 := B (a := p.y - q.y) (b := p.x - q.x) (c := -(p.z - q.z)) (e := -(p.w - q.w))
    (x := p.x + q.x) (y := p.y + q.y) (z := p.w + q.w) (w := p.z + q.z)
    (by linarith [neg_sq (p.z - q.z), neg_sq (p.w - q.w)]) (by linarith)
  have b10 := B (a := p.y - q.y) (b := p.x - q.x) (c := (p.z - q.z)) (e := (p.w - q.w))
    (x := p.x + q.x) (y := p.y + q.y) (z := p.w + q.w) (w := p.z + q.z) (by linarith) (by linarith)
  have b02 := B (a := p.z - q.z) (b := p.x - q.x) (c := (p.y - q.y)) (e := (p.w - q.w))
    (x := p.x + q.x) (y := p.z + q.z) (z := p.w + q.w) (w := p.y + q.y) (by linarith) (by linarith)
  have b20 := B (a := p.z - q.z) (b := p.x - q.x) (c := -(p.y - q.y)) (e := -(p.w - q.w))
    (x := p.x + q.x) (y := p.z + q.z) (z := p.w + q.w) (w := p.y + q.y)
    (by linarith [neg_sq (p.y - q.y), neg_sq (p.w - q.w)]) (by linarith)
  have b12 := B (a := p.z - q.z) (b := p.y - q.y) (c := -(p.x - q.x)) (e := -(p.w - q.w))
    (x := p.y + q.y) (y := p.z + q.z) (z := p.w + q.w) (w := p.x + q.x)
    (by linarith [neg_sq (p.x - q.x), neg_sq (p.w - q.w)]) (by linarith)
  have b21 := B (a := p.z - q.z) (b := p.y - q.y) (c := (p.x - q.x)) (e := (p.w - q.w))
    (x := p.y + q.y) (y := p.z + q.z) (z := p.w + q.w) (w := p.x + q.x) (by linarith) (by linarith)
  have e : ∑ i, ∑ j, (p.toMatrix - q.toMatrix) i j ^ 2 =
      4 * (0 * 0 + 0 * 0 + (p.y - q.y) * (p.y + q.y) + (p.z - q.z) * (p.z + q.z)) ^ 2 +
      4 * (0 * 0 + 0 * 0 + (p.x - q.x) * (p.x + q.x) + (p.z - q.z) * (p.z + q.z)) ^ 2 +
      4 * (0 * 0 + 0 * 0 + (p.x - q.x) * (p.x + q.x) + (p.y - q.y) * (p.y + q.y)) ^ 2 +
      ((p.y - q.y) * (p.x + q.x) + (p.x - q.x) * (p.y + q.y) + -(p.z - q.z) * (p.w + q.w) +
        -(p.w - q.w) * (p.z + q.z)) ^ 2 +
      ((p.y - q.y) * (p.x + q.x) + (p.x - q.x) * (p.y + q.y) + (p.z - q.z) * (p.w + q.w) +
        (p.w - q.w) * (p.z + q.z)) ^ 2 +
      ((p.z - q.z) * (p.x + q.x) + (p.x - q.x) * (p.z + q.z) + (p.y - q.y) * (p.w + q.w) +
        (p.w - q.w) * (p.y + q.y)) ^ 2 +
      ((p.z - q.z) * (p.x + q.x) + (p.x - q.x) * (p.z + q.z) + -(p.y - q.y) * (p.w + q.w) +
        -(p.w - q.w) * (p.y + q.y)) ^ 2 +
      ((p.z - q.z) * (p.y + q.y) + (p.y - q.y) * (p.z + q.z) + -(p.x - q.x) * (p.w + q.w) +
        -(p.w - q.w) * (p.x + q.x)) ^ 2 +
      ((p.z - q.z) * (p.y + q.y) + (p.y - q.y) * (p.z + q.z) + (p.x - q.x) * (p.w + q.w) +
        (p.w - q.w) * (p.x + q.x)) ^ 2 := by
    simp only [Fin.sum_univ_three, Matrix.sub_apply, Quat.toMatrix, Matrix.of_apply, Matrix.cons_val,
      Matrix.cons_val_zero, Matrix.cons_val_one]
    ring
  rw [e]
  have : (5 * (d * s)) ^ 2 = 25 * (d ^ 2 * s ^ 2) := by ring
  rw [this]
  have : 0 ≤ d ^ 2 * s ^ 2 := by positivity
  linarith

/-- Conversion of a quaternion to a matrix. -/
theorem conv_near {q q' : Quat} {M : M3} {A : ℝ} (hq : q.IsUnit) (hA : 1 ≤ A)
    (hw : len (coeffs q' - coeffs q) ≤ A - 1) (h : FlToMatrix F q' M) :
    1 ≤ convFactor F.u A ∧ (q.toMatrix)ᵀ * q.toMatrix = 1 ∧
      frob (M - q.toMatrix) ≤ convFactor F.u A - 1 := by
  have hn : len (coeffs q') ≤ A := by
    have := len_near (B := A) (S := 1) (len_unit hq).le (by simpa using hw)
    simpa using this
  have g4 := growth_nonneg F 4
  have t1 := toMatrix_err h hn hA
  have t2 := toMatrix_sub q' q hw ((len_add_le _ _).trans (add_le_add hn (len_unit hq).le))
  have A2 : 1 ≤ A ^ 2 := one_le_pow₀ hA
  refine ⟨?_, (Quat.toMatrix_isRotation hq).transpose_mul_self, ?_⟩
  · unfold convFactor
    nlinarith
  · have e : M - q.toMatrix = (M - q'.toMatrix) + (q'.toMatrix - q.toMatrix) := by abel
    rw [e]
    refine (frob_add_le _ _).trans ((add_le_add t1 t2).trans (le_of_eq ?_))
    unfold convFactor
    ring

end WG.Round
