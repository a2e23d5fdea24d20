import Verif.Lemmas.Rounding

/-! # Rounding errors of quaternion products and rotations -/

namespace WG.Round
open Matrix Spec

variable {F : Fl}

theorem four_le (v w : Fin 4 → ℝ) {p q : ℝ} (hp : 0 ≤ p) (hq : 0 ≤ q)
    (h1 : v 0 ^ 2 + v 1 ^ 2 + v 2 ^ 2 + v 3 ^ 2 = p ^ 2)
    (h2 : w 0 ^ 2 + w 1 ^ 2 + w 2 ^ 2 + w 3 ^ 2 = q ^ 2) :
    |v 0 * w 0| + |v 1 * w 1| + |v 2 * w 2| + |v 3 * w 3| ≤ p * q := by
  have h := sum_abs_mul_le v w
  rw [Fin.sum_univ_four] at h
  have e1 : len v = p := by
    refine (pow_left_inj₀ (len_nonneg _) hp two_ne_zero).mp ?_
    rw [len_sq, Fin.sum_univ_four, h1]
  have e2 : len w = q := by
    refine (pow_left_inj₀ (len_nonneg _) hq two_ne_zero).mp ?_
    rw [len_sq, Fin.sum_univ_four, h2]
  rwa [e1, e2] at h

theorem len_four_le {v : Fin 4 → ℝ} {c : ℝ} (hc : 0 ≤ c) (h : ∀ i, |v i| ≤ c) : len v ≤ 2 * c := by
  refine len_le_of_sq (by linarith) ?_
  rw [Fin.sum_univ_four]
  have : ∀ i, v i ^ 2 ≤ c ^ 2 := fun i => by
    rw [← sq_abs]
    exact pow_le_pow_left₀ (abs_nonneg _) (h i) 2
  nlinarith [this 0, this 1, this 2, this 3]

theorem quatMul_err {a b c : Quat} (h : FlQuatMul F a b c) :
    len (coeffs c - coeffs (a.mul b)) ≤ 2 * (growth F.u 4 * (len (coeffs a) * len (coeffs b))) := by
  have g := growth_nonneg F 4
  have pa := len_nonneg (coeffs a)
  have pb := len_nonneg (coeffs b)
  have sa := len_coeffs_sq a
  have sb := len_coeffs_sq b
  refine len_four_le (mul_nonneg g (mul_nonneg pa pb)) fun i => ?_
  have hw := flSum_err h.w
  have hx := flSum_err h.x
  have hy := flSum_err h.y
  have hz := flSum_err h.z
  simp only [sumOf, absOf, List.map_cons, List.map_nil, List.sum_cons, List.sum_nil,
    List.length_cons, List.length_nil, zero_add, add_zero, Nat.reduceAdd] at hw hx hy hz
  fin_cases i
  · refine le_trans (le_of_eq ?_) (hw.trans (mul_le_mul_of_nonneg_left ?_ g))
    · congr 1
      simp [coeffs, Quat.mul]
      ring
    · have := four_le ![a.w, -a.x, -a.y, -a.z] ![b.w, b.x, b.y, b.z] pa pb (by simp [sa]) (by simp [sb])
      simp at this ⊢
      linarith
  · refine le_trans (le_of_eq ?_) (hx.trans (mul_le_mul_of_nonneg_left ?_ g))
    · congr 1
      simp [coeffs, Quat.mul]
      ring
    · have := four_le ![a.w, a.x, a.y, -a.z] ![b.x, b.w, b.z, b.y] pa pb (by simp [sa])
        (by simp [sb]; ring)
      simp at this ⊢
      linarith
  · refine le_trans (le_of_eq ?_) (hy.trans (mul_le_mul_of_nonneg_left ?_ g))
    · congr 1
      simp [coeffs, Quat.mul]
      ring
    · have := four_le ![a.w, a.y, a.z, -a.x] ![b.y, b.w, b.x, b.z] pa pb (by simp [sa]; ring)
        (by simp [sb]; ring)
      simp at this ⊢
      linarith
  · refine le_trans (le_of_eq ?_) (hz.trans (mul_le_mul_of_nonneg_left ?_ g))
    · congr 1
      simp [coeffs, Quat.mul]
      ring
    · have := four_le ![a.w, a.z, a.x, -a.y] ![b.z, b.w, b.y, b.x] pa pb (by simp [sa]; ring)
        (by simp [sb]; ring)
      simp at this ⊢
      linarith

/-- Difference of quaternions, as a quaternion. -/
def qsub (a b : Quat) : Quat := ⟨a.w - b.w, a.x - b.x, a.y - b.y, a.z - b.z⟩

theorem coeffs_qsub (a b : Quat) : coeffs (qsub a b) = coeffs a - coeffs b := by
  funext i
  fin_cases i <;> rfl

theorem composeQ_near {p q p' q' c : Quat} {A B : ℝ} (hp : len (coeffs p) = 1)
    (hq : len (coeffs q) = 1) (hA : 1 ≤ A) (hB : 1 ≤ B) (h1 : len (coeffs p' - coeffs p) ≤ A - 1)
    (h2 : len (coeffs q' - coeffs q) ≤ B - 1) (h : FlQuatMul F p' q' c) :
    len (coeffs c - coeffs (p.mul q)) ≤ A * B * (1 + 2 * growth F.u 4) - 1 := by
  have hp' : len (coeffs p') ≤ A := by
    have := len_near (B := A) (S := 1) hp.le (by simpa using h1)
    simpa using this
  have hq' : len (coeffs q') ≤ B := by
    have := len_near (B := B) (S := 1) hq.le (by simpa using h2)
    simpa using this
  have e : coeffs c - coeffs (p.mul q) = (coeffs c - coeffs (p'.mul q')) +
      (coeffs ((qsub p' p).mul (qsub q' q)) +
        (coeffs ((qsub p' p).mul q) + coeffs (p.mul (qsub q' q)))) := by
    funext i
    fin_cases i <;> simp [coeffs, Quat.mul, qsub] <;> ring
  have t1 := (quatMul_err h).trans (mul_le_mul_of_nonneg_left (mul_le_mul_of_nonneg_left
    (mul_le_mul hp' hq' (len_nonneg _) (by linarith)) (growth_nonneg F 4)) zero_le_two)
  have t2 : len (coeffs ((qsub p' p).mul (qsub q' q))) ≤ (A - 1) * (B - 1) := by
    rw [len_mul, coeffs_qsub, coeffs_qsub]
    exact mul_le_mul h1 h2 (len_nonneg _) (by linarith)
  have t3 : len (coeffs ((qsub p' p).mul q)) ≤ A - 1 := by
    rwa [len_mul, hq, mul_one, coeffs_qsub]
  have t4 : len (coeffs (p.mul (qsub q' q))) ≤ B - 1 := by
    rwa [len_mul, hp, one_mul, coeffs_qsub]
  rw [e]
  refine (len_add_le _ _).trans ((add_le_add t1 ((len_add_le _ _).trans (add_le_add t2
    ((len_add_le _ _).trans (add_le_add t3 t4))))).trans (le_of_eq ?_))
  ring

/-! ## Rotation of a vector -/

theorem sumOf_cross (a b : V3) (i : Fin 3) : sumOf (crossTerms a b i) = cross a b i := by
  fin_cases i <;> simp [sumOf, crossTerms, cross] <;> ring

theorem length_cross (a b : V3) (i : Fin 3) : (crossTerms a b i).length = 2 := by
  fin_cases i <;> rfl

/-- The cross product with all signs positive. -/
def absCross (a b : V3) : V3 := fun i => absOf (crossTerms a b i)

theorem len_absCross_le (a b : V3) : len (absCross a b) ≤ √2 * (len a * len b) := by
  refine len_le_of_sq (by have := len_nonneg a; have := len_nonneg b; positivity) ?_
  rw [mul_pow, Real.sq_sqrt (by norm_num), mul_pow, len_sq, len_sq]
  simp only [Fin.sum_univ_three, absCross, crossTerms, absOf, Matrix.cons_val_zero,
    Matrix.cons_val_one, Matrix.cons_val, List.map_cons, List.map_nil, List.sum_cons, List.sum_nil,
    add_zero, neg_mul, abs_neg, abs_mul]
  rw [← sq_abs (a 0), ← sq_abs (a 1), ← sq_abs (a 2), ← sq_abs (b 0), ← sq_abs (b 1), ← sq_abs (b 2)]
  generalize |a 0| = x, |a 1| = y, |a 2| = z, |b 0| = r, |b 1| = s, |b 2| = t
  nlinarith [sq_nonneg (y * s - z * t), sq_nonneg (z * t - x * r), sq_nonneg (x * r - y * s),
    sq_nonneg (x * r), sq_nonneg (y * s), sq_nonneg (z * t)]

theorem len_vec_le (q : Quat) : len q.vec ≤ len (coeffs q) := by
  refine abs_le_of_sq_le_sq' ?_ (len_nonneg _) |>.2
  rw [len_vec_sq, len_coeffs_sq]
  nlinarith [sq_nonneg q.w]

theorem w_vec_le (q : Quat) : |q.w| + len q.vec ≤ √2 * len (coeffs q) := by
  refine abs_le_of_sq_le_sq' ?_ (by have := len_nonneg (coeffs q); positivity) |>.2
  rw [mul_pow, Real.sq_sqrt (by norm_num), len_coeffs_sq]
  have := len_vec_sq q
  have := sq_abs q.w
  nlinarith [sq_nonneg (|q.w| - len q.vec)]

theorem sqrt2_le : √2 ≤ 3 / 2 := by
  rw [Real.sqrt_le_left (by norm_num)]
  norm_num

theorem sqrt2_sq : √2 * √2 = 2 := Real.mul_self_sqrt (by norm_num)

theorem cross_sub (a b c : V3) : cross a (b - c) = cross a b - cross a c := by
  rw [← crossMatrix_mulVec, ← crossMatrix_mulVec, ← crossMatrix_mulVec, Matrix.mulVec_sub]

/-- Rounding errors of Eigen's rotation of a vector by a quaternion. -/
theorem quatRotate_err {q : Quat} {v z : V3} (h : FlQuatRotate F q v z) {n : ℝ}
    (hn : len (coeffs q) ≤ n) (h1 : 1 ≤ n) :
    len (z - q.rotate v) ≤ 7 * growth F.u 7 * (n ^ 2 * len v) := by
  obtain ⟨c, uv, hc, huv, hz⟩ := h
  have u0 := u_nonneg F
  have g3 := growth_nonneg F 3
  have g4 := growth_nonneg F 4
  have nv := len_nonneg v
  have nx := len_nonneg q.vec
  have hx : len q.vec ≤ n := (len_vec_le q).trans hn
  -- the doubled cross product
  have e1 : ∀ i, |uv i - 2 * cross q.vec v i| ≤ growth F.u 3 * (2 * absCross q.vec v i) := by
    intro i
    have h2 := flSum_err (hc i)
    rw [sumOf_cross, length_cross] at h2
    change |c i - cross q.vec v i| ≤ growth F.u 2 * absCross q.vec v i at h2
    have h3 := F.err (c i + c i)
    rw [← huv] at h3
    have h4 : |cross q.vec v i| ≤ absCross q.vec v i := by
      rw [← sumOf_cross]
      exact abs_sumOf_le _
    have h5 : |c i| ≤ (1 + growth F.u 2) * absCross q.vec v i := by
      have := abs_add_le (c i - cross q.vec v i) (cross q.vec v i)
      rw [sub_add_cancel] at this
      linarith
    have h6 : |c i + c i| = 2 * |c i| := by rw [← two_mul, abs_mul, abs_two]
    rw [h6] at h3
    have h7 : |uv i - 2 * cross q.vec v i| ≤
        |uv i - (c i + c i)| + 2 * |c i - cross q.vec v i| := by
      have := abs_add_le (uv i - (c i + c i)) (2 * (c i - cross q.vec v i))
      rw [abs_mul, abs_two] at this
      refine le_trans (le_of_eq ?_) this
      congr 1
      ring
    refine h7.trans ((add_le_add h3 (mul_le_mul_of_nonneg_left h2 zero_le_two)).trans ?_)
    have h8 := mul_le_mul_of_nonneg_left (mul_le_mul_of_nonneg_left h5 zero_le_two) u0
    refine (add_le_add h8 le_rfl).trans (le_of_eq ?_)
    unfold growth
    ring
  have L := len_absCross_le q.vec v
  have s2 := sqrt2_le
  have s20 : 0 ≤ √2 := Real.sqrt_nonneg 2
  have P : len q.vec * len v ≤ n * len v := mul_le_mul_of_nonneg_right hx nv
  have P0 : 0 ≤ len q.vec * len v := mul_nonneg nx nv
  have d : len (uv - (2 : ℝ) • cross q.vec v) ≤ growth F.u 3 * (2 * (√2 * (n * len v))) := by
    have : len (uv - (2 : ℝ) • cross q.vec v) ≤ len ((growth F.u 3 * 2) • absCross q.vec v) := by
      refine len_mono fun i => ?_
      refine le_trans (e1 i) (le_trans (le_of_eq ?_) (le_abs_self _))
      rw [Pi.smul_apply, smul_eq_mul]
      ring
    rw [len_smul, abs_of_nonneg (by positivity)] at this
    refine this.trans ?_
    rw [mul_assoc]
    exact mul_le_mul_of_nonneg_left (mul_le_mul_of_nonneg_left (L.trans
      (mul_le_mul_of_nonneg_left P s20)) zero_le_two) g3
  have duv : len uv ≤ (1 + growth F.u 3) * (2 * (√2 * (n * len v))) := by
    have a1 : len ((2 : ℝ) • cross q.vec v) ≤ 2 * (√2 * (n * len v)) := by
      rw [len_smul, abs_two]
      refine mul_le_mul_of_nonneg_left ((len_cross_le _ _).trans (P.trans ?_)) zero_le_two
      have : 1 ≤ √2 := by rw [Real.one_le_sqrt]; norm_num
      nlinarith [mul_nonneg (zero_le_one.trans h1) nv]
    have a2 := len_add_le (uv - (2 : ℝ) • cross q.vec v) ((2 : ℝ) • cross q.vec v)
    rw [sub_add_cancel] at a2
    linarith
  -- the last sum
  have e2 : ∀ i, |z i - (v i + (q.w * uv i + cross q.vec uv i))| ≤
      growth F.u 4 * (|v i| + (|q.w * uv i| + absCross q.vec uv i)) := by
    intro i
    have h2 := flSum_err (hz i)
    have a1 : sumOf ((v i, 1) :: (q.w, uv i) :: crossTerms q.vec uv i) =
        v i + (q.w * uv i + cross q.vec uv i) := by
      rw [← sumOf_cross]
      simp [sumOf]
    have a2 : absOf ((v i, 1) :: (q.w, uv i) :: crossTerms q.vec uv i) =
        |v i| + (|q.w * uv i| + absCross q.vec uv i) := by
      simp [absOf, absCross]
    rw [a1, a2, List.length_cons, List.length_cons, length_cross] at h2
    exact h2
  have b1 : len (z - (v + (q.w • uv + cross q.vec uv))) ≤
      growth F.u 4 * (len v + 2 * (n * len uv)) := by
    have : len (z - (v + (q.w • uv + cross q.vec uv))) ≤
        len (growth F.u 4 • ((fun i => |v i|) + ((fun i => |(q.w • uv) i|) + absCross q.vec uv))) := by
      refine len_mono fun i => ?_
      exact (e2 i).trans (le_abs_self _)
    refine this.trans ?_
    rw [len_smul, abs_of_nonneg g4]
    refine mul_le_mul_of_nonneg_left ((len_add_le _ _).trans (add_le_add (len_abs v).le
      ((len_add_le _ _).trans ?_))) g4
    rw [len_abs, len_smul]
    have L2 := len_absCross_le q.vec uv
    have nuv := len_nonneg uv
    have c1 : |q.w| + √2 * len q.vec ≤ 2 * n := by
      refine abs_le_of_sq_le_sq' ?_ (by linarith) |>.2
      have q1 := len_coeffs_sq q
      have q2 := len_vec_sq q
      have q3 := sq_abs q.w
      have q4 : len (coeffs q) ^ 2 ≤ n ^ 2 := pow_le_pow_left₀ (len_nonneg _) hn 2
      have q5 := sqrt2_sq
      nlinarith [sq_nonneg (√2 * |q.w| - len q.vec)]
    nlinarith [mul_le_mul_of_nonneg_right c1 nuv]
  -- from the rounded to the exact doubled cross product
  have b2 : len (q.w • uv + cross q.vec uv -
      (q.w • ((2 : ℝ) • cross q.vec v) + cross q.vec ((2 : ℝ) • cross q.vec v))) ≤
      √2 * n * len (uv - (2 : ℝ) • cross q.vec v) := by
    have : q.w • uv + cross q.vec uv -
      (q.w • ((2 : ℝ) • cross q.vec v) + cross q.vec ((2 : ℝ) • cross q.vec v)) =
      q.w • (uv - (2 : ℝ) • cross q.vec v) + cross q.vec (uv - (2 : ℝ) • cross q.vec v) := by
      rw [smul_sub, cross_sub]
      abel
    rw [this]
    refine (len_add_le _ _).trans ((add_le_add (len_smul _ _).le (len_cross_le _ _)).trans ?_)
    rw [← add_mul]
    refine mul_le_mul_of_nonneg_right ((w_vec_le q).trans ?_) (len_nonneg _)
    exact mul_le_mul_of_nonneg_left hn s20
  have b3 : len (z - q.rotate v) ≤ growth F.u 4 * (len v + 2 * (n * len uv)) +
      √2 * n * len (uv - (2 : ℝ) • cross q.vec v) := by
    have : z - q.rotate v = (z - (v + (q.w • uv + cross q.vec uv))) +
      (q.w • uv + cross q.vec uv -
        (q.w • ((2 : ℝ) • cross q.vec v) + cross q.vec ((2 : ℝ) • cross q.vec v))) := by
      unfold Quat.rotate
      simp only
      abel
    rw [this]
    exact (len_add_le _ _).trans (add_le_add b1 b2)
  refine b3.trans ?_
  have s2' := sqrt2_sq
  have m1 : √2 * n * len (uv - (2 : ℝ) • cross q.vec v) ≤ 4 * growth F.u 3 * (n ^ 2 * len v) := by
    have := mul_le_mul_of_nonneg_left d (mul_nonneg s20 (zero_le_one.trans h1))
    refine this.trans (le_of_eq ?_)
    linear_combination (2 * n ^ 2 * growth F.u 3 * len v) * s2'
  have m2 : len v + 2 * (n * len uv) ≤ (1 + 6 * (1 + growth F.u 3)) * (n ^ 2 * len v) := by
    have w1 : len v ≤ n ^ 2 * len v := by nlinarith [mul_nonneg (by nlinarith : 0 ≤ n ^ 2 - 1) nv]
    have w2 : n * len uv ≤ (1 + growth F.u 3) * (3 * (n ^ 2 * len v)) := by
      have := mul_le_mul_of_nonneg_left duv (zero_le_one.trans h1)
      refine this.trans ?_
      have k : 0 ≤ (1 + growth F.u 3) * (n ^ 2 * len v) := by positivity
      nlinarith [mul_le_mul_of_nonneg_left s2 k]
    linarith
  have N : 0 ≤ n ^ 2 * len v := by positivity
  have m3 := mul_le_mul_of_nonneg_left m2 g4
  have g7 : growth F.u 4 * (1 + growth F.u 3) = growth F.u 7 - growth F.u 3 := by
    unfold growth
    ring
  have g47 : growth F.u 4 ≤ growth F.u 7 := growth_mono F (by norm_num)
  have m4 : growth F.u 4 * ((1 + 6 * (1 + growth F.u 3)) * (n ^ 2 * len v)) =
      (growth F.u 4 + 6 * (growth F.u 7 - growth F.u 3)) * (n ^ 2 * len v) := by
    rw [← g7]
    ring
  rw [m4] at m3
  refine (add_le_add m3 m1).trans ?_
  rw [← add_mul]
  refine mul_le_mul_of_nonneg_right ?_ N
  linarith

/-- The quadratic part of the rotation of a vector, made bilinear. -/
def quadPart (p r : Quat) (v : V3) : V3 := (2 : ℝ) • (p.w • cross r.vec v + cross p.vec (cross r.vec v))

theorem len_quadPart_le (p r : Quat) (v : V3) :
    len (quadPart p r v) ≤ 3 * (len (coeffs p) * len (coeffs r) * len v) := by
  unfold quadPart
  rw [len_smul, abs_two]
  have h1 : len (p.w • cross r.vec v + cross p.vec (cross r.vec v)) ≤
      (|p.w| + len p.vec) * len (cross r.vec v) := by
    rw [add_mul]
    exact (len_add_le _ _).trans (add_le_add (len_smul _ _).le (len_cross_le _ _))
  have h2 : len (cross r.vec v) ≤ len (coeffs r) * len v :=
    (len_cross_le _ _).trans (mul_le_mul_of_nonneg_right (len_vec_le r) (len_nonneg v))
  have h3 : |p.w| + len p.vec ≤ 3 / 2 * len (coeffs p) :=
    (w_vec_le p).trans (mul_le_mul_of_nonneg_right sqrt2_le (len_nonneg _))
  have h4 := mul_le_mul h3 h2 (len_nonneg _) (by have := len_nonneg (coeffs p); positivity)
  linarith

theorem rotate_sub (p q : Quat) (v : V3) :
    p.rotate v - q.rotate v = quadPart (qsub p q) p v + quadPart q (qsub p q) v := by
  funext i
  fin_cases i <;> simp [Quat.rotate, quadPart, qsub, cross, Quat.vec] <;> ring

theorem rotateQ_near {q q' : Quat} {v v' w : V3} {A B S : ℝ} (hq : len (coeffs q) = 1) (hA : 1 ≤ A)
    (hB : 1 ≤ B) (hv : len v ≤ S) (h1 : len (coeffs q' - coeffs q) ≤ A - 1)
    (h2 : len (v' - v) ≤ (B - 1) * S) (h : FlQuatRotate F q' v' w)
    (hiso : ∀ x y : V3, len (q.rotate x - q.rotate y) = len (x - y)) :
    len (w - q.rotate v) ≤ (A ^ 6 * B * (1 + 7 * growth F.u 7) - 1) * S := by
  have hS : 0 ≤ S := (len_nonneg v).trans hv
  have hv' := len_near hv h2
  have g7 := growth_nonneg F 7
  have hq' : len (coeffs q') ≤ A := by
    have := len_near (B := A) (S := 1) hq.le (by simpa using h1)
    simpa using this
  have t1 := quatRotate_err h hq' hA
  have t2 : len (q'.rotate v' - q.rotate v') ≤ 3 * ((A ^ 2 - 1) * len v') := by
    rw [rotate_sub]
    have a1 := len_quadPart_le (qsub q' q) q' v'
    have a2 := len_quadPart_le q (qsub q' q) v'
    rw [coeffs_qsub] at a1 a2
    rw [hq] at a2
    have n0 := len_nonneg v'
    have a3 : len (coeffs q' - coeffs q) * len (coeffs q') ≤ (A - 1) * A :=
      mul_le_mul h1 hq' (len_nonneg _) (by linarith)
    have a4 := mul_le_mul_of_nonneg_right a3 n0
    have a5 := mul_le_mul_of_nonneg_right h1 n0
    refine (len_add_le _ _).trans ((add_le_add a1 a2).trans ?_)
    nlinarith
  have t3 : len (q.rotate v' - q.rotate v) ≤ (B - 1) * S := by rwa [hiso]
  have e : w - q.rotate v = (w - q'.rotate v') + ((q'.rotate v' - q.rotate v') +
      (q.rotate v' - q.rotate v)) := by abel
  rw [e]
  refine (len_add_le _ _).trans ((add_le_add t1 ((len_add_le _ _).trans (add_le_add t2 t3))).trans ?_)
  have A2 : 1 ≤ A ^ 2 := one_le_pow₀ hA
  have c1 : 7 * growth F.u 7 * (A ^ 2 * len v') ≤ 7 * growth F.u 7 * (A ^ 2 * (B * S)) := by gcongr
  have c2 : 3 * ((A ^ 2 - 1) * len v') ≤ 3 * ((A ^ 2 - 1) * (B * S)) := by
    have : 0 ≤ A ^ 2 - 1 := by linarith
    gcongr
  have BS : 0 ≤ B * S := by positivity
  have c3 : 7 * growth F.u 7 * A ^ 2 + 3 * (A ^ 2 - 1) + 1 ≤ A ^ 6 * (1 + 7 * growth F.u 7) := by
    have k1 : A ^ 2 ≤ A ^ 6 := pow_le_pow_right₀ hA (by norm_num)
    have k2 : 3 * (A ^ 2 - 1) + 1 ≤ A ^ 6 := by
      have : A ^ 6 = (A ^ 2) ^ 3 := by ring
      rw [this]
      nlinarith [mul_nonneg (sq_nonneg (A ^ 2 - 1)) (by linarith : 0 ≤ A ^ 2 + 2)]
    nlinarith [mul_le_mul_of_nonneg_right k1 g7]
  nlinarith [mul_le_mul_of_nonneg_right c3 BS]

end WG.Round
