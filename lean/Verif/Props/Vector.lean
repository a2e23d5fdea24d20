import Verif.Props.Evaluation

/-!
# C12, C13: vector and affine laws
-/

namespace WG
open Matrix Spec

variable {ε : ℝ} {s : Memory} {e f g h : SExpr}

/-- **C12.** Additive laws, for vectors of every class: commutativity, associativity,
`(a + b) - b = a`, `a - b = a + (-b)`, `-(-a) = a`, `a - a = 0`. -/
theorem c12_additive (hε : 0 < ε) {k : VK} {x y z : k.Idx → ℝ} (he : Means ε s e (.vec k x))
    (hf : Means ε s f (.vec k y)) (hg : Means ε s g (.vec k z)) :
    (Yields ε s (e + f) (.vec k fun i => x i + y i) ∧ Yields ε s (f + e) (.vec k fun i => x i + y i)) ∧
      (Yields ε s (e + f + g) (.vec k fun i => x i + y i + z i) ∧
        Yields ε s (e + (f + g)) (.vec k fun i => x i + y i + z i)) ∧
      Yields ε s (e + f - f) (.vec k x) ∧
      (Yields ε s (e - f) (.vec k fun i => x i - y i) ∧ Yields ε s (e + -f) (.vec k fun i => x i - y i)) ∧
      Yields ε s (- -e) (.vec k x) ∧ Yields ε s (e - e) (.vec k 0) := by
  refine ⟨⟨c01_evaluation_meaning hε (.addVec he hf), ?_⟩,
    ⟨c01_evaluation_meaning hε (.addVec (.addVec he hf) hg), ?_⟩, ?_,
    ⟨c01_evaluation_meaning hε (.subVec he hf), ?_⟩, ?_, ?_⟩
  · have := c01_evaluation_meaning hε (.addVec hf he)
    rwa [add_comm] at this
  · have := c01_evaluation_meaning hε (.addVec he (.addVec hf hg))
    rwa [← add_assoc] at this
  · have := c01_evaluation_meaning hε (.subVec (.addVec he hf) hf)
    rwa [add_sub_cancel_right] at this
  · have := c01_evaluation_meaning hε (.addVec he (.neg hf))
    rwa [← sub_eq_add_neg] at this
  · have := c01_evaluation_meaning hε (.neg (.neg he))
    rwa [neg_neg] at this
  · have := c01_evaluation_meaning hε (.subVec he he)
    rwa [sub_self] at this

example := c12_additive dblEps_pos (demo_means (.vec .twist)) (.neg (demo_means (.vec .twist)))
  (demo_means (.vec .twist))

/-- **C12.** Scaling laws: scaling on the left and on the right agree, scaling distributes over sums of
vectors and of scalars, scalings compose. -/
theorem c12_scaling (hε : 0 < ε) {k : VK} {x y : k.Idx → ℝ} {a b : Fin 1 → ℝ}
    (he : Means ε s e (.vec k x)) (hf : Means ε s f (.vec k y))
    (hg : Means ε s g (.vec .scalar a)) (hh : Means ε s h (.vec .scalar b)) :
    (Yields ε s (g * e) (.vec k fun i => a 0 * x i) ∧ Yields ε s (e * g) (.vec k fun i => a 0 * x i)) ∧
      (Yields ε s (g * (e + f)) (.vec k fun i => a 0 * x i + a 0 * y i) ∧
        Yields ε s (g * e + g * f) (.vec k fun i => a 0 * x i + a 0 * y i)) ∧
      (Yields ε s ((g + h) * e) (.vec k fun i => (a 0 + b 0) * x i) ∧
        Yields ε s (g * e + h * e) (.vec k fun i => (a 0 + b 0) * x i)) ∧
      (Yields ε s (g * h * e) (.vec k fun i => a 0 * b 0 * x i) ∧
        Yields ε s (g * (h * e)) (.vec k fun i => a 0 * b 0 * x i)) := by
  refine ⟨⟨c01_evaluation_meaning hε (.mulScalarVec hg he),
    c01_evaluation_meaning hε (.mulVecScalar he hg)⟩, ⟨?_, ?_⟩, ⟨?_, ?_⟩, ⟨?_, ?_⟩⟩
  · have := c01_evaluation_meaning hε (.mulScalarVec hg (.addVec he hf))
    rwa [smul_add] at this
  · exact c01_evaluation_meaning hε (.addVec (.mulScalarVec hg he) (.mulScalarVec hg hf))
  · exact c01_evaluation_meaning hε (.mulScalarVec (.addVec hg hh) he)
  · have := c01_evaluation_meaning hε (.addVec (.mulScalarVec hg he) (.mulScalarVec hh he))
    rwa [← add_smul] at this
  · exact c01_evaluation_meaning hε (.mulScalarVec (.mulScalarVec hg hh) he)
  · have := c01_evaluation_meaning hε (.mulScalarVec hg (.mulScalarVec hh he))
    rwa [smul_smul] at this

example := c12_scaling dblEps_pos (demo_means (.vec .relrot)) (demo_means (.vec .relrot))
  (demo_means (.vec .scalar)) (.neg (demo_means (.vec .scalar)))

/-- **C12.** Division undoes scaling by a nonzero scalar, and `v / s` is the vector `w` with
`s w = v`. -/
theorem c12_division (hε : 0 < ε) {k : VK} {x : k.Idx → ℝ} {a : Fin 1 → ℝ}
    (he : Means ε s e (.vec k x)) (hg : Means ε s g (.vec .scalar a)) (ha : a 0 ≠ 0) :
    Yields ε s (g * e / g) (.vec k x) ∧ Yields ε s (g * (e / g)) (.vec k x) ∧
      Yields ε s (e / g) (.vec k fun i => x i / a 0) := by
  refine ⟨?_, ?_, ?_⟩
  · have := c01_evaluation_meaning hε (.divVec (.mulScalarVec hg he) hg ha)
    rwa [smul_smul, inv_mul_cancel₀ ha, one_smul] at this
  · have := c01_evaluation_meaning hε (.mulScalarVec hg (.divVec he hg ha))
    rwa [smul_smul, mul_inv_cancel₀ ha, one_smul] at this
  · have := c01_evaluation_meaning hε (.divVec he hg ha)
    rwa [show (a 0)⁻¹ • x = fun i => x i / a 0 from
      funext fun i => by simp [div_eq_inv_mul]] at this

example := c12_division dblEps_pos (demo_means (.vec .trans)) (demo_means (.vec .scalar)) one_ne_zero

/-- **C12.** Inner product and norms: `v.squaredNorm() = v.dot(v)`, the dot product is symmetric and
bilinear, the norm is the nonnegative root of the squared norm, `|s v| = |s||v|`, and the norm vanishes
only on the zero vector. -/
theorem c12_inner (hε : 0 < ε) {k : VK} {x y z : k.Idx → ℝ} {a : Fin 1 → ℝ}
    (he : Means ε s e (.vec k x)) (hf : Means ε s f (.vec k y)) (hg : Means ε s g (.vec k z))
    (hh : Means ε s h (.vec .scalar a)) (hk : k ≠ .scalar) :
    (Yields ε s (.un .squaredNorm e) (.vec .scalar fun _ => ∑ i, x i * x i) ∧
        Yields ε s (.bin .dot e e) (.vec .scalar fun _ => ∑ i, x i * x i)) ∧
      (Yields ε s (.bin .dot e f) (.vec .scalar fun _ => ∑ i, x i * y i) ∧
        Yields ε s (.bin .dot f e) (.vec .scalar fun _ => ∑ i, x i * y i)) ∧
      (Yields ε s (.bin .dot (h * e + f) g) (.vec .scalar fun _ => a 0 * (∑ i, x i * z i) + ∑ i, y i * z i) ∧
        Yields ε s (h * .bin .dot e g + .bin .dot f g)
          (.vec .scalar fun _ => a 0 * (∑ i, x i * z i) + ∑ i, y i * z i)) ∧
      (∃ n : ℝ, 0 ≤ n ∧ n ^ 2 = ∑ i, x i * x i ∧ (n = 0 ↔ x = 0) ∧
        Yields ε s (.un .norm e) (.vec .scalar fun _ => n) ∧
        Yields ε s (.un .norm (h * e)) (.vec .scalar fun _ => |a 0| * n)) := by
  refine ⟨⟨c01_evaluation_meaning hε (.squaredNorm he hk), c01_evaluation_meaning hε (.dot he he hk)⟩,
    ⟨c01_evaluation_meaning hε (.dot he hf hk), ?_⟩, ⟨?_, ?_⟩, √(x ⬝ᵥ x), Real.sqrt_nonneg _, ?_, ?_,
    c01_evaluation_meaning hε (.norm he hk), ?_⟩
  · have := c01_evaluation_meaning hε (.dot hf he hk)
    rwa [dotProduct_comm] at this
  · have := c01_evaluation_meaning hε (.dot (.addVec (.mulScalarVec hh he) hf) hg hk)
    rwa [add_dotProduct, smul_dotProduct] at this
  · exact c01_evaluation_meaning hε (.addVec (.mulScalarVec hh (.dot he hg hk)) (.dot hf hg hk))
  · exact Real.sq_sqrt (Finset.sum_nonneg fun i _ => mul_self_nonneg _)
  · rw [Real.sqrt_eq_zero (dot_self_nonneg x)]
    exact dotProduct_self_eq_zero
  · have := c01_evaluation_meaning hε (.norm (.mulScalarVec hh he) hk)
    rwa [smul_dotProduct, dotProduct_smul, smul_smul, smul_eq_mul, Real.sqrt_mul (mul_self_nonneg _),
      Real.sqrt_mul_self_eq_abs] at this

example := c12_inner dblEps_pos (demo_means (.vec .twist)) (.neg (demo_means (.vec .twist)))
  (demo_means (.vec .twist)) (demo_means (.vec .scalar)) (by decide)

/-- **C12.** Cauchy-Schwarz for the values the library returns: `dot(a, b)` is at most
`a.norm() * b.norm()` in absolute value. -/
theorem c12_cauchy_schwarz (hε : 0 < ε) {k : VK} {x y : k.Idx → ℝ} (he : Means ε s e (.vec k x))
    (hf : Means ε s f (.vec k y)) (hk : k ≠ .scalar) :
    ∃ d n : ℝ, Yields ε s (.bin .dot e f) (.vec .scalar fun _ => d) ∧
      Yields ε s (.un .norm e * .un .norm f) (.vec .scalar fun _ => n) ∧ |d| ≤ n := by
  refine ⟨x ⬝ᵥ y, √(x ⬝ᵥ x) * √(y ⬝ᵥ y), c01_evaluation_meaning hε (.dot he hf hk),
    c01_evaluation_meaning hε (.mulScalarVec (.norm he hk) (.norm hf hk)), ?_⟩
  rw [← Real.sqrt_mul (dot_self_nonneg x)]
  apply Real.abs_le_sqrt
  have := Finset.sum_mul_sq_le_sq_mul_sq Finset.univ x y
  simpa [dotProduct, sq] using this

example := c12_cauchy_schwarz dblEps_pos (demo_means (.vec .twist)) (.neg (demo_means (.vec .twist)))
  (by decide)

/-- **C12.** Normalising a nonzero vector gives a unit vector in the same direction:
`|v.normalized()| = 1` and `|v| * v.normalized() = v`. -/
theorem c12_normalize (hε : 0 < ε) {k : VK} {x : k.Idx → ℝ} (he : Means ε s e (.vec k x))
    (hx : x ≠ 0) (hk : k ≠ .scalar) :
    Yields ε s (.un .norm (.un .normalized e)) (.vec .scalar fun _ => 1) ∧
      Yields ε s (.un .norm e * .un .normalized e) (.vec k x) := by
  have h0 : 0 < x ⬝ᵥ x :=
    lt_of_le_of_ne (dot_self_nonneg x)
      (Ne.symm (mt dotProduct_self_eq_zero.mp hx))
  have hs : √(x ⬝ᵥ x) ≠ 0 := (Real.sqrt_pos.mpr h0).ne'
  constructor
  · have := c01_evaluation_meaning hε (.norm (.normalized he hk) hk)
    rwa [smul_dotProduct, dotProduct_smul, smul_smul, smul_eq_mul,
      show (√(x ⬝ᵥ x))⁻¹ * (√(x ⬝ᵥ x))⁻¹ * (x ⬝ᵥ x) = 1 by
        rw [← mul_inv, Real.mul_self_sqrt h0.le, inv_mul_cancel₀ h0.ne'], Real.sqrt_one] at this
  · have := c01_evaluation_meaning hε (.mulScalarVec (.norm he hk) (.normalized he hk))
    rwa [smul_smul, mul_inv_cancel₀ hs, one_smul] at this

/-- **C12.** Normalising the zero vector returns the zero vector (and not a unit vector). -/
theorem c12_normalize_zero (hε : 0 < ε) {k : VK} (he : Means ε s e (.vec k 0))
    (hk : k ≠ .scalar) : Yields ε s (.un .normalized e) (.vec k 0) := by
  have := c01_evaluation_meaning hε (.normalized he hk)
  rwa [smul_zero] at this

example : Yields dblEps demo (.un .normalized (lf (.vec .twist) - lf (.vec .twist))) (.vec .twist 0) := by
  have h := Means.subVec (demo_means (.vec .twist)) (demo_means (.vec .twist))
  rw [sub_self] at h
  exact c12_normalize_zero dblEps_pos h (by decide)

/-- **C12, limit.** The class `Scalar` has none of these: `s.norm()`, `s.squaredNorm()`,
`s.normalized()` and `dot(s, s)` do not compile. -/
theorem c12_scalar_norms_rejected (hε : 0 < ε) {x y : Fin 1 → ℝ} (he : Means ε s e (.vec .scalar x))
    (hf : Means ε s f (.vec .scalar y)) :
    (SExpr.un .norm e).elab ε = none ∧ (SExpr.un .squaredNorm e).elab ε = none ∧
      (SExpr.un .normalized e).elab ε = none ∧ (SExpr.bin .dot e f).elab ε = none := by
  obtain ⟨t, ht, g⟩ := means_acc hε he
  obtain ⟨u, hu, g'⟩ := means_acc hε hf
  obtain ⟨p, rfl, -⟩ := g.vec
  obtain ⟨q, rfl, -⟩ := g'.vec
  simp only [SExpr.elab, ht, hu, Option.bind_some]
  exact ⟨rfl, rfl, rfl, rfl⟩

example := c12_scalar_norms_rejected dblEps_pos (demo_means (.vec .scalar)) (demo_means (.vec .scalar))

/-- The value of an expression with a meaning, at the level of `SExpr.value`. -/
theorem value_of_means (hε : 0 < ε) {o : Obj} (he : Means ε s e o) :
    ∃ (τ : Ty) (p : Expr (geoLib ε) τ) (v : τ.Val), e.elab ε = some ⟨τ, p⟩ ∧
      p.eval (L := geoLib ε) s = some v ∧ obj τ v = o := by
  obtain ⟨τ, p, v, h1, h2, -, h4⟩ := c01_evaluation_meaning hε he
  exact ⟨τ, p, v, h1, h2, h4⟩

/-- **C12.** Dividing by zero has no finite result, for every vector expression and every scalar
expression: nothing finite is ever silently returned. -/
theorem c12_division_by_zero (hε : 0 < ε) {k : VK} {x : k.Idx → ℝ} {a : Fin 1 → ℝ}
    (he : Means ε s e (.vec k x)) (hg : Means ε s g (.vec .scalar a)) (ha : a 0 = 0) :
    (e / g).value ε s = none ∧ ∀ o, ¬ Yields ε s (e / g) o := by
  obtain ⟨τ, p, v, h1, h2, h3⟩ := value_of_means hε he
  obtain ⟨σ, q, w, g1, g2, g3⟩ := value_of_means hε hg
  obtain rfl : τ = .vec k := by
    rcases τ with k' | _ | _ | _ <;> simp only [obj, reduceCtorEq, Obj.vec.injEq] at h3
    rw [h3.1]
  obtain rfl : σ = .vec .scalar := by
    rcases σ with k' | _ | _ | _ <;> simp only [obj, reduceCtorEq, Obj.vec.injEq] at g3
    rw [g3.1]
  have hw : w (0 : Fin 1) = 0 := by
    simp only [obj, Obj.vec.injEq, heq_eq_eq, true_and] at g3
    rw [g3]; exact ha
  have hel : ∃ r : (c : Ty) × Bin (.vec k) (.vec .scalar) c, evalBin r.2 v w = none ∧
      SExpr.elab ε (e / g) = some ⟨r.1, .bin (L := geoLib ε) 0 r.2 p q⟩ := by
    have : SExpr.elab ε (e / g) = elabBin .div ⟨.vec k, p⟩ ⟨.vec .scalar, q⟩ := by
      change (e.elab ε).bind _ = _
      rw [h1]; change (g.elab ε).bind _ = _; rw [g1]; rfl
    rw [this]
    rcases k with _ | _ | _ | _
    · exact ⟨⟨_, .divide⟩, by simp [evalBin, sDivide, rdiv, hw], rfl⟩
    · exact ⟨⟨_, .scaleDiv .trans⟩, by simp [evalBin, vScaleDiv, hw], rfl⟩
    · exact ⟨⟨_, .scaleDiv .relrot⟩, by simp [evalBin, vScaleDiv, hw], rfl⟩
    · exact ⟨⟨_, .scaleDiv .twist⟩, by simp [evalBin, vScaleDiv, hw], rfl⟩
  obtain ⟨r, hr, hel⟩ := hel
  have hev : (Expr.bin (L := geoLib ε) 0 r.2 p q).eval (L := geoLib ε) s = none := by
    change ((ETree.mk (L := geoLib ε) s p).val.bind fun x => (ETree.mk (L := geoLib ε) s q).val.bind fun y => evalBin r.2 x y) = none
    change (p.eval (L := geoLib ε) s).bind _ = none
    rw [h2]
    change (q.eval (L := geoLib ε) s).bind _ = none
    rw [g2]
    exact hr
  constructor
  · unfold SExpr.value
    rw [hel]
    change ((Expr.bin (L := geoLib ε) 0 r.2 p q).eval (L := geoLib ε) s).map _ = none
    rw [hev]; rfl
  · rintro o ⟨τ', p', v', y1, y2, -, -⟩
    rw [hel] at y1
    cases y1
    rw [hev] at y2
    cases y2

/-- **C13.** Affine laws: `(p + v) - p = v`, `p + (q - p) = q`, `(p + v) + w = p + (v + w)`,
`v + p = p + v`, `p - v = p + (-v)`. -/
theorem c13_affine (hε : 0 < ε) {p q v w : V3} (he : Means ε s e (.point p))
    (hf : Means ε s f (.point q)) (hg : Means ε s g (.vec .trans v)) (hh : Means ε s h (.vec .trans w)) :
    Yields ε s (e + g - e) (.vec .trans v) ∧ Yields ε s (e + (f - e)) (.point q) ∧
      (Yields ε s (e + g + h) (.point (p + v + w)) ∧ Yields ε s (e + (g + h)) (.point (p + v + w))) ∧
      (Yields ε s (g + e) (.point (p + v)) ∧ Yields ε s (e + g) (.point (p + v))) ∧
      (Yields ε s (e - g) (.point (p - v)) ∧ Yields ε s (e + -g) (.point (p - v))) := by
  refine ⟨?_, ?_, ⟨c01_evaluation_meaning hε (.addPointVec (.addPointVec he hg) hh), ?_⟩,
    ⟨c01_evaluation_meaning hε (.addVecPoint hg he), c01_evaluation_meaning hε (.addPointVec he hg)⟩,
    ⟨c01_evaluation_meaning hε (.subPointVec he hg), ?_⟩⟩
  · have := c01_evaluation_meaning hε (.subPoint (.addPointVec he hg) he)
    rwa [add_sub_cancel_left] at this
  · have := c01_evaluation_meaning hε (.addPointVec he (.subPoint hf he))
    rwa [add_sub_cancel] at this
  · have := c01_evaluation_meaning hε (.addPointVec he (.addVec hg hh))
    rwa [← add_assoc] at this
  · have := c01_evaluation_meaning hε (.addPointVec he (.neg hg))
    rwa [← sub_eq_add_neg] at this

/-- **C13.** The difference of two points is the zero vector exactly when they are equal. -/
theorem c13_difference_zero (hε : 0 < ε) {p q : V3} (he : Means ε s e (.point p))
    (hf : Means ε s f (.point q)) : Yields ε s (e - f) (.vec .trans 0) ↔ p = q := by
  have hy := c01_evaluation_meaning hε (.subPoint he hf)
  constructor
  · rintro ⟨τ, t, v, h1, h2, -, h3⟩
    obtain ⟨τ', t', v', h1', h2', -, h3'⟩ := hy
    cases h1.symm.trans h1'
    rw [h2] at h2'
    cases h2'
    rw [h3] at h3'
    simp only [Obj.vec.injEq, heq_eq_eq, true_and] at h3'
    exact sub_eq_zero.mp h3'.symm
  · rintro rfl
    rwa [sub_self] at hy

example := c13_difference_zero dblEps_pos (demo_means .point)
  (.addPointVec (demo_means .point) (demo_means (.vec .trans)))

/-! ### Non-vacuity -/

example : Yields dblEps demo (.un .norm (.un .normalized (lf (.vec .twist)))) (.vec .scalar fun _ => 1) :=
  (c12_normalize dblEps_pos (demo_means (.vec .twist)) (fun h => by
    have := congrFun h (Sum.inl 0); exact one_ne_zero this) (by decide)).1

example : (lf (.vec .twist) / (lf (.vec .scalar) - lf (.vec .scalar))).value dblEps demo = none :=
  (c12_division_by_zero dblEps_pos (demo_means (.vec .twist))
    (.subVec (demo_means (.vec .scalar)) (demo_means (.vec .scalar))) (by simp)).1

example : Yields dblEps demo (lf .point + (lf .point + lf (.vec .trans) - lf .point))
    (.point (![1, 2, 3] + fun _ => 1)) :=
  (c13_affine dblEps_pos (demo_means .point) (.addPointVec (demo_means .point) (demo_means (.vec .trans)))
    (demo_means (.vec .trans)) (demo_means (.vec .trans))).2.1

end WG
