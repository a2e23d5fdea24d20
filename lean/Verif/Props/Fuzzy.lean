import Verif.Model.Fuzzy
import Verif.Spec.Fuzzy
import Verif.Props.Evaluation
import Verif.Lemmas.Factor

/-!
# C54: fuzzy comparison of vectors, points, scalars and compounds
-/

namespace WG
open Matrix Spec

variable {ε : ℝ} {s : Memory} {e f : SExpr}

section Plain
variable {n : Type} [Fintype n]

theorem len_nonneg (x : n → ℝ) : 0 ≤ len x := Real.sqrt_nonneg _

theorem len_sq (x : n → ℝ) : len x ^ 2 = vSqNorm x :=
  Real.sq_sqrt (Finset.sum_nonneg fun i _ => mul_self_nonneg (x i))

theorem len_eq_zero {x : n → ℝ} : len x = 0 ↔ x = 0 := by
  rw [← sq_eq_zero_iff, len_sq]
  exact dotProduct_self_eq_zero

theorem min_sq {a b : ℝ} (ha : 0 ≤ a) (hb : 0 ≤ b) : min (a ^ 2) (b ^ 2) = min a b ^ 2 := by
  rcases le_total a b with h | h
  · rw [min_eq_left h, min_eq_left (pow_le_pow_left₀ ha h 2)]
  · rw [min_eq_right h, min_eq_right (pow_le_pow_left₀ hb h 2)]

theorem eigenIsApprox_some {prec : ℝ} (x y : n → ℝ) : eigenIsApprox prec (some x) (some y) ↔
    len (x - y) ^ 2 ≤ (prec * min (len x) (len y)) ^ 2 := by
  unfold eigenIsApprox
  rw [mul_pow, ← min_sq (len_nonneg x) (len_nonneg y), len_sq, len_sq, len_sq, sq prec]
  constructor
  · rintro ⟨a, b, h1, h2, h⟩
    cases h1; cases h2
    exact h
  · exact fun h => ⟨x, y, rfl, rfl, h⟩

theorem eigenIsApprox_iff {prec : ℝ} (hp : 0 ≤ prec) (x y : n → ℝ) :
    eigenIsApprox prec (some x) (some y) ↔ RelClose prec x y := by
  rw [eigenIsApprox_some]
  exact pow_le_pow_iff_left₀ (len_nonneg _)
    (mul_nonneg hp (le_min (len_nonneg _) (len_nonneg _))) two_ne_zero

theorem len_neg (x : n → ℝ) : len (-x) = len x := by
  unfold len
  rw [neg_dotProduct, dotProduct_neg, neg_neg]

theorem len_sub_comm (x y : n → ℝ) : len (x - y) = len (y - x) := by
  rw [← neg_sub, len_neg]

theorem relClose_symm {prec : ℝ} {x y : n → ℝ} : RelClose prec x y ↔ RelClose prec y x := by
  unfold RelClose
  rw [len_sub_comm, min_comm]

theorem len_smul (c : ℝ) (x : n → ℝ) : len (c • x) = |c| * len x := by
  unfold len
  rw [smul_dotProduct, dotProduct_smul, smul_eq_mul, smul_eq_mul, ← mul_assoc,
    Real.sqrt_mul (mul_self_nonneg c), Real.sqrt_mul_self_eq_abs]

theorem relClose_smul {prec c : ℝ} (hc : c ≠ 0) {x y : n → ℝ} :
    RelClose prec (c • x) (c • y) ↔ RelClose prec x y := by
  have h : 0 < |c| := abs_pos.mpr hc
  unfold RelClose
  rw [← smul_sub, len_smul, len_smul, len_smul, ← mul_min_of_nonneg _ _ h.le, mul_left_comm]
  exact mul_le_mul_iff_right₀ h

theorem relClose_zero {prec : ℝ} {x : n → ℝ} : RelClose prec x 0 ↔ x = 0 := by
  unfold RelClose
  rw [sub_zero, len_eq_zero.mpr rfl, min_eq_right (len_nonneg x), mul_zero]
  exact ⟨fun h => len_eq_zero.mp (le_antisymm h (len_nonneg x)), fun h => by
    rw [h, len_eq_zero.mpr rfl]⟩

/-- Triangle inequality. -/
theorem len_le_add (x y : n → ℝ) : len x ≤ len y + len (x - y) := by
  have hc : y ⬝ᵥ (x - y) ≤ len y * len (x - y) := by
    refine (le_abs_self _).trans (Real.abs_le_sqrt (x := y ⬝ᵥ (x - y))
      (y := (y ⬝ᵥ y) * ((x - y) ⬝ᵥ (x - y))) ?_ |>.trans_eq ?_)
    · have := Finset.sum_mul_sq_le_sq_mul_sq Finset.univ y (x - y)
      simpa only [dotProduct, sq] using this
    · exact Real.sqrt_mul (Finset.sum_nonneg fun i _ => mul_self_nonneg (y i)) _
  refine abs_le_of_sq_le_sq' (a := len x) ?_ (add_nonneg (len_nonneg _) (len_nonneg _)) |>.2
  have e1 : vSqNorm x = vSqNorm y + 2 * (y ⬝ᵥ (x - y)) + vSqNorm (x - y) := by
    unfold vSqNorm
    rw [dotProduct_sub, sub_dotProduct, dotProduct_sub, dotProduct_sub, dotProduct_comm x y]
    ring
  rw [len_sq, e1, add_sq, len_sq, len_sq]
  linarith

theorem relClose_bounds {prec : ℝ} {x y : n → ℝ} (h : RelClose prec x y) :
    |len x - len y| ≤ prec * min (len x) (len y) := by
  refine le_trans ?_ h
  rw [abs_le]
  have h1 := len_le_add x y
  have h2 := len_le_add y x
  rw [len_sub_comm] at h2
  constructor <;> linarith

end Plain

theorem len_scalar (x : Fin 1 → ℝ) : len x = |x 0| := by
  unfold len dotProduct
  rw [Fin.sum_univ_one, Real.sqrt_mul_self_eq_abs]

/-- What the comparison of two evaluated leaves of the same vector class means. -/
theorem leafIsApprox_vec {prec : ℝ} (hp : 0 ≤ prec) (k : VK) (x y : k.Idx → ℝ) :
    ∃ P, leafIsApprox prec (.vec k) (.vec k) (some x) (some y) = some P ∧
      (P ↔ RelClose prec x y) := by
  cases k
  · refine ⟨_, rfl, ?_⟩
    unfold RelClose
    constructor
    · rintro ⟨a, b, h1, h2, h⟩
      cases h1; cases h2
      have e1 := len_scalar x
      have e2 := len_scalar y
      have e3 := len_scalar (x - y)
      exact le_of_eq_of_le e3 (h.trans_eq (by rw [← e1, ← e2]))
    · intro h
      refine ⟨x, y, rfl, rfl, ?_⟩
      have e1 := len_scalar x
      have e2 := len_scalar y
      have e3 := len_scalar (x - y)
      exact le_of_eq_of_le e3.symm (h.trans_eq (by rw [← e1, ← e2]))
  all_goals exact ⟨_, rfl, eigenIsApprox_iff hp _ _⟩

theorem leafIsApprox_point {prec : ℝ} (hp : 0 ≤ prec) (x y : V3) :
    ∃ P, leafIsApprox prec .point .point (some x) (some y) = some P ∧ (P ↔ RelClose prec x y) :=
  ⟨_, rfl, eigenIsApprox_iff hp _ _⟩

/-- The comparison of two expressions with a meaning. -/
theorem flatIsApprox_vec (hε : 0 < ε) {k l : VK} {x : k.Idx → ℝ} {y : l.Idx → ℝ}
    (he : Means ε s e (.vec k x)) (hf : Means ε s f (.vec l y)) (prec : ℝ) :
    e.flatIsApprox ε s prec f = leafIsApprox prec (.vec k) (.vec l) (some x) (some y) := by
  obtain ⟨t, ht, hg⟩ := means_acc hε he
  obtain ⟨u, hu, hh⟩ := means_acc hε hf
  obtain ⟨p, rfl, hp⟩ := hg.vec
  obtain ⟨q, rfl, hq⟩ := hh.vec
  unfold SExpr.flatIsApprox
  rw [ht, hu]
  simp only [Option.bind_some]
  rw [hp, hq]

theorem flatIsApprox_point (hε : 0 < ε) {x y : V3}
    (he : Means ε s e (.point x)) (hf : Means ε s f (.point y)) (prec : ℝ) :
    e.flatIsApprox ε s prec f = leafIsApprox prec .point .point (some x) (some y) := by
  obtain ⟨t, ht, hg⟩ := means_acc hε he
  obtain ⟨u, hu, hh⟩ := means_acc hε hf
  obtain ⟨p, rfl, hp⟩ := hg.point
  obtain ⟨q, rfl, hq⟩ := hh.point
  unfold SExpr.flatIsApprox
  rw [ht, hu]
  simp only [Option.bind_some]
  rw [hp, hq]

/-- **C54 (vectors and scalars).** `a.isApprox(b, prec)` on two vector expressions of the same kind
holds exactly when the distance of their values is at most `prec` times the smaller of the two
lengths. -/
theorem c54_vec (hε : 0 < ε) {k : VK} {x y : k.Idx → ℝ} (he : Means ε s e (.vec k x))
    (hf : Means ε s f (.vec k y)) {prec : ℝ} (hp : 0 ≤ prec) :
    ∃ P, e.flatIsApprox ε s prec f = some P ∧ (P ↔ RelClose prec x y) := by
  rw [flatIsApprox_vec hε he hf]
  exact leafIsApprox_vec hp k x y

/-- **C54 (points).** The same for points: the distance is compared with the distance from the
origin. -/
theorem c54_point (hε : 0 < ε) {x y : V3} (he : Means ε s e (.point x))
    (hf : Means ε s f (.point y)) {prec : ℝ} (hp : 0 ≤ prec) :
    ∃ P, e.flatIsApprox ε s prec f = some P ∧ (P ↔ RelClose prec x y) := by
  rw [flatIsApprox_point hε he hf]
  exact leafIsApprox_point hp x y

/-- **C54 (reflexive).** A vector is approximately equal to itself. -/
theorem c54_refl (hε : 0 < ε) {k : VK} {x : k.Idx → ℝ} (he : Means ε s e (.vec k x)) {prec : ℝ}
    (hp : 0 ≤ prec) : ∃ P, e.flatIsApprox ε s prec e = some P ∧ P := by
  obtain ⟨P, h1, h2⟩ := c54_vec hε he he hp
  refine ⟨P, h1, h2.mpr ?_⟩
  unfold RelClose
  rw [sub_self, len_eq_zero.mpr rfl]
  exact mul_nonneg hp (le_min (len_nonneg _) (len_nonneg _))

theorem eigenIsApprox_symm {n : Type} [Fintype n] {prec : ℝ} {v w : Option (n → ℝ)} :
    eigenIsApprox prec v w ↔ eigenIsApprox prec w v := by
  have key : ∀ v w : Option (n → ℝ), eigenIsApprox prec v w → eigenIsApprox prec w v := by
    rintro v w ⟨a, b, rfl, rfl, h⟩
    refine ⟨b, a, rfl, rfl, ?_⟩
    rw [min_comm]
    refine le_of_eq_of_le ?_ h
    unfold vSqNorm dotProduct
    exact Finset.sum_congr rfl fun i _ => by ring
  exact ⟨key v w, key w v⟩

/-- **C54 (symmetric).** The order of the operands does not matter: neither for whether the call
compiles, nor for its result, at any precision and whatever the values (finite or not). -/
theorem c54_symm (ε : ℝ) (s : Memory) (prec : ℝ) (e f : SExpr) :
    (e.flatIsApprox ε s prec f = none ↔ f.flatIsApprox ε s prec e = none) ∧
    ∀ P Q, e.flatIsApprox ε s prec f = some P → f.flatIsApprox ε s prec e = some Q → (P ↔ Q) := by
  have key : ∀ (a b : Ty) (x : Option a.Val) (y : Option b.Val),
      (leafIsApprox prec a b x y = none ↔ leafIsApprox prec b a y x = none) ∧
      ∀ P Q, leafIsApprox prec a b x y = some P → leafIsApprox prec b a y x = some Q → (P ↔ Q) := by
    intro a b x y
    rcases a with k | _ | k | k <;> rcases b with l | _ | l | l
    · cases k <;> cases l
      · refine ⟨⟨fun h => (by cases h), fun h => (by cases h)⟩, fun P Q h1 h2 => ?_⟩
        cases h1; cases h2
        have swap : ∀ x y : Option (Fin 1 → ℝ),
            (∃ a b : Fin 1 → ℝ, x = some a ∧ y = some b ∧ |a 0 - b 0| ≤ prec * min |a 0| |b 0|) →
            ∃ a b : Fin 1 → ℝ, y = some a ∧ x = some b ∧ |a 0 - b 0| ≤ prec * min |a 0| |b 0| := by
          rintro x y ⟨a, b, h1, h2, h⟩
          exact ⟨b, a, h2, h1, by rwa [abs_sub_comm, min_comm]⟩
        exact ⟨swap x y, swap y x⟩
      all_goals first
        | exact ⟨⟨fun _ => rfl, fun _ => rfl⟩, fun P Q h1 _ => (by cases h1)⟩
        | exact ⟨⟨fun h => (by cases h), fun h => (by cases h)⟩, fun P Q h1 h2 => by
            cases h1; cases h2; exact eigenIsApprox_symm⟩
    all_goals first
      | exact ⟨⟨fun _ => rfl, fun _ => rfl⟩, fun P Q h1 _ => (by cases h1)⟩
      | exact ⟨⟨fun h => (by cases h), fun h => (by cases h)⟩, fun P Q h1 h2 => by
          cases h1; cases h2; exact eigenIsApprox_symm⟩
      | (cases k <;> exact ⟨⟨fun _ => rfl, fun _ => rfl⟩, fun P Q h1 _ => (by cases h1)⟩)
      | (cases l <;> exact ⟨⟨fun _ => rfl, fun _ => rfl⟩, fun P Q h1 _ => (by cases h1)⟩)
  unfold SExpr.flatIsApprox
  cases he : e.elab ε with
  | none => cases hf : f.elab ε <;> simp
  | some t =>
    cases hf : f.elab ε with
    | none => simp
    | some u => simpa only [Option.bind_some] using key _ _ _ _

/-- **C54 (kinds).** Vector expressions of different kinds cannot be compared: the call is rejected by
the compiler. -/
theorem c54_mixed_rejected (hε : 0 < ε) {k l : VK} (hkl : k ≠ l) {x : k.Idx → ℝ} {y : l.Idx → ℝ}
    (he : Means ε s e (.vec k x)) (hf : Means ε s f (.vec l y)) (prec : ℝ) :
    e.flatIsApprox ε s prec f = none := by
  rw [flatIsApprox_vec hε he hf]
  cases k <;> cases l <;> first | rfl | exact absurd rfl hkl

/-- Nor a point with a vector. -/
theorem c54_point_vec_rejected (hε : 0 < ε) {l : VK} {x : V3} {y : l.Idx → ℝ}
    (he : Means ε s e (.point x)) (hf : Means ε s f (.vec l y)) (prec : ℝ) :
    e.flatIsApprox ε s prec f = none := by
  obtain ⟨t, ht, hg⟩ := means_acc hε he
  obtain ⟨u, hu, hh⟩ := means_acc hε hf
  obtain ⟨p, rfl, hp⟩ := hg.point
  obtain ⟨q, rfl, hq⟩ := hh.vec
  unfold SExpr.flatIsApprox
  rw [ht, hu]
  simp only [Option.bind_some]
  cases l <;> rfl

/-- **C54 (against zero).** At any nonnegative precision only zero compares equal to zero. -/
theorem c54_against_zero (hε : 0 < ε) {k : VK} {x : k.Idx → ℝ} (he : Means ε s e (.vec k x))
    (hf : Means ε s f (.vec k 0)) {prec : ℝ} (hp : 0 ≤ prec) :
    ∃ P, e.flatIsApprox ε s prec f = some P ∧ (P ↔ x = 0) := by
  obtain ⟨P, h1, h2⟩ := c54_vec hε he hf hp
  exact ⟨P, h1, h2.trans relClose_zero⟩

/-- **C54 (units).** Scaling both operands by a nonzero scalar does not change the outcome. -/
theorem c54_scale (hε : 0 < ε) {g : SExpr} {k : VK} {x y : k.Idx → ℝ}
    {c : Fin 1 → ℝ} (he : Means ε s e (.vec k x)) (hf : Means ε s f (.vec k y))
    (hg : Means ε s g (.vec .scalar c)) (hc : c 0 ≠ 0) {prec : ℝ} (hp : 0 ≤ prec) :
    ∃ P Q, (g * e).flatIsApprox ε s prec (g * f) = some P ∧
      e.flatIsApprox ε s prec f = some Q ∧ (P ↔ Q) := by
  obtain ⟨P, h1, h2⟩ := c54_vec hε (.mulScalarVec hg he) (.mulScalarVec hg hf) hp
  obtain ⟨Q, h3, h4⟩ := c54_vec hε he hf hp
  exact ⟨P, Q, h1, h3, h2.trans ((relClose_smul hc).trans h4.symm)⟩

/-- **C54 (lengths).** Approximately equal vectors have lengths within the same relative bound. -/
theorem c54_lengths (hε : 0 < ε) {k : VK} {x y : k.Idx → ℝ} (he : Means ε s e (.vec k x))
    (hf : Means ε s f (.vec k y)) {prec : ℝ} (hp : 0 ≤ prec) {P : Prop}
    (h : e.flatIsApprox ε s prec f = some P) (hP : P) :
    |len x - len y| ≤ prec * min (len x) (len y) := by
  obtain ⟨Q, h1, h2⟩ := c54_vec hε he hf hp
  rw [h] at h1
  cases h1
  exact relClose_bounds (h2.mp hP)

/-- **C54 (isZero).** `a.isZero(prec)` holds exactly when no coefficient exceeds `prec`. -/
theorem c54_isZero (hε : 0 < ε) {k : VK} {x : k.Idx → ℝ} (he : Means ε s e (.vec k x)) (prec : ℝ) :
    ∃ P, e.isZero ε s prec = some P ∧ (P ↔ ∀ i, |x i| ≤ prec) := by
  obtain ⟨t, ht, hg⟩ := means_acc hε he
  obtain ⟨p, rfl, hp⟩ := hg.vec
  refine ⟨_, by unfold SExpr.isZero; rw [ht, Option.bind_some]; rfl, ?_⟩
  simp only
  rw [hp]
  constructor
  · rintro ⟨v, h1, h2⟩
    cases h1
    exact h2
  · exact fun h => ⟨x, rfl, h⟩

theorem c54_isZero_point (hε : 0 < ε) {x : V3} (he : Means ε s e (.point x)) (prec : ℝ) :
    ∃ P, e.isZero ε s prec = some P ∧ (P ↔ ∀ i, |x i| ≤ prec) := by
  obtain ⟨t, ht, hg⟩ := means_acc hε he
  obtain ⟨p, rfl, hp⟩ := hg.point
  refine ⟨_, by unfold SExpr.isZero; rw [ht, Option.bind_some]; rfl, ?_⟩
  simp only
  rw [hp]
  constructor
  · rintro ⟨v, h1, h2⟩
    cases h1
    exact h2
  · exact fun h => ⟨x, rfl, h⟩

theorem abs_le_len {n : Type} [Fintype n] (x : n → ℝ) (i : n) : |x i| ≤ len x := by
  unfold len
  apply Real.abs_le_sqrt
  rw [sq]
  exact Finset.single_le_sum (f := fun i => x i * x i) (fun j _ => mul_self_nonneg (x j))
    (Finset.mem_univ i)

/-- **C54 (difference).** If two vectors are approximately equal, their difference is zero up to the
corresponding absolute precision. -/
theorem c54_difference (hε : 0 < ε) {k : VK} {x y : k.Idx → ℝ} (he : Means ε s e (.vec k x))
    (hf : Means ε s f (.vec k y)) {prec : ℝ} (hp : 0 ≤ prec) {P : Prop}
    (h : e.flatIsApprox ε s prec f = some P) (hP : P) :
    ∃ Q, (e - f).isZero ε s (prec * min (len x) (len y)) = some Q ∧ Q := by
  obtain ⟨Q, h1, h2⟩ := c54_vec hε he hf hp
  rw [h] at h1
  cases h1
  obtain ⟨Q, h3, h4⟩ := c54_isZero hε (.subVec he hf) (prec * min (len x) (len y))
  exact ⟨Q, h3, h4.mpr fun i => (abs_le_len _ i).trans (h2.mp hP)⟩

/-- **C54 (negative precision).** The overloads disagree on a negative precision: on vectors its sign is
ignored, on scalars it accepts only two zeros. -/
theorem c54_negative (hε : 0 < ε) {prec : ℝ} (hp : prec < 0) :
    (∀ {k : VK} {x y : k.Idx → ℝ}, k ≠ .scalar → Means ε s e (.vec k x) → Means ε s f (.vec k y) →
      ∃ P, e.flatIsApprox ε s prec f = some P ∧ (P ↔ RelClose |prec| x y)) ∧
    ∀ {x y : Fin 1 → ℝ}, Means ε s e (.vec .scalar x) → Means ε s f (.vec .scalar y) →
      ∃ P, e.flatIsApprox ε s prec f = some P ∧ (P ↔ x = 0 ∧ y = 0) := by
  constructor
  · intro k x y hk he hf
    rw [flatIsApprox_vec hε he hf]
    have key : ∀ {n : Type} [Fintype n] (a b : n → ℝ),
        eigenIsApprox prec (some a) (some b) ↔ RelClose |prec| a b := by
      intro n _ a b
      rw [← eigenIsApprox_iff (abs_nonneg prec), eigenIsApprox_some, eigenIsApprox_some, mul_pow,
        mul_pow, sq_abs]
    cases k
    · exact absurd rfl hk
    all_goals exact ⟨_, rfl, key _ _⟩
  · intro x y he hf
    rw [flatIsApprox_vec hε he hf]
    refine ⟨_, rfl, ?_⟩
    have zero : ∀ {x : Fin 1 → ℝ}, x 0 = 0 → x = 0 := fun h => funext fun i => by
      rw [Fin.fin_one_eq_zero i, h]; rfl
    constructor
    · rintro ⟨a, b, h1, h2, h⟩
      cases h1; cases h2
      have h0 := (abs_nonneg (x 0 - y 0)).trans h
      have hm : min |x 0| |y 0| = 0 := le_antisymm (by
        by_contra hc
        exact absurd (mul_neg_of_neg_of_pos hp (not_le.mp hc)) (not_lt.mpr h0))
        (le_min (abs_nonneg _) (abs_nonneg _))
      rw [hm, mul_zero] at h
      have hxy : x 0 = y 0 := sub_eq_zero.mp (abs_eq_zero.mp (le_antisymm h (abs_nonneg _)))
      rw [hxy, min_self] at hm
      have hy := abs_eq_zero.mp hm
      exact ⟨zero (hxy.trans hy), zero hy⟩
    · rintro ⟨rfl, rfl⟩
      exact ⟨0, 0, rfl, rfl, by simp⟩

/-! ## Compounds -/

/-- A compared pair of elements of two compounds. -/
structure FlatPair where
  ty : Ty
  flat : (∃ k, ty = .vec k) ∨ ty = .point
  a : ty.Val
  b : ty.Val

/-- Coordinates of the two elements. -/
def FlatPair.x (z : FlatPair) : z.ty.Idx → ℝ := coords z.ty z.a
/-- Coordinates of the second element. -/
def FlatPair.y (z : FlatPair) : z.ty.Idx → ℝ := coords z.ty z.b

theorem leafIsApprox_pair {prec : ℝ} (hp : 0 ≤ prec) (z : FlatPair) :
    ∃ P, leafIsApprox prec z.ty z.ty (some z.a) (some z.b) = some P ∧ (P ↔ RelClose prec z.x z.y) := by
  obtain ⟨ty, h, a, b⟩ := z
  rcases h with ⟨k, rfl⟩ | rfl
  · exact leafIsApprox_vec hp k a b
  · exact leafIsApprox_point hp a b

theorem pair_traits (z : FlatPair) : z.ty.vectorTraits = true := by
  obtain ⟨ty, h, _, _⟩ := z
  rcases h with ⟨k, rfl⟩ | rfl <;> rfl

/-- **C54 (compounds).** Two compounds of the same vectors and points are approximately equal exactly
when each element is approximately equal to its counterpart, at the same relative precision. -/
theorem c54_compound (l : List FlatPair) {prec : ℝ} (hp : 0 ≤ prec) :
    ∃ P, compoundIsApprox (ε := ε) prec (l.map fun z => ⟨z.ty, some z.a⟩)
        (l.map fun z => ⟨z.ty, some z.b⟩) = some P ∧ (P ↔ ∀ z ∈ l, RelClose prec z.x z.y) := by
  have key : ∃ ps, expandBin
      (fun (x y : (τ : Ty) × Option τ.Val) => leafIsApprox prec x.1 y.1 x.2 y.2)
      (l.map fun z => ⟨z.ty, some z.a⟩) (l.map fun z => ⟨z.ty, some z.b⟩) = some ps ∧
      ((∀ p ∈ ps, p) ↔ ∀ z ∈ l, RelClose prec z.x z.y) := by
    induction l with
    | nil => exact ⟨[], rfl, by simp⟩
    | cons z l ih =>
      obtain ⟨ps, h1, h2⟩ := ih
      obtain ⟨P, h3, h4⟩ := leafIsApprox_pair hp z
      refine ⟨P :: ps, ?_, ?_⟩
      · simp only [List.map_cons, expandBin, h1, h3]
      · simp only [List.forall_mem_cons, h2, h4]
  obtain ⟨ps, h1, h2⟩ := key
  refine ⟨∀ p ∈ ps, p, ?_, h2⟩
  unfold compoundIsApprox
  rw [if_pos ⟨by simp [pair_traits], by simp [pair_traits],
    by simp only [List.map_map, Function.comp_def]⟩, h1]
  rfl

theorem leafIsApprox_some {prec : ℝ} {a b : Ty} {x : Option a.Val} {y : Option b.Val} :
    leafIsApprox prec a b x y ≠ none ↔ a = b ∧ a.vectorTraits = true := by
  rcases a with k | _ | k | k <;> rcases b with l | _ | l | l
  · cases k <;> cases l <;> simp [leafIsApprox, Ty.vectorTraits]
  all_goals first
    | simp [leafIsApprox, Ty.vectorTraits]
    | (cases k <;> simp [leafIsApprox, Ty.vectorTraits])
    | (cases l <;> simp [leafIsApprox, Ty.vectorTraits])

/-- **C54 (which compounds can be compared).** The comparison of two compounds compiles exactly when
they have the same classes of elements in the same order, all of them vectors, scalars or points. -/
theorem c54_compound_accepted (a b : CVal (geoLib ε)) (prec : ℝ) :
    compoundIsApprox prec a b ≠ none ↔
      (a.map fun z => z.1) = (b.map fun z => z.1) ∧ ∀ z ∈ a, Ty.vectorTraits z.1 = true := by
  constructor
  · intro h
    unfold compoundIsApprox at h
    split_ifs at h with hc
    swap
    · exact absurd rfl h
    obtain ⟨ha, hb, hs⟩ := hc
    have hall : ∀ z ∈ a, Ty.vectorTraits z.1 = true := by simpa using ha
    refine ⟨?_, hall⟩
    unfold compoundSize at hs
    rw [sumSequence_eq, sumSequence_eq] at hs
    clear ha hb hall
    have hx : expandBin (fun (x y : (τ : Ty) × Option τ.Val) => leafIsApprox prec x.1 y.1 x.2 y.2)
        a b ≠ none := fun h0 => h (by rw [h0]; rfl)
    clear h
    induction a generalizing b with
    | nil =>
      cases b with
      | nil => rfl
      | cons y ys =>
        have hpos := Ty.dim_pos y.1
        simp only [List.map_nil, List.sum_nil, List.map_cons, List.sum_cons] at hs
        omega
    | cons x xs ih =>
      cases b with
      | nil => exact absurd rfl hx
      | cons y ys =>
        simp only [expandBin] at hx
        split at hx
        · rename_i z zs h1 h2
          have he : x.1 = y.1 := (leafIsApprox_some.mp (by rw [h1]; simp)).1
          have hs' : (xs.map fun z => Ty.dim z.1).sum = (ys.map fun z => Ty.dim z.1).sum := by
            rw [List.map_cons, List.map_cons, List.sum_cons, List.sum_cons, he] at hs
            exact Nat.add_left_cancel hs
          simp only [List.map_cons]
          rw [ih ys hs' (by rw [h2]; simp), he]
        · exact absurd rfl hx
  · rintro ⟨h1, h2⟩
    have h3 : ∀ z ∈ b, Ty.vectorTraits z.1 = true := by
      intro z hz
      have : z.1 ∈ a.map fun z => z.1 := by rw [h1]; exact List.mem_map_of_mem hz
      obtain ⟨w, hw, he⟩ := List.mem_map.mp this
      rw [← he]
      exact h2 w hw
    have hd : (a.map fun z => Ty.dim z.1) = b.map fun z => Ty.dim z.1 := by
      have := congrArg (List.map Ty.dim) h1
      rw [List.map_map, List.map_map] at this
      exact this
    unfold compoundIsApprox
    rw [if_pos ⟨by simpa using h2, by simpa using h3, by rw [hd]⟩]
    have hx : expandBin (fun (x y : (τ : Ty) × Option τ.Val) => leafIsApprox prec x.1 y.1 x.2 y.2)
        a b ≠ none := by
      clear hd h3
      induction a generalizing b with
      | nil => simp [expandBin]
      | cons x xs ih =>
        cases b with
        | nil => simp at h1
        | cons y ys =>
          simp only [List.map_cons, List.cons.injEq] at h1
          obtain ⟨P, hP⟩ := Option.ne_none_iff_exists'.1
            ((leafIsApprox_some (prec := prec) (x := x.2) (y := y.2)).mpr
              ⟨h1.1, h2 x List.mem_cons_self⟩)
          obtain ⟨ps, hps⟩ := Option.ne_none_iff_exists'.1
            (ih ys h1.2 fun z hz => h2 z (List.mem_cons_of_mem _ hz))
          simp only [expandBin, hP, hps]
          simp
    obtain ⟨ps, hps⟩ := Option.ne_none_iff_exists'.1 hx
    rw [hps]
    simp

/-- **C54 (compounds against the stacked vector).** Approximate equality of compounds implies that of
the vectors of all coordinates. -/
theorem c54_compound_stacked (l : List FlatPair) {prec : ℝ} (hp : 0 ≤ prec) {P : Prop}
    (h : compoundIsApprox (ε := ε) prec (l.map fun z => ⟨z.ty, some z.a⟩)
      (l.map fun z => ⟨z.ty, some z.b⟩) = some P) (hP : P) :
    √(l.map fun z => len (z.x - z.y) ^ 2).sum ≤
      prec * min (√(l.map fun z => len z.x ^ 2).sum) (√(l.map fun z => len z.y ^ 2).sum) := by
  obtain ⟨Q, h1, h2⟩ := c54_compound (ε := ε) l hp
  rw [h] at h1
  cases h1
  have hz := h2.mp hP
  rw [mul_min_of_nonneg _ _ hp]
  have key : ∀ g : FlatPair → ℝ, (∀ z ∈ l, 0 ≤ g z) → (∀ z ∈ l, len (z.x - z.y) ≤ prec * g z) →
      √(l.map fun z => len (z.x - z.y) ^ 2).sum ≤ prec * √(l.map fun z => g z ^ 2).sum := by
    intro g _ hg
    rw [← Real.sqrt_sq hp, ← Real.sqrt_mul (sq_nonneg _), ← List.sum_map_mul_left]
    refine Real.sqrt_le_sqrt (List.sum_le_sum fun z hz => ?_)
    rw [← mul_pow]
    exact pow_le_pow_left₀ (len_nonneg _) (hg z hz) 2
  refine le_min (key _ (fun z _ => len_nonneg _) fun z h => (hz z h).trans ?_)
    (key _ (fun z _ => len_nonneg _) fun z h => (hz z h).trans ?_)
  · exact mul_le_mul_of_nonneg_left (min_le_left _ _) hp
  · exact mul_le_mul_of_nonneg_left (min_le_right _ _) hp

/-- A scalar pair. -/
def scPair (a b : ℝ) : FlatPair := ⟨.vec .scalar, .inl ⟨_, rfl⟩, sc a, sc b⟩

theorem relClose_sc {prec a b : ℝ} :
    RelClose prec (scPair a b).x (scPair a b).y ↔ |a - b| ≤ prec * min |a| |b| := by
  unfold RelClose
  have h1 : len (scPair a b).x = |a| := len_scalar (sc a)
  have h2 : len (scPair a b).y = |b| := len_scalar (sc b)
  have h3 : len ((scPair a b).x - (scPair a b).y) = |a - b| := len_scalar (sc a - sc b)
  rw [h1, h2, h3]

/-- **C54, limit.** The converse fails: `(1000, 1)` and `(1000, 2)` are close as vectors but not as
compounds of two scalars. -/
theorem c54_compound_not_stacked : ∃ (l : List FlatPair) (P : Prop),
    compoundIsApprox (ε := ε) (1 / 100) (l.map fun z => ⟨z.ty, some z.a⟩)
      (l.map fun z => ⟨z.ty, some z.b⟩) = some P ∧ ¬ P ∧
    √(l.map fun z => len (z.x - z.y) ^ 2).sum ≤
      1 / 100 * min (√(l.map fun z => len z.x ^ 2).sum) (√(l.map fun z => len z.y ^ 2).sum) := by
  obtain ⟨P, h1, h2⟩ := c54_compound (ε := ε) [scPair 1000 1000, scPair 1 2]
    (by norm_num : (0 : ℝ) ≤ 1 / 100)
  refine ⟨_, P, h1, fun hP => ?_, ?_⟩
  · have := relClose_sc.mp (h2.mp hP (scPair 1 2) (by simp))
    norm_num at this
  · have hx : ∀ a b, len (scPair a b).x = |a| := fun a b => len_scalar (sc a)
    have hy : ∀ a b, len (scPair a b).y = |b| := fun a b => len_scalar (sc b)
    have hd : ∀ a b, len ((scPair a b).x - (scPair a b).y) = |a - b| := fun a b =>
      len_scalar (sc a - sc b)
    simp only [List.map_cons, List.map_nil, hx, hy, hd]
    norm_num
    have hs : (100 : ℝ) ≤ √1000001 := Real.le_sqrt_of_sq_le (by norm_num)
    have ht : (100 : ℝ) ≤ √1000004 := Real.le_sqrt_of_sq_le (by norm_num)
    linarith

theorem relClose_shift : ∃ x y d : V3, RelClose (1 / 10) x y ∧ ¬ RelClose (1 / 10) (x + d) (y + d) := by
  have h : ∀ a b c : ℝ, len ![a, b, c] = √(a * a + (b * b + c * c)) := by
    intro a b c
    simp [len, dotProduct, Fin.sum_univ_three, add_assoc]
  refine ⟨![100, 0, 0], ![101, 0, 0], ![-100, 0, 0], ?_, ?_⟩
  · unfold RelClose
    have hd : (![100, 0, 0] - ![101, 0, 0] : V3) = ![-1, 0, 0] := by
      ext i; fin_cases i <;> norm_num
    rw [hd, h, h, h]
    have e1 : √((100 : ℝ) * 100 + (0 * 0 + 0 * 0)) = 100 := by
      rw [show ((100 : ℝ) * 100 + (0 * 0 + 0 * 0)) = 100 ^ 2 by norm_num, Real.sqrt_sq (by norm_num)]
    have e2 : √((101 : ℝ) * 101 + (0 * 0 + 0 * 0)) = 101 := by
      rw [show ((101 : ℝ) * 101 + (0 * 0 + 0 * 0)) = 101 ^ 2 by norm_num, Real.sqrt_sq (by norm_num)]
    rw [e1, e2]
    norm_num
  · have e1 : (![100, 0, 0] + ![-100, 0, 0] : V3) = 0 := by ext i; fin_cases i <;> norm_num
    rw [e1, relClose_symm, relClose_zero]
    intro hc
    have := congrFun hc 0
    norm_num at this

/-- **C54, limit (points).** Whether two points are approximately equal depends on where the origin
is: two points accepted at precision 1/10 can be rejected after both are moved by the same
translation. -/
theorem c54_point_origin (hε : 0 < ε) : ∃ (s : Memory) (p q d : SExpr) (P Q : Prop),
    p.flatIsApprox ε s (1 / 10) q = some P ∧ P ∧
    (p + d).flatIsApprox ε s (1 / 10) (q + d) = some Q ∧ ¬ Q := by
  obtain ⟨x, y, d, h1, h2⟩ := relClose_shift
  let s : Memory := fun a τ => match τ with
    | .point => if a = 1 then x else y
    | .vec .trans => d
    | τ => demo a τ
  have hp : Means ε s (.leaf 1 0 .point) (.point x) := .leaf 1 0 .point trivial
  have hq : Means ε s (.leaf 2 0 .point) (.point y) := .leaf 2 0 .point trivial
  have hd : Means ε s (.leaf 3 0 (.vec .trans)) (.vec .trans d) := .leaf 3 0 (.vec .trans) trivial
  obtain ⟨P, h3, h4⟩ := c54_point hε hp hq (by norm_num : (0 : ℝ) ≤ 1 / 10)
  obtain ⟨Q, h5, h6⟩ := c54_point hε (.addPointVec hp hd) (.addPointVec hq hd)
    (by norm_num : (0 : ℝ) ≤ 1 / 10)
  exact ⟨s, _, _, _, P, Q, h3, h4.mpr h1, h5, fun h => h2 (h6.mp h)⟩

/-! ## Non-vacuity -/

/-- `(1,1,1)` against `2 * (1,1,1) - (1,1,1)`. -/
example : ∃ P, (lf (.vec .trans)).flatIsApprox dblEps demo (1 / 100)
    (lf (.vec .trans) + lf (.vec .trans) - lf (.vec .trans)) = some P ∧ P := by
  have h := demo_means (.vec .trans)
  obtain ⟨P, h1, h2⟩ := c54_vec dblEps_pos h (.subVec (.addVec h h) h) (by norm_num : (0 : ℝ) ≤ 1 / 100)
  refine ⟨P, h1, h2.mpr ?_⟩
  unfold RelClose
  refine le_of_eq_of_le ?_ (mul_nonneg (by norm_num) (le_min (len_nonneg _) (len_nonneg _)))
  exact len_eq_zero.mpr (by rw [add_sub_cancel_right, sub_self])

/-- A translation and a relative rotation cannot be compared. -/
example : (lf (.vec .trans)).flatIsApprox dblEps demo 1 (lf (.vec .relrot)) = none :=
  c54_mixed_rejected dblEps_pos (by decide) (demo_means (.vec .trans)) (demo_means (.vec .relrot)) 1

/-- A compound of a scalar and a point, against a slightly different one. -/
example : ∃ P, compoundIsApprox (ε := ε) (1 / 10)
    [⟨.vec .scalar, some (sc 10)⟩, ⟨.point, some (![1, 2, 3] : V3)⟩]
    [⟨.vec .scalar, some (sc 11)⟩, ⟨.point, some (![1, 2, 3] : V3)⟩] = some P ∧ P := by
  obtain ⟨P, h1, h2⟩ := c54_compound (ε := ε)
    [scPair 10 11, ⟨.point, .inr rfl, (![1, 2, 3] : V3), (![1, 2, 3] : V3)⟩]
    (by norm_num : (0 : ℝ) ≤ 1 / 10)
  refine ⟨P, h1, h2.mpr fun z hz => ?_⟩
  simp only [List.mem_cons, List.not_mem_nil, or_false] at hz
  rcases hz with rfl | rfl
  · exact relClose_sc.mpr (by norm_num)
  · unfold RelClose
    refine le_of_eq_of_le ?_ (mul_nonneg (by norm_num) (le_min (len_nonneg _) (len_nonneg _)))
    exact len_eq_zero.mpr (sub_self _)

/-- `(1,1,1).isZero(1)` holds. -/
example : ∃ P, (lf (.vec .trans)).isZero dblEps demo 1 = some P ∧ P := by
  obtain ⟨P, h1, h2⟩ := c54_isZero dblEps_pos (demo_means (.vec .trans)) 1
  exact ⟨P, h1, h2.mpr fun i => le_of_eq abs_one⟩

/-- Each theorem at concrete expressions. -/
example := c54_point (prec := 1 / 100) dblEps_pos (demo_means .point) (demo_means .point) (by norm_num)

example := c54_refl (prec := 1 / 100) dblEps_pos (demo_means (.vec .twist)) (by norm_num)

example := c54_point_vec_rejected dblEps_pos (demo_means .point) (demo_means (.vec .trans)) 1

example := c54_against_zero (prec := 1 / 100) dblEps_pos (demo_means (.vec .trans))
  (by simpa using Means.subVec (demo_means (.vec .trans)) (demo_means (.vec .trans))) (by norm_num)

example := c54_scale (prec := 1 / 100) dblEps_pos (demo_means (.vec .trans)) (demo_means (.vec .trans))
  (demo_means (.vec .scalar)) one_ne_zero (by norm_num)

example : ∃ Q, (lf (.vec .trans) - lf (.vec .trans)).isZero dblEps demo
    (1 / 100 * min (len (demo 1 (.vec .trans))) (len (demo 1 (.vec .trans)))) = some Q ∧ Q := by
  obtain ⟨P, h, hP⟩ := c54_refl (prec := 1 / 100) dblEps_pos (demo_means (.vec .trans)) (by norm_num)
  have := c54_lengths dblEps_pos (demo_means (.vec .trans)) (demo_means (.vec .trans)) (by norm_num) h hP
  exact c54_difference dblEps_pos (demo_means (.vec .trans)) (demo_means (.vec .trans)) (by norm_num) h hP

example := c54_isZero_point dblEps_pos (demo_means .point) (1 / 100)

example := (c54_negative (prec := -1) dblEps_pos (by norm_num)).1 (k := .trans) (by decide)
  (demo_means (.vec .trans)) (demo_means (.vec .trans))

end WG
