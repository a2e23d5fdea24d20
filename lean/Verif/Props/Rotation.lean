import Verif.Props.Evaluation
import Verif.Model.Random

/-!
# C02, C03, C44: rotations form a group acting by isometries; random rotations are valid
-/

namespace WG
open Matrix Spec

variable {ε : ℝ} {s : Memory} {e f g : SExpr}

theorem Spec.IsRotation.inv_eq {R : M3} (h : IsRotation R) : R⁻¹ = Rᵀ := Matrix.inv_eq_right_inv h.1

/-- **C02.** Composition is associative, for operands of any representation and any size. -/
theorem c02_assoc (hε : 0 < ε) {A B C : M3} (he : Means ε s e (.rot A)) (hf : Means ε s f (.rot B))
    (hg : Means ε s g (.rot C)) :
    ∃ R, Yields ε s (e * f * g) (.rot R) ∧ Yields ε s (e * (f * g)) (.rot R) :=
  ⟨A * B * C, c01_evaluation_meaning hε (.mulRot (.mulRot he hf) hg), by
    rw [Matrix.mul_assoc]; exact c01_evaluation_meaning hε (.mulRot he (.mulRot hf hg))⟩

/-- A quaternion, the inverse of a matrix, and an angle-axis rotation. -/
example := c02_assoc dblEps_pos (demo_means (.rot .quat)) (.inverseRot (demo_means (.rot .mat)))
  (demo_means (.rot .aa))

/-- **C02.** The inverse is a two-sided inverse, and inverting twice gives the rotation back. -/
theorem c02_inverse (hε : 0 < ε) {A : M3} (he : Means ε s e (.rot A)) :
    Yields ε s (e * e⁻¹) (.rot 1) ∧ Yields ε s (e⁻¹ * e) (.rot 1) ∧ Yields ε s e⁻¹⁻¹ (.rot A) := by
  have h := Means.rotation_valid hε he
  have h1 : A * A⁻¹ = 1 := by rw [h.inv_eq]; exact h.1
  have h2 : A⁻¹ * A = 1 := mul_eq_one_comm.mp h1
  refine ⟨?_, ?_, ?_⟩
  · rw [← h1]; exact c01_evaluation_meaning hε (.mulRot he (.inverseRot he))
  · rw [← h2]; exact c01_evaluation_meaning hε (.mulRot (.inverseRot he) he)
  · have h3 : A⁻¹⁻¹ = A := Matrix.inv_eq_right_inv h2
    have := c01_evaluation_meaning hε (.inverseRot (.inverseRot he))
    rwa [h3] at this

example := c02_inverse dblEps_pos (.mulRot (demo_means (.rot .quat)) (demo_means (.rot .aa)))

/-- **C02.** The inverse of a product is the product of the inverses in the opposite order. -/
theorem c02_inverse_mul (hε : 0 < ε) {A B : M3} (he : Means ε s e (.rot A))
    (hf : Means ε s f (.rot B)) :
    ∃ R, Yields ε s (e * f)⁻¹ (.rot R) ∧ Yields ε s (f⁻¹ * e⁻¹) (.rot R) :=
  ⟨B⁻¹ * A⁻¹, by
    rw [← Matrix.mul_inv_rev]; exact c01_evaluation_meaning hε (.inverseRot (.mulRot he hf)),
    c01_evaluation_meaning hε (.mulRot (.inverseRot hf) (.inverseRot he))⟩

example := c02_inverse_mul dblEps_pos (demo_means (.rot .mat)) (demo_means (.rot .aa))

/-- **C02.** A rotation that is the identity is neutral on both sides. -/
theorem c02_identity (hε : 0 < ε) {A : M3} (he : Means ε s e (.rot A)) (hf : Means ε s f (.rot 1)) :
    Yields ε s (e * f) (.rot A) ∧ Yields ε s (f * e) (.rot A) := by
  constructor
  · have := c01_evaluation_meaning hε (.mulRot he hf)
    rwa [Matrix.mul_one] at this
  · have := c01_evaluation_meaning hε (.mulRot hf he)
    rwa [Matrix.one_mul] at this

/-- Expressions built from rotation objects with composition and inverse only. -/
inductive RotWord (s : Memory) : SExpr → Prop
  | leaf (a c k) : ValidRot k (s a (.rot k)) → RotWord s (.leaf a c (.rot k))
  | mul {x y : SExpr} : RotWord s x → RotWord s y → RotWord s (x * y)
  | inv {x : SExpr} : RotWord s x → RotWord s x⁻¹

/-- **C02.** At every nesting depth of compositions and inverses the result is again a valid rotation
(unit quaternion, or orthonormal matrix with determinant one). -/
theorem c02_closed (hε : 0 < ε) (h : RotWord s e) :
    ∃ R, IsRotation R ∧ Means ε s e (.rot R) ∧ Yields ε s e (.rot R) := by
  have : WellKinded s e .rot := by
    induction h with
    | leaf a c k hv => exact .leaf a c (.rot k) hv
    | mul _ _ ih ih' => exact .mulRot ih ih'
    | inv _ ih => exact .inverseRot ih
  obtain ⟨o, h1, h2, h3⟩ := c01_total hε this
  obtain ⟨R, rfl⟩ := Kind.rot_of h1
  exact ⟨R, Means.rotation_valid hε h2, h2, h3⟩

/-- **C02.** Whatever rotation an expression evaluates to is a valid one. -/
theorem c02_valid {R : M3} (h : Yields ε s e (.rot R)) : IsRotation R := by
  obtain ⟨τ, p, v, -, -, hv, ho⟩ := h
  rcases τ with k | _ | k | k <;> simp only [obj, reduceCtorEq, Obj.rot.injEq] at ho
  rw [← ho]
  exact rotDen_rotation hv

example := c02_valid (c02_inverse dblEps_pos (demo_means (.rot .aa))).2.2

/-- **C02.** For quaternion objects the stored coefficients themselves satisfy the group laws: no sign
ambiguity is introduced by composition or inversion. -/
theorem c02_quaternion_exact (a b c c1 c2 c3 : ℕ) (ha : ValidRot .quat (s a (.rot .quat))) :
    let A := SExpr.leaf a c1 (.rot .quat)
    let B := SExpr.leaf b c2 (.rot .quat)
    let C := SExpr.leaf c c3 (.rot .quat)
    (A * B * C).value ε s = (A * (B * C)).value ε s ∧
      (A * A⁻¹).value ε s = some ⟨.rot .quat, (⟨1, 0, 0, 0⟩ : Quat)⟩ ∧
      (A⁻¹ * A).value ε s = some ⟨.rot .quat, (⟨1, 0, 0, 0⟩ : Quat)⟩ ∧
      A⁻¹⁻¹.value ε s = A.value ε s := by
  intro A B C
  have hu := (validRot_quat _).mp ha
  refine ⟨?_, ?_, ?_, ?_⟩
  · exact congrArg (fun q : Quat => some (⟨.rot .quat, q⟩ : (τ : Ty) × τ.Val)) (Quat.mul_assoc _ _ _)
  · exact congrArg (fun q : Quat => some (⟨.rot .quat, q⟩ : (τ : Ty) × τ.Val)) (Quat.mul_conj hu)
  · exact congrArg (fun q : Quat => some (⟨.rot .quat, q⟩ : (τ : Ty) × τ.Val)) (Quat.conj_mul hu)
  · refine congrArg (fun q : Quat => some (⟨.rot .quat, q⟩ : (τ : Ty) × τ.Val)) ?_
    change Quat.conj (Quat.conj _) = _
    simp [Quat.conj]
    rfl

example := c02_quaternion_exact (ε := dblEps) 1 2 3 0 0 0 (demo_valid 1 (.rot .quat))

/-- **C03.** Rotating is an action. -/
theorem c03_action (hε : 0 < ε) {A B : M3} {v : V3} (he : Means ε s e (.rot A))
    (hf : Means ε s f (.rot B)) (hg : Means ε s g (.vec .trans v)) :
    ∃ x, Yields ε s (e * f * g) (.vec .trans x) ∧ Yields ε s (e * (f * g)) (.vec .trans x) :=
  ⟨A *ᵥ (B *ᵥ v), by
    rw [Matrix.mulVec_mulVec]; exact c01_evaluation_meaning hε (.rotate (.mulRot he hf) hg),
    c01_evaluation_meaning hε (.rotate he (.rotate hf hg))⟩

example := c03_action dblEps_pos (demo_means (.rot .quat)) (demo_means (.rot .mat))
  (demo_means (.vec .trans))

/-- **C03.** The inverse rotation undoes the rotation. -/
theorem c03_inverse (hε : 0 < ε) {A : M3} {v : V3} (he : Means ε s e (.rot A))
    (hg : Means ε s g (.vec .trans v)) :
    Yields ε s (e⁻¹ * (e * g)) (.vec .trans v) ∧ Yields ε s (e * (e⁻¹ * g)) (.vec .trans v) := by
  have h := Means.rotation_valid hε he
  have h1 : A * A⁻¹ = 1 := by rw [h.inv_eq]; exact h.1
  have h2 : A⁻¹ * A = 1 := mul_eq_one_comm.mp h1
  constructor
  · have := c01_evaluation_meaning hε (.rotate (.inverseRot he) (.rotate he hg))
    rwa [Matrix.mulVec_mulVec, h2, Matrix.one_mulVec] at this
  · have := c01_evaluation_meaning hε (.rotate he (.rotate (.inverseRot he) hg))
    rwa [Matrix.mulVec_mulVec, h1, Matrix.one_mulVec] at this

example := c03_inverse dblEps_pos (demo_means (.rot .aa)) (demo_means (.vec .trans))

theorem Spec.IsRotation.dot_mulVec {R : M3} (h : IsRotation R) (v w : V3) :
    (R *ᵥ v) ⬝ᵥ (R *ᵥ w) = v ⬝ᵥ w := by
  rw [Matrix.dotProduct_mulVec, Matrix.vecMul_mulVec, h.transpose_mul_self, Matrix.vecMul_one]

/-- **C03.** Rotating preserves inner products. -/
theorem c03_dot (hε : 0 < ε) {A : M3} {v w : V3} (he : Means ε s e (.rot A))
    (hf : Means ε s f (.vec .trans v)) (hg : Means ε s g (.vec .trans w)) :
    Yields ε s (.bin .dot (e * f) (e * g)) (.vec .scalar fun _ => v ⬝ᵥ w) := by
  have := c01_evaluation_meaning hε (.dot (.rotate he hf) (.rotate he hg))
  rwa [(Means.rotation_valid hε he).dot_mulVec] at this

example := c03_dot dblEps_pos (demo_means (.rot .aa)) (demo_means (.vec .trans))
  (.neg (demo_means (.vec .trans)))

/-- **C03.** Rotating preserves norms. -/
theorem c03_norm (hε : 0 < ε) {A : M3} {v : V3} (he : Means ε s e (.rot A))
    (hf : Means ε s f (.vec .trans v)) :
    Yields ε s (.un .norm (e * f)) (.vec .scalar fun _ => √(v ⬝ᵥ v)) ∧
      Yields ε s (.un .norm f) (.vec .scalar fun _ => √(v ⬝ᵥ v)) := by
  constructor
  · have := c01_evaluation_meaning hε (.norm (.rotate he hf))
    rwa [(Means.rotation_valid hε he).dot_mulVec] at this
  · exact c01_evaluation_meaning hε (.norm hf)

example := c03_norm dblEps_pos (demo_means (.rot .quat)) (demo_means (.vec .trans))

/-- **C03.** Rotating is linear. -/
theorem c03_linear (hε : 0 < ε) {A : M3} {v w : V3} (he : Means ε s e (.rot A))
    (hf : Means ε s f (.vec .trans v)) (hg : Means ε s g (.vec .trans w)) :
    ∃ x, Yields ε s (e * (f + g)) (.vec .trans x) ∧ Yields ε s (e * f + e * g) (.vec .trans x) :=
  ⟨A *ᵥ v + A *ᵥ w, by
    rw [← Matrix.mulVec_add]; exact c01_evaluation_meaning hε (.rotate he (.addVec hf hg)),
    c01_evaluation_meaning hε (.addVec (.rotate he hf) (.rotate he hg))⟩

example := c03_linear dblEps_pos (demo_means (.rot .mat)) (demo_means (.vec .trans))
  (.addVec (demo_means (.vec .trans)) (demo_means (.vec .trans)))

/-- **C03.** Any two objects that store the same rotation (quaternion, matrix or angle-axis) rotate
every vector to the same result. -/
theorem c03_representation (hε : 0 < ε) {A : M3} {v : V3} (he : Means ε s e (.rot A))
    (hf : Means ε s f (.rot A)) (hg : Means ε s g (.vec .trans v)) :
    Yields ε s (e * g) (.vec .trans (A *ᵥ v)) ∧ Yields ε s (f * g) (.vec .trans (A *ᵥ v)) :=
  ⟨c01_evaluation_meaning hε (.rotate he hg), c01_evaluation_meaning hε (.rotate hf hg)⟩

/-- A quaternion and a matrix holding the same rotation. -/
example := c03_representation dblEps_pos demo2_quat demo2_mat (.leaf 1 0 (.vec .trans) trivial)

/-- **C44.** Whatever numbers are drawn, `Random()` of each rotation class is a valid rotation. -/
theorem c44_random_rotation (k : RotK) {r u1 u2 : ℝ} (h0 : 0 ≤ r) (h1 : r ≤ 1) :
    ∃ x, randomRot k r u1 u2 = some x ∧ ValidRot k x := by
  have hs1 : √(1 - r) ^ 2 = 1 - r := Real.sq_sqrt (by linarith)
  have hs2 : √r ^ 2 = r := Real.sq_sqrt h0
  set q : Quat := ⟨Real.cos (2 * Real.pi * u2) * √r, Real.sin (2 * Real.pi * u1) * √(1 - r),
    Real.cos (2 * Real.pi * u1) * √(1 - r), Real.sin (2 * Real.pi * u2) * √r⟩ with hq
  have hr : randomQuaternion r u1 u2 = some q := by
    simp only [randomQuaternion, rsqrt, if_pos h0, if_pos (sub_nonneg.mpr h1)]
    rfl
  have hu : q.IsUnit := by
    have a := Real.sin_sq_add_cos_sq (2 * Real.pi * u1)
    have b := Real.sin_sq_add_cos_sq (2 * Real.pi * u2)
    unfold Quat.IsUnit
    simp only [hq]
    linear_combination √(1 - r) ^ 2 * a + √r ^ 2 * b + hs1 + hs2
  refine ⟨rotFromQuat k q, by rw [randomRot, hr]; rfl, ?_⟩
  cases k
  · exact (validRot_quat _).mpr hu
  · exact Quat.toMatrix_isRotation hu
  · exact (validRot_aa _).mpr (AngleAxis.ofQuat_spec hu).1

/-- **C44.** `Random()` of each rigid transform class is a valid rigid transform. -/
theorem c44_random_rigid (k : RigK) {r u1 u2 : ℝ} (t : V3) (h0 : 0 ≤ r) (h1 : r ≤ 1) :
    ∃ x, randomRigid k r u1 u2 t = some x ∧ ValidRigid k x := by
  obtain ⟨q, hq, hv⟩ := c44_random_rotation .quat (u1 := u1) (u2 := u2) h0 h1
  have hr : randomQuaternion r u1 u2 = some q := by
    obtain ⟨q', h, h'⟩ := Option.map_eq_some_iff.mp hq
    rw [h]; exact congrArg some h'
  refine ⟨rigidFromQuat k q t, by rw [randomRigid, hr]; rfl, ?_⟩
  cases k
  · exact valid_mk4 _ (Quat.toMatrix_isRotation ((validRot_quat _).mp hv))
  · exact valid_compact _ ((validRot_quat _).mp hv)

example := c44_random_rigid .compact (u1 := 1 / 3) (u2 := 1 / 5) ![1, 2, 3]
  (by norm_num : (0 : ℝ) ≤ 1 / 4) (by norm_num)

/-! Non-vacuity: quaternion, matrix and angle-axis objects of the demonstration memory. -/

example : ∃ A B C, Means dblEps demo (lf (.rot .quat)) (.rot A) ∧ Means dblEps demo (lf (.rot .mat)) (.rot B) ∧
    Means dblEps demo (lf (.rot .aa)) (.rot C) := ⟨_, _, _, demo_means _, demo_means _, demo_means _⟩

example : RotWord demo ((lf (.rot .quat) * (lf (.rot .mat))⁻¹)⁻¹ * lf (.rot .aa)) :=
  .mul (.inv (.mul (.leaf _ _ .quat (demo_valid 1 (.rot .quat)))
    (.inv (.leaf _ _ .mat (demo_valid 1 (.rot .mat)))))) (.leaf _ _ .aa (demo_valid 1 (.rot .aa)))

/-- An expression meaning the identity: `q * q⁻¹`. -/
example : Means dblEps demo (lf (.rot .quat) * (lf (.rot .quat))⁻¹) (.rot 1) := by
  have hv : IsRotation (rotDen .quat (demo 1 (.rot .quat))) := rotDen_rotation (demo_valid 1 (.rot .quat))
  have := Means.mulRot (demo_means (.rot .quat)) (.inverseRot (demo_means (.rot .quat)))
  rwa [hv.inv_eq, hv.1] at this

example : ∃ x, randomRot .aa (1 / 4) (1 / 3) (1 / 5) = some x ∧ ValidRot .aa x :=
  c44_random_rotation .aa (by norm_num) (by norm_num)

/-- `q * q⁻¹` is the identity, so neutral. -/
example : Yields dblEps demo (lf (.rot .aa) * (lf (.rot .quat) * (lf (.rot .quat))⁻¹))
    (.rot (rotDen .aa (demo 1 (.rot .aa)))) := by
  have hv : IsRotation (rotDen .quat (demo 1 (.rot .quat))) := rotDen_rotation (demo_valid 1 (.rot .quat))
  have h := Means.mulRot (demo_means (.rot .quat)) (.inverseRot (demo_means (.rot .quat)))
  rw [hv.inv_eq, hv.1] at h
  exact (c02_identity dblEps_pos (demo_means (.rot .aa)) h).1

example := c02_closed dblEps_pos (RotWord.mul (.inv (.leaf 1 0 .quat (demo_valid 1 (.rot .quat))))
  (.leaf 1 0 .aa (demo_valid 1 (.rot .aa))))

end WG
