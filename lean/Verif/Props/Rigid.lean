import Verif.Props.Manifold

/-!
# C04: rigid transforms form a group acting on points
-/

namespace WG
open Matrix Spec

variable {ε : ℝ} {s : Memory} {e f g : SExpr}

/-- **C04.** Composition is associative, in any mix of storage classes. -/
theorem c04_assoc (hε : 0 < ε) {A B C : Rigid} (he : Means ε s e (.motion A))
    (hf : Means ε s f (.motion B)) (hg : Means ε s g (.motion C)) :
    ∃ T, Yields ε s (e * f * g) (.motion T) ∧ Yields ε s (e * (f * g)) (.motion T) :=
  ⟨(A.comp B).comp C, c01_evaluation_meaning hε (.mulMotion (.mulMotion he hf) hg), by
    rw [Rigid.comp_assoc]; exact c01_evaluation_meaning hε (.mulMotion he (.mulMotion hf hg))⟩

example := c04_assoc dblEps_pos (demo_means (.rigid .mat)) (demo_means (.rigid .compact))
  (demo_means (.rigid .mat))

/-- **C04.** `T * T.inverse()` and `T.inverse() * T` are the identity motion, and inverting twice gives
the motion back. -/
theorem c04_inverse (hε : 0 < ε) {A : Rigid} (he : Means ε s e (.motion A)) :
    Yields ε s (e * e⁻¹) (.motion Rigid.id) ∧ Yields ε s (e⁻¹ * e) (.motion Rigid.id) ∧
      Yields ε s e⁻¹⁻¹ (.motion A) := by
  obtain ⟨B, hB⟩ := rigid_inverse_exists (Means.motion_valid hε he)
  have hB' := Rigid.inv_comm hB
  refine ⟨?_, ?_, ?_⟩
  · rw [← hB]; exact c01_evaluation_meaning hε (.mulMotion he (.inverseMotion he hB))
  · rw [← hB']; exact c01_evaluation_meaning hε (.mulMotion (.inverseMotion he hB) he)
  · exact c01_evaluation_meaning hε (.inverseMotion (.inverseMotion he hB) hB')

example := c04_inverse dblEps_pos (.mulMotion (demo_means (.rigid .compact)) (demo_means (.rigid .mat)))

/-- **C04.** A transform that is the identity motion is neutral on both sides. -/
theorem c04_identity (hε : 0 < ε) {A : Rigid} (he : Means ε s e (.motion A))
    (hf : Means ε s f (.motion Rigid.id)) :
    Yields ε s (e * f) (.motion A) ∧ Yields ε s (f * e) (.motion A) := by
  constructor
  · have := c01_evaluation_meaning hε (.mulMotion he hf)
    rwa [Rigid.comp_id] at this
  · have := c01_evaluation_meaning hε (.mulMotion hf he)
    rwa [Rigid.id_comp] at this

/-- `T * T⁻¹` is the identity. -/
example : ∃ A, Yields dblEps demo (lf (.rigid .mat) * (lf (.rigid .compact) * (lf (.rigid .compact))⁻¹))
    (.motion A) := by
  obtain ⟨S, hS⟩ := rigid_inverse_exists
    (Means.motion_valid dblEps_pos (demo_means (.rigid .compact)))
  have h := Means.mulMotion (demo_means (.rigid .compact)) (.inverseMotion (demo_means (.rigid .compact)) hS)
  rw [hS] at h
  exact ⟨_, (c04_identity dblEps_pos (demo_means (.rigid .mat)) h).1⟩

/-- **C04.** The composition acts as the composition of the actions: `(T1*T2)*p = T1*(T2*p)`, the point
`R1 (R2 p + t2) + t1`. -/
theorem c04_action (hε : 0 < ε) {A B : Rigid} {p : V3} (he : Means ε s e (.motion A))
    (hf : Means ε s f (.motion B)) (hg : Means ε s g (.vec .trans p)) :
    Yields ε s (e * f * g) (.vec .trans (A.R *ᵥ (B.R *ᵥ p + B.t) + A.t)) ∧
      Yields ε s (e * (f * g)) (.vec .trans (A.R *ᵥ (B.R *ᵥ p + B.t) + A.t)) := by
  constructor
  · have := c01_evaluation_meaning hε (.act (.mulMotion he hf) hg)
    rwa [Rigid.comp_act] at this
  · exact c01_evaluation_meaning hε (.act he (.act hf hg))

/-- **C04.** `T.inverse() * (T * p) = p` and `T * (T.inverse() * p) = p`. -/
theorem c04_undo (hε : 0 < ε) {A : Rigid} {p : V3} (he : Means ε s e (.motion A))
    (hg : Means ε s g (.vec .trans p)) :
    Yields ε s (e⁻¹ * (e * g)) (.vec .trans p) ∧ Yields ε s (e * (e⁻¹ * g)) (.vec .trans p) := by
  obtain ⟨B, hB⟩ := rigid_inverse_exists (Means.motion_valid hε he)
  have hid : Rigid.id.act p = p := by simp [Rigid.act, Rigid.id]
  constructor
  · have := c01_evaluation_meaning hε (.act (.inverseMotion he hB) (.act he hg))
    rwa [← Rigid.comp_act, Rigid.inv_comm hB, hid] at this
  · have := c01_evaluation_meaning hε (.act he (.act (.inverseMotion he hB) hg))
    rwa [← Rigid.comp_act, hB, hid] at this

example := c04_undo dblEps_pos (demo_means (.rigid .mat)) (demo_means (.vec .trans))

/-- **C04.** Rigid transforms preserve distances: `|T*p - T*q| = |p - q|`. -/
theorem c04_isometry (hε : 0 < ε) {A : Rigid} {p q : V3} (he : Means ε s e (.motion A))
    (hf : Means ε s f (.vec .trans p)) (hg : Means ε s g (.vec .trans q)) :
    Yields ε s (.un .norm (e * f - e * g)) (.vec .scalar fun _ => √((p - q) ⬝ᵥ (p - q))) := by
  have := c01_evaluation_meaning hε (.norm (.subVec (.act he hf) (.act he hg)))
  have h2 : A.act p - A.act q = A.R *ᵥ (p - q) := by
    simp [Rigid.act, Matrix.mulVec_sub]
  rwa [h2, (Means.motion_valid hε he).dot_mulVec] at this

example := c04_isometry dblEps_pos (demo_means (.rigid .compact)) (demo_means (.vec .trans))
  (.neg (demo_means (.vec .trans)))

/-- **C04.** The parts of a composition: rotations compose, and `translation` is the image of the
origin. -/
theorem c04_parts (hε : 0 < ε) {A B : Rigid} (he : Means ε s e (.motion A))
    (hf : Means ε s f (.motion B)) :
    Yields ε s (.un .rotation (e * f)) (.rot (A.R * B.R)) ∧
      Yields ε s (.un .translation (e * f)) (.vec .trans (A.R *ᵥ B.t + A.t)) ∧
      Yields ε s (.un .rotation e * .un .rotation f) (.rot (A.R * B.R)) ∧
      Yields ε s (e * .un .translation f) (.vec .trans (A.R *ᵥ B.t + A.t)) :=
  ⟨c01_evaluation_meaning hε (.rotation (.mulMotion he hf)),
    c01_evaluation_meaning hε (.translation (.mulMotion he hf)),
    c01_evaluation_meaning hε (.mulRot (.rotation he) (.rotation hf)),
    c01_evaluation_meaning hε (.act he (.translation hf))⟩

example := c04_parts dblEps_pos (demo_means (.rigid .compact)) (demo_means (.rigid .mat))

/-- Non-vacuity: a matrix-stored and a compact transform acting on a vector. -/
example : ∃ x, Yields dblEps demo (lf (.rigid .mat) * lf (.rigid .compact) * lf (.vec .trans))
    (.vec .trans x) :=
  ⟨_, (c04_action dblEps_pos (demo_means (.rigid .mat)) (demo_means (.rigid .compact))
    (demo_means (.vec .trans))).1⟩

end WG
