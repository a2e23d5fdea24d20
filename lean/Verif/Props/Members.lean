import Verif.Props.Finite
import Verif.Props.Evaluation

/-!
# The parts of a transform (C57)

`x.rotation()` and `x.translation()` of rigid transforms and of rotations.
-/

namespace WG
open Matrix Spec

variable {ε : ℝ} {s : Memory}

/-- **C57 (values).** The parts of a rigid transform evaluate to its rotation and its translation;
the parts of a rotation are that rotation and the zero translation.  All representations, all
expressions. -/
theorem c57_parts (hε : 0 < ε) {e : SExpr} :
    (∀ {T : Rigid}, Means ε s e (.motion T) →
      Yields ε s (.un .rotation e) (.rot T.R) ∧ Yields ε s (.un .translation e) (.vec .trans T.t)) ∧
    (∀ {R : M3}, Means ε s e (.rot R) →
      Yields ε s (.un .rotation e) (.rot R) ∧ Yields ε s (.un .translation e) (.vec .trans 0)) :=
  ⟨fun h => ⟨c01_evaluation_meaning hε (.rotation h), c01_evaluation_meaning hε (.translation h)⟩,
    fun h => ⟨c01_evaluation_meaning hε (.rotationRot h), c01_evaluation_meaning hε (.translationRot h)⟩⟩

/-- **C57 (the parts determine the action).** `x * v` and `x.rotation() * v + x.translation()` evaluate
to the same vector, whether `x` is a rotation or a rigid transform. -/
theorem c57_action (hε : 0 < ε) {e f : SExpr} {o : Obj} {v : V3}
    (he : (∃ R, Means ε s e (.rot R)) ∨ ∃ T, Means ε s e (.motion T))
    (hf : Means ε s f (.vec .trans v)) (hm : Means ε s (e * f) o) :
    Yields ε s (e * f) o ∧
      Yields ε s ((.un .rotation e) * f + (.un .translation e)) o := by
  refine ⟨c01_evaluation_meaning hε hm, ?_⟩
  rcases he with ⟨R, h⟩ | ⟨T, h⟩
  · obtain rfl := c01_meaning_unique hε hm (.rotate h hf)
    have := c01_evaluation_meaning hε (.addVec (.rotate (.rotationRot h) hf) (.translationRot h))
    rwa [add_zero] at this
  · obtain rfl := c01_meaning_unique hε hm (.act h hf)
    exact c01_evaluation_meaning hε (.addVec (.rotate (.rotation h) hf) (.translation h))

/-- **C57 (rotation of a rotation).** `R.rotation()` is the expression `R` itself: the same objects
are read and every evaluation and Jacobian call gives the same answer. -/
theorem c57_rotation_same (hε : 0 < ε) {e : SExpr} {R : M3} (h : Means ε s e (.rot R)) :
    SExpr.elab ε (.un .rotation e) = e.elab ε := by
  obtain ⟨x, hx, hg⟩ := means_acc hε h
  obtain ⟨k, p, v, rfl, -⟩ := hg.rot
  change (e.elab ε).bind _ = _
  rw [hx]; rfl

/-- **C57 (no Jacobian of the translation of a rotation).** Every Jacobian of `R.translation()` with
respect to an object written in `R` is an error, although the value does not depend on it. -/
theorem c57_translation_no_jacobian (hε : 0 < ε) (hε1 : ε ≤ 1) {e : SExpr} {R : M3}
    (h : Means ε s e (.rot R)) (hp : NoDynamic e) {x : Tree ε}
    (hx : SExpr.elab ε (.un .translation e) = some x) {t : Target (geoLib ε)} (ht : t ∈ written ε e) :
    x.2.jacobianAuto (L := geoLib ε) s t = none := by
  have := (c16_finite_iff hε hε1 (.translationRot h) hp hx ht).not
  rcases hj : x.2.jacobianAuto (L := geoLib ε) s t with _ | J
  · rfl
  · refine absurd ⟨J, hj⟩ (this.mpr (not_not.mpr ?_))
    rw [singularFor_un hε h]
    exact .inr ⟨ht, trivial⟩

/-- An angle-axis times a quaternion: its parts, and its action on a vector. -/
example := c57_action dblEps_pos (.inl ⟨_, .mulRot (demo_means (.rot .aa)) (demo_means (.rot .quat))⟩)
  (demo_means (.vec .trans))
  (.rotate (.mulRot (demo_means (.rot .aa)) (demo_means (.rot .quat))) (demo_means (.vec .trans)))

example := c57_rotation_same dblEps_pos (.mulRot (demo_means (.rot .aa)) (demo_means (.rot .quat)))

/-- `m.translation()` of a matrix rotation is accepted and has no Jacobian with respect to `m`. -/
example : ∃ x, SExpr.elab dblEps (.un .translation (lf (.rot .mat))) = some x ∧
    x.2.jacobianAuto (L := geoLib dblEps) demo ⟨1, 0, .rot .mat⟩ = none := by
  refine ⟨_, rfl, c57_translation_no_jacobian dblEps_pos dblEps_lt.le (demo_means (.rot .mat)) trivial
    rfl (List.mem_singleton.mpr rfl)⟩

example := (c57_parts (s := demo) dblEps_pos).1 (.inverseMotion (demo_means (.rigid .compact))
  (rigid_inverse_exists (Means.motion_valid dblEps_pos (demo_means (.rigid .compact)))).choose_spec)

end WG
