import Verif.Lemmas.Represent
import Verif.Props.Differentiation

/-!
# C23: Jacobians do not depend on the representation of rotations and rigid transforms
-/

namespace WG
open Matrix Spec

variable {ε : ℝ} {s : Memory}

/-- **C23 (Jacobians).** Let two expressions without dynamic parts differ only in the classes (and
places) of their leaves, corresponding leaves holding the same object, and let `t` and `t'` stand at
the same places in the two.  If the first has a meaning, `jacobian(t)` of the first and
`jacobian(t')` of the second are the same matrix (and are finite together). -/
theorem c23_jacobian_representation_independent (hε : 0 < ε) {e e' : SExpr}
    (hr : SameUpToRepresentation s e e') {o : Obj} (hm : Means ε s e o) {x x' : Tree ε}
    (hx : e.elab ε = some x) (hx' : e'.elab ε = some x') (hp : NoDynamic e) (hp' : NoDynamic e')
    {t t' : Target (geoLib ε)} (ht : t ∈ written ε e)
    (hal : List.Forall₂ (fun u u' => u = t ↔ u' = t') (written ε e) (written ε e')) :
    x.1.Idx = x'.1.Idx ∧ Ty.Idx t.ty = Ty.Idx t'.ty ∧
      HEq (x.2.jacobianAuto (L := geoLib ε) s t) (x'.2.jacobianAuto (L := geoLib ε) s t') := by
  obtain ⟨h1, h2, h3⟩ := same_total hε hr hm hx hx' ht hal
  obtain ⟨w1, n1, -⟩ := elab_written e hx
  obtain ⟨w2, n2, -⟩ := elab_written e' hx'
  refine ⟨h1, h2, ?_⟩
  rw [c20_auto (L := geoLib ε) s t x.2 (w1 ▸ ht) (.inl (n1 hp)),
    c20_auto (L := geoLib ε) s t' x'.2 (w2 ▸ (same_twin hr hal ht).1) (.inl (n2 hp'))]
  exact h3

/-- **C23 (dynamic Jacobians).** The same for `evaluateDynamicJacobian`, with any number of dynamic
nodes in either expression. -/
theorem c23_dynamic_jacobian_representation_independent (hε : 0 < ε) {e e' : SExpr}
    (hr : SameUpToRepresentation s e e') {o : Obj} (hm : Means ε s e o) {x x' : Tree ε}
    (hx : e.elab ε = some x) (hx' : e'.elab ε = some x')
    {t t' : Target (geoLib ε)} (ht : t ∈ written ε e)
    (hal : List.Forall₂ (fun u u' => u = t ↔ u' = t') (written ε e) (written ε e'))
    (hd : ∀ u ∈ written ε e, u.addr = t.addr → u = t) (h0 : t.addr ≠ 0)
    (hn : t.addr ∉ dynamicNodes e)
    (hd' : ∀ u ∈ written ε e', u.addr = t'.addr → u = t') (h0' : t'.addr ≠ 0)
    (hn' : t'.addr ∉ dynamicNodes e') :
    x.1.Idx = x'.1.Idx ∧ Ty.Idx t.ty = Ty.Idx t'.ty ∧
      HEq (x.2.dynJacobian (L := geoLib ε) s t.addr t.ty)
        (x'.2.dynJacobian (L := geoLib ε) s t'.addr t'.ty) := by
  obtain ⟨h1, h2, h3⟩ := same_total hε hr hm hx hx' ht hal
  obtain ⟨w1, -, n1⟩ := elab_written e hx
  obtain ⟨w2, -, n2⟩ := elab_written e' hx'
  refine ⟨h1, h2, ?_⟩
  rw [(c21_dynamic_forward (L := geoLib ε) s t x.2
      ⟨w1 ▸ hd, fun h => (n1 _ h).elim h0 hn⟩).1,
    (c21_dynamic_forward (L := geoLib ε) s t' x'.2
      ⟨w2 ▸ hd', fun h => (n2 _ h).elim h0' hn'⟩).1]
  exact h3

/-- Memory in which the quaternion at every address and the matrix at every address hold the same
rotation. -/
noncomputable def twinMem : Memory := fun a τ => match τ with
  | .rot .mat => (⟨3/5, 0, 0, 4/5⟩ : Quat).toMatrix
  | τ => demo a τ

/-- Non-vacuity: `Q * (M * Q)` with a quaternion `Q` written twice, against the expression in which
`Q` is stored as a matrix; the places of `Q` correspond. -/
example : SameUpToRepresentation twinMem
    ((.leaf 1 0 (.rot .quat) * (.leaf 2 0 (.rot .mat) * .leaf 1 0 (.rot .quat))) : SExpr)
    ((.leaf 3 0 (.rot .mat) * (.leaf 2 0 (.rot .mat) * .leaf 3 0 (.rot .mat))) : SExpr) ∧
    List.Forall₂ (fun u u' : Target (geoLib dblEps) =>
        u = ⟨1, 0, .rot .quat⟩ ↔ u' = ⟨3, 0, .rot .mat⟩)
      (written dblEps (.leaf 1 0 (.rot .quat) * (.leaf 2 0 (.rot .mat) * .leaf 1 0 (.rot .quat))))
      (written dblEps (.leaf 3 0 (.rot .mat) * (.leaf 2 0 (.rot .mat) * .leaf 3 0 (.rot .mat)))) ∧
    ∃ o, Means dblEps twinMem
      (.leaf 1 0 (.rot .quat) * (.leaf 2 0 (.rot .mat) * .leaf 1 0 (.rot .quat))) o := by
  have hq : Valid (.rot .quat) (twinMem 1 (.rot .quat)) := (validRot_quat _).mpr demo_quat
  have hm : ∀ a, Valid (.rot .mat) (twinMem a (.rot .mat)) := fun a =>
    Quat.toMatrix_isRotation demo_quat
  have ho : obj (.rot .quat) (twinMem 1 (.rot .quat)) = obj (.rot .mat) (twinMem 3 (.rot .mat)) :=
    congrArg Obj.rot (rotDen_quat_unit demo_quat)
  refine ⟨.bin .mul (.leaf _ _ _ _ _ _ hq (hm 3) ho) (.bin .mul (.leaf _ _ _ _ _ _ (hm 2) (hm 2) rfl)
    (.leaf _ _ _ _ _ _ hq (hm 3) ho)), ?_, _,
    .mulRot (.leaf _ _ _ hq) (.mulRot (.leaf _ _ _ (hm 2)) (.leaf _ _ _ hq))⟩
  refine .cons (by simp) (.cons ?_ (.cons (by simp) .nil))
  constructor <;> intro h <;> cases h

end WG
