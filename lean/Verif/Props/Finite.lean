import Verif.Lemmas.Singular

/-!
# C16: exactly when a Jacobian is finite
-/

namespace WG
open Matrix Spec

variable {ε : ℝ} {s : Memory}

/-- **C16 (exact condition).** For every expression with a meaning and every object written in it,
`jacobian(x)` is finite exactly when no operation with that object in an operand is at a singular
point of that operand.  The singular points, and no others, are: zero for `norm` and `normalized`,
`1` and `-1` for `acos`, zero angular velocity for `exp` of twists (and the twist operand of
box-plus), identity rotation for `log`, equal orientations for box-minus. -/
theorem c16_finite_iff (hε : 0 < ε) (hε1 : ε ≤ 1) {e : SExpr} {o : Obj} (hm : Means ε s e o)
    (hp : NoDynamic e) {x : Tree ε} (hx : e.elab ε = some x) {t : Target (geoLib ε)}
    (ht : t ∈ written ε e) :
    (∃ J, x.2.jacobianAuto (L := geoLib ε) s t = some J) ↔ ¬SingularFor ε s t e := by
  obtain ⟨h1, h2, -⟩ := elab_written e hx
  rw [← sing_means hε hm hx, ← total_iff hε hε1 s t x.2 (means_regular hε hm hx) (h1 ▸ ht)]
  exact (c20_auto (L := geoLib ε) s t x.2 (h1 ▸ ht) (.inl (h2 hp))) ▸ Iff.rfl

/-- **C16 (exact condition, dynamic parts).** The same for `evaluateDynamicJacobian`, with any number
of dynamic handles inside, provided the target is told apart by its address. -/
theorem c16_dynamic_finite_iff (hε : 0 < ε) (hε1 : ε ≤ 1) {e : SExpr} {o : Obj} (hm : Means ε s e o)
    {x : Tree ε} (hx : e.elab ε = some x) {t : Target (geoLib ε)} (ht : t ∈ written ε e)
    (ho : ∀ u ∈ written ε e, u.addr = t.addr → u = t) (h0 : t.addr ≠ 0)
    (hn : t.addr ∉ dynamicNodes e) :
    (∃ J, x.2.dynJacobian (L := geoLib ε) s t.addr t.ty = some J) ↔ ¬SingularFor ε s t e := by
  obtain ⟨h1, -, h3⟩ := elab_written e hx
  have hd : Distinguished t x.2 := ⟨h1 ▸ ho, fun h => (h3 _ h).elim h0 hn⟩
  rw [← sing_means hε hm hx, ← total_iff hε hε1 s t x.2 (means_regular hε hm hx) (h1 ▸ ht)]
  exact ((c21_dynamic_forward (L := geoLib ε) s t x.2 hd).1) ▸ Iff.rfl

/-- **C16 (finite and right).** Away from the singular points the Jacobian is finite and is the
derivative. -/
theorem c16_finite_derivative (hε : 0 < ε) (hε1 : ε ≤ 1) {e : SExpr} {o : Obj} (hm : Means ε s e o)
    (hp : NoDynamic e) {x : Tree ε} (hx : e.elab ε = some x) {t : Target (geoLib ε)}
    (ht : t ∈ written ε e) (ho : ∀ u ∈ written ε e, u.addr = t.addr → u.ty = t.ty → u = t)
    (hs : ¬SingularFor ε s t e) :
    ∃ J, x.2.jacobianAuto (L := geoLib ε) s t = some J ∧ IsDerivative (ε := ε) s t x.2 J := by
  obtain ⟨J, hJ⟩ := (c16_finite_iff hε hε1 hm hp hx ht).mpr hs
  obtain ⟨h1, h2, -⟩ := elab_written e hx
  have h3 := c20_auto (L := geoLib ε) s t x.2 (h1 ▸ ht) (.inl (h2 hp))
  exact ⟨J, hJ, response_deriv hε hε1 s t x.2 (means_regular hε hm hx) (h1 ▸ ht) (h1 ▸ ho)
    (h3.symm.trans hJ)⟩

/-- **C16 (box-plus at the zero twist).** `T + ξ` at a twist without rotation: the Jacobian with
respect to `T` is finite and the one with respect to `ξ` is not. -/
theorem c16_boxplus_zero_twist (hε : 0 < ε) (hε1 : ε ≤ 1) (s : Memory) (k : RigK) (a b : ℕ)
    (hv : Valid (.rigid k) (s a (.rigid k))) (h0 : angular (s b (.vec .twist)) = 0) :
    ∃ x, (SExpr.leaf a 0 (.rigid k) + .leaf b 0 (.vec .twist)).elab ε = some x ∧
      (∃ J, x.2.jacobianAuto (L := geoLib ε) s ⟨a, 0, .rigid k⟩ = some J) ∧
      x.2.jacobianAuto (L := geoLib ε) s ⟨b, 0, .vec .twist⟩ = none := by
  set ξ : Twist := s b (.vec .twist) with hξ
  let D : Rigid := ⟨rodr ξ.rot, vmat ξ.rot *ᵥ ξ.trans⟩
  have hD : D.hom = NormedSpace.exp (twistMat ξ) := (motion_exp_iff _ _).mpr ⟨rfl, rfl⟩
  have m1 : Means ε s (.leaf a 0 (.rigid k)) (.motion _) := .leaf a 0 (.rigid k) hv
  have m2 : Means ε s (.leaf b 0 (.vec .twist)) (.vec .twist ξ) := .leaf b 0 (.vec .twist) trivial
  have hm : Means ε s (.bin .add (.leaf a 0 (.rigid k)) (.leaf b 0 (.vec .twist))) _ :=
    .boxPlusMotion m1 m2 hD (.inl h0)
  obtain ⟨x, hx, -⟩ := means_acc hε hm
  refine ⟨x, hx, (c16_finite_iff hε hε1 hm ⟨trivial, trivial⟩ hx (List.mem_cons_self ..)).mpr ?_, ?_⟩
  · rw [singularFor_bin hε m1 m2]
    rintro (h | h | h | h)
    · exact h
    · exact h
    · exact h.2
    · have := h.1
      change _ ∈ [_] at this
      simp at this
  · have h := (c16_finite_iff hε hε1 hm ⟨trivial, trivial⟩ hx (t := ⟨b, 0, .vec .twist⟩)
      (List.mem_cons_of_mem _ (List.mem_cons_self ..))).not.mpr (not_not.mpr
        ((singularFor_bin hε m1 m2).mpr (.inr (.inr (.inr ⟨List.mem_cons_self .., h0⟩)))))
    cases hj : x.2.jacobianAuto (L := geoLib ε) s ⟨b, 0, .vec .twist⟩ with
    | none => rfl
    | some J => exact absurd ⟨J, hj⟩ h

section Examples

/-- Both sides of the condition occur in one expression: `‖v - v‖` is singular for `v`, `‖v‖` is
not (`v` has all coordinates 1). -/
example : (∃ o, Means dblEps demo (.un .norm (lf (.vec .trans) - lf (.vec .trans))) o) ∧
    SingularFor dblEps demo ⟨1, 0, .vec .trans⟩ (.un .norm (lf (.vec .trans) - lf (.vec .trans))) := by
  have m : Means dblEps demo (lf (.vec .trans)) (.vec .trans (demo 1 (.vec .trans))) :=
    .leaf 1 0 (.vec .trans) trivial
  have m' := Means.subVec m m
  refine ⟨⟨_, .norm m'⟩, (singularFor_un dblEps_pos m').mpr (.inr ⟨?_, ?_⟩)⟩
  · exact List.mem_cons_self ..
  · exact sub_self _

example : (∃ o, Means dblEps demo (.un .norm (lf (.vec .trans))) o) ∧
    ¬SingularFor dblEps demo ⟨1, 0, .vec .trans⟩ (.un .norm (lf (.vec .trans))) := by
  have m : Means dblEps demo (lf (.vec .trans)) (.vec .trans (demo 1 (.vec .trans))) :=
    .leaf 1 0 (.vec .trans) trivial
  refine ⟨⟨_, .norm m⟩, fun h => ?_⟩
  rcases (singularFor_un dblEps_pos m).mp h with h | h
  · exact h
  · have h1 : (fun _ => 1 : Fin 3 → ℝ) = 0 := h.2
    have := congrFun h1 0
    simp at this

/-- Hypotheses of the dynamic form. -/
example : (∃ o, Means dblEps demo (.dynamic 9 (.un .norm (lf (.vec .trans)))) o) ∧
    (1 : ℕ) ∉ dynamicNodes (.dynamic 9 (.un .norm (lf (.vec .trans)))) :=
  ⟨⟨_, .dynamic 9 rfl (.norm (.leaf 1 0 (.vec .trans) trivial))⟩, by simp [dynamicNodes]⟩

/-- A memory for `c16_boxplus_zero_twist`. -/
example : ∃ s : Memory, Valid (.rigid .compact) (s 1 (.rigid .compact)) ∧
    angular (s 2 (.vec .twist)) = 0 := by
  let s : Memory := fun a τ => match τ with
    | .vec .twist => fun _ => 0
    | τ => demo a τ
  exact ⟨s, demo_valid 1 (.rigid .compact), rfl⟩

end Examples

end WG
