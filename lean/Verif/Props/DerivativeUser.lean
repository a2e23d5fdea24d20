import Verif.Props.Derivative
import Verif.Lemmas.ElabRegular

/-!
# C14-C16 and C25 for expressions as the user writes them
-/

namespace WG
open Matrix Spec Filter Topology

variable {ε : ℝ}

/-! ## C14 -/

/-- **C14 (user expressions).** If the expression has a meaning at the current values of its objects
(every operation in it applied inside its regular region), and `jacobian(x)` has finite entries, then
it is the derivative at zero of `d ↦ eval(e with x replaced by x + d) - eval(e)`. -/
theorem c14_expression (hε : 0 < ε) (hε1 : ε ≤ 1) {s : Memory} {e : SExpr} {o : Obj}
    (hm : Means ε s e o) (hp : NoDynamic e) {x : Tree ε} (hx : e.elab ε = some x)
    {t : Target (geoLib ε)} (ht : t ∈ written ε e)
    (ho : ∀ u ∈ written ε e, u.addr = t.addr → u.ty = t.ty → u = t)
    {J : Matrix x.1.Idx t.ty.Idx ℝ} (hJ : x.2.jacobianAuto (L := geoLib ε) s t = some J) :
    ∃ F : (t.ty.Idx → ℝ) → x.1.Idx → ℝ,
      (∀ᶠ d in 𝓝 0, ((boxPlusVal ε t.ty (s t.addr t.ty) d).bind fun v =>
        (x.2.eval (Store.set (L := geoLib ε) s t.addr t.ty v)).bind fun y =>
          (x.2.eval (L := geoLib ε) s).bind fun y₀ => boxMinusVal ε x.1 y y₀) = some (F d)) ∧
      F 0 = 0 ∧ HasFDerivAt F (linMap J) 0 := by
  obtain ⟨h1, h2, -⟩ := elab_written e hx
  exact c14_jacobian_is_derivative hε hε1 s t x.2 (means_regular hε hm hx) (h1 ▸ ht) (h1 ▸ ho)
    (.inl (h2 hp)) hJ

/-- **C14 (user expressions with dynamic parts).** The same for `evaluateDynamicJacobian`, with any
number of dynamic handles inside, provided the target is told apart by its address. -/
theorem c14_expression_dynamic (hε : 0 < ε) (hε1 : ε ≤ 1) {s : Memory} {e : SExpr} {o : Obj}
    (hm : Means ε s e o) {x : Tree ε} (hx : e.elab ε = some x)
    {t : Target (geoLib ε)} (ht : t ∈ written ε e)
    (ho : ∀ u ∈ written ε e, u.addr = t.addr → u = t) (h0 : t.addr ≠ 0)
    (hn : t.addr ∉ dynamicNodes e) {J : Matrix x.1.Idx t.ty.Idx ℝ}
    (hJ : x.2.dynJacobian (L := geoLib ε) s t.addr t.ty = some J) :
    ∃ F : (t.ty.Idx → ℝ) → x.1.Idx → ℝ,
      (∀ᶠ d in 𝓝 0, ((boxPlusVal ε t.ty (s t.addr t.ty) d).bind fun v =>
        (x.2.eval (Store.set (L := geoLib ε) s t.addr t.ty v)).bind fun y =>
          (x.2.eval (L := geoLib ε) s).bind fun y₀ => boxMinusVal ε x.1 y y₀) = some (F d)) ∧
      F 0 = 0 ∧ HasFDerivAt F (linMap J) 0 := by
  obtain ⟨h1, -, h3⟩ := elab_written e hx
  exact c14_dynamic_jacobian_is_derivative hε hε1 s t x.2 (means_regular hε hm hx) (h1 ▸ ht)
    ⟨h1 ▸ ho, fun h => (h3 _ h).elim h0 hn⟩ hJ

theorem slope_some (hε : 0 < ε) (hε1 : ε ≤ 1) (s : Store (geoLib ε)) (t : Target (geoLib ε)) :
    {τ : Ty} → (e : Expr (geoLib ε) τ) → RegularAt ε s e → NonsingularAt ε s e → t ∈ objects e →
    ∃ J, total (occurrences s t e) = some J
  | _, .leaf a c τ, _, _, ht => by
    have : t = ⟨a, c, τ⟩ := by simpa [objects] using ht
    subst this
    refine ⟨1, ?_⟩
    unfold occurrences
    rw [dif_pos rfl]
    exact @add_zero (OMat _ _) _ _
  | _, .un a op e, hr, hn, ht => by
    obtain ⟨hr, hr'⟩ := hr
    obtain ⟨hn, hn'⟩ := hn
    obtain ⟨J, hJ⟩ := slope_some hε hε1 s t e hr hn ht
    obtain ⟨v, -, hv, -, hval, -⟩ := value_den hε (s' := s) e hr
      (fun o ho => ⟨regular_leaves e hr o ho, rfl⟩)
    obtain ⟨y, hy, -⟩ := un_sound hε op v hval (hr' v hv)
    obtain ⟨K, hK⟩ := c15_unary_finite hε hε1 op v hval (hr' v hv) (hn' v hv) hy
    have hs : slopeU s op e = some K := by
      unfold slopeU
      rw [hv]
      change (evalUn ε op v).bind (fun y => jacUn ε op y v) = _
      rw [hy]; exact hK
    have hne : occurrences s t e ≠ [] := fun h => (occ_nil_iff s t e).mp h ht
    refine ⟨K * J, ?_⟩
    change total ((occurrences s t e).map (OMat.mul (slopeU s op e))) = _
    rw [total_map_mul _ _ hne, hJ, hs]; rfl
  | _, .bin a op l r, hr, hn, ht => by
    obtain ⟨hl, hr, hr'⟩ := hr
    obtain ⟨hnl, hnr⟩ := hn
    have il := slope_some hε hε1 s t l hl hnl
    have ir := slope_some hε hε1 s t r hr hnr
    obtain ⟨v, -, hv, -, hval, -⟩ := value_den hε (s' := s) l hl
      (fun o ho => ⟨regular_leaves l hl o ho, rfl⟩)
    obtain ⟨w, -, hw, -, hwal, -⟩ := value_den hε (s' := s) r hr
      (fun o ho => ⟨regular_leaves r hr o ho, rfl⟩)
    obtain ⟨z, hz, -⟩ := bin_sound op v w hval hwal (hr' v w hv hw)
    obtain ⟨JL, JR, hL, hR⟩ := bin_jac_some op hz
    have hsl : slopeL s op l r = some JL := by
      unfold slopeL
      rw [hv, hw]
      change (evalBin op v w).bind (fun z => jacL op z v w) = _
      rw [hz]; exact hL
    have hsr : slopeR s op l r = some JR := by
      unfold slopeR
      rw [hv, hw]
      change (evalBin op v w).bind (fun z => jacR op z v w) = _
      rw [hz]; exact hR
    have e1 : ∃ A, total ((occurrences s t l).map (OMat.mul (slopeL s op l r))) = some A := by
      by_cases h : t ∈ objects l
      · obtain ⟨J, hJ⟩ := il h
        have hne : occurrences s t l ≠ [] := fun h' => (occ_nil_iff s t l).mp h' h
        exact ⟨JL * J, by rw [total_map_mul _ _ hne, hJ, hsl]; rfl⟩
      · exact ⟨0, by rw [(occ_nil_iff s t l).mpr h]; rfl⟩
    have e2 : ∃ A, total ((occurrences s t r).map (OMat.mul (slopeR s op l r))) = some A := by
      by_cases h : t ∈ objects r
      · obtain ⟨J, hJ⟩ := ir h
        have hne : occurrences s t r ≠ [] := fun h' => (occ_nil_iff s t r).mp h' h
        exact ⟨JR * J, by rw [total_map_mul _ _ hne, hJ, hsr]; rfl⟩
      · exact ⟨0, by rw [(occ_nil_iff s t r).mpr h]; rfl⟩
    obtain ⟨A, hA⟩ := e1
    obtain ⟨B, hB⟩ := e2
    refine ⟨A + B, ?_⟩
    change total (_ ++ _) = _
    rw [total_append, hA, hB]; rfl
  | _, .proxy a e, hr, hn, ht => slope_some hε hε1 s t e hr hn ht

/-- **C14 (finiteness).** At a regular point with no node at a singular argument the Jacobian with
respect to every object that occurs has finite entries. -/
theorem c14_finite (hε : 0 < ε) (hε1 : ε ≤ 1) (s : Store (geoLib ε)) (t : Target (geoLib ε)) {τ : Ty}
    (e : Expr (geoLib ε) τ) (hreg : RegularAt ε s e) (hn : NonsingularAt ε s e) (ht : t ∈ objects e)
    (hc : e.noProxy ∨ e.fwdCompiles t ∧ Distinguished t e) :
    ∃ J, e.jacobianAuto s t = some J := by
  rw [c20_auto s t e ht hc]
  exact slope_some hε hε1 s t e hreg hn ht

/-! ## C15: the box operators -/

/-- From a regular nonsingular tree to finite Jacobians that are derivatives (helper). -/
private theorem derives (hε : 0 < ε) (hε1 : ε ≤ 1) (s : Memory) {e : SExpr} {o : Obj}
    (hm : Means ε s e o) (hp : NoDynamic e) {x : Tree ε} (hx : e.elab ε = some x)
    (hn : NonsingularAt ε s x.2) (t : Target (geoLib ε)) (ht : t ∈ written ε e)
    (ho : ∀ u ∈ written ε e, u.addr = t.addr → u.ty = t.ty → u = t) :
    ∃ J, x.2.jacobianAuto (L := geoLib ε) s t = some J ∧
      IsDerivative (ε := ε) s t x.2 J := by
  obtain ⟨h1, h2, -⟩ := elab_written e hx
  have hreg := means_regular hε hm hx
  obtain ⟨J, hJ⟩ := slope_some hε hε1 s t x.2 hreg hn (h1 ▸ ht)
  exact ⟨J, (c20_auto (L := geoLib ε) s t x.2 (h1 ▸ ht) (.inl (h2 hp))).trans hJ,
    response_deriv hε hε1 s t x.2 hreg (h1 ▸ ht) (h1 ▸ ho) hJ⟩

/-- **C15 (box-plus of rotations).** For every rotation class, `X + φ` compiles, and its Jacobians
with respect to `X` and `φ` are finite and are the derivatives, at every `φ` in the region where
`exp` is exact (zero included). -/
theorem c15_boxplus_rotation (hε : 0 < ε) (hε1 : ε ≤ 1) (s : Memory) (k : RotK) (a b : ℕ)
    (hv : Valid (.rot k) (s a (.rot k)))
    (hr : s b (.vec .relrot) = (0 : V3) ∨ ε < sqLen (s b (.vec .relrot)) ^ 2) :
    ∃ x, (SExpr.leaf a 0 (.rot k) + .leaf b 0 (.vec .relrot)).elab ε = some x ∧
      ∀ t ∈ [(⟨a, 0, .rot k⟩ : Target (geoLib ε)), ⟨b, 0, .vec .relrot⟩],
        ∃ J, x.2.jacobianAuto (L := geoLib ε) s t = some J ∧ IsDerivative (ε := ε) s t x.2 J := by
  have hm : Means ε s (.bin .add (.leaf a 0 (.rot k)) (.leaf b 0 (.vec .relrot))) _ :=
    .boxPlusRot (.leaf a 0 (.rot k) hv) (.leaf b 0 (.vec .relrot) trivial) hr
  obtain ⟨x, hx, -⟩ := means_acc hε hm
  refine ⟨x, hx, fun t ht => derives hε hε1 s hm ⟨trivial, trivial⟩ hx ?_ t ht ?_⟩
  · have hx' : (elab1 .expMap (⟨.vec .relrot, gleaf ε b 0 (.vec .relrot)⟩ : Tree ε)).bind
        (elab2 .composeFlipped ⟨.rot k, gleaf ε a 0 (.rot k)⟩) = some x := hx
    obtain ⟨w, hw, hx'⟩ := Option.bind_eq_some_iff.mp hx'
    refine nons2 hx' trivial ?_
    cases hw
    exact ⟨trivial, fun _ _ => trivial⟩
  · intro u hu h1 h2
    change u ∈ [_, _] at hu
    simp only [List.mem_cons, List.not_mem_nil, or_false] at hu ht
    rcases hu with rfl | rfl <;> rcases ht with rfl | rfl <;> first | rfl | (cases h2; done)

/-- **C15 (box-plus of rigid transforms).** The same for every rigid transform class, at every twist
that actually rotates (`exp` has no finite Jacobian at the others: `c16_exp_twist_not_finite`). -/
theorem c15_boxplus_rigid (hε : 0 < ε) (hε1 : ε ≤ 1) (s : Memory) (k : RigK) (a b : ℕ)
    (hv : Valid (.rigid k) (s a (.rigid k))) (hr : ε < sqLen (angular (s b (.vec .twist)))) :
    ∃ x, (SExpr.leaf a 0 (.rigid k) + .leaf b 0 (.vec .twist)).elab ε = some x ∧
      ∀ t ∈ [(⟨a, 0, .rigid k⟩ : Target (geoLib ε)), ⟨b, 0, .vec .twist⟩],
        ∃ J, x.2.jacobianAuto (L := geoLib ε) s t = some J ∧ IsDerivative (ε := ε) s t x.2 J := by
  set ξ : Twist := s b (.vec .twist) with hξ
  let D : Rigid := ⟨rodr ξ.rot, vmat ξ.rot *ᵥ ξ.trans⟩
  have hD : D.hom = NormedSpace.exp (twistMat ξ) := (motion_exp_iff _ _).mpr ⟨rfl, rfl⟩
  have hm : Means ε s (.bin .add (.leaf a 0 (.rigid k)) (.leaf b 0 (.vec .twist))) _ :=
    .boxPlusMotion (.leaf a 0 (.rigid k) hv) (.leaf b 0 (.vec .twist) trivial) hD (.inr hr)
  obtain ⟨x, hx, -⟩ := means_acc hε hm
  refine ⟨x, hx, fun t ht => derives hε hε1 s hm ⟨trivial, trivial⟩ hx ?_ t ht ?_⟩
  · have hx' : (elab1 .expMap (⟨.vec .twist, gleaf ε b 0 (.vec .twist)⟩ : Tree ε)).bind
        (elab2 .composeFlipped ⟨.rigid k, gleaf ε a 0 (.rigid k)⟩) = some x := hx
    obtain ⟨w, hw, hx'⟩ := Option.bind_eq_some_iff.mp hx'
    refine nons2 hx' trivial ?_
    cases hw
    refine ⟨trivial, fun u hu => ?_⟩
    cases hu
    change angular ξ ≠ 0
    intro h
    rw [h] at hr
    have : sqLen (0 : V3) = 0 := by simp [sqLen]
    linarith
  · intro u hu h1 h2
    change u ∈ [_, _] at hu
    simp only [List.mem_cons, List.not_mem_nil, or_false] at hu ht
    rcases hu with rfl | rfl <;> rcases ht with rfl | rfl <;> first | rfl | (cases h2; done)

/-- **C15 (box-minus of rotations).** For any two rotation classes, `X - Y` compiles, and its
Jacobians with respect to both operands are finite and are the derivatives, whenever `X` and `Y`
differ by a rotation through an angle in `(√ε, π)` (not at `X = Y`:
`c16_boxminus_rotation_not_finite`). -/
theorem c15_boxminus_rotation (hε : 0 < ε) (hε1 : ε ≤ 1) (s : Memory) (k l : RotK) (a b : ℕ)
    (hab : a ≠ b) (hv : Valid (.rot k) (s a (.rot k))) (hw : Valid (.rot l) (s b (.rot l))) {φ : V3}
    (hφ : rotDen k (s a (.rot k)) = NormedSpace.exp (hat φ) * rotDen l (s b (.rot l)))
    (hr : ε < sqLen φ) (hπ : sqLen φ < Real.pi ^ 2) :
    ∃ x, (SExpr.leaf a 0 (.rot k) - .leaf b 0 (.rot l)).elab ε = some x ∧
      ∀ t ∈ [(⟨a, 0, .rot k⟩ : Target (geoLib ε)), ⟨b, 0, .rot l⟩],
        ∃ J, x.2.jacobianAuto (L := geoLib ε) s t = some J ∧ IsDerivative (ε := ε) s t x.2 J := by
  have hm1 : Means ε s (.leaf a 0 (.rot k)) (.rot _) := .leaf a 0 (.rot k) hv
  have hm2 : Means ε s (.leaf b 0 (.rot l)) (.rot _) := .leaf b 0 (.rot l) hw
  have hm : Means ε s (.bin .sub (.leaf a 0 (.rot k)) (.leaf b 0 (.rot l))) (.vec .relrot φ) :=
    .boxMinusRot hm1 hm2 hφ hπ (.inr hr)
  obtain ⟨x, hx, -⟩ := means_acc hε hm
  refine ⟨x, hx, fun t ht => derives hε hε1 s hm ⟨trivial, trivial⟩ hx ?_ t ht ?_⟩
  · have g1 : Good s (⟨.rot k, gleaf ε a 0 (.rot k)⟩ : Tree ε) (.rot _) := good_of (means_acc hε hm1) rfl
    have g2 : Good s (⟨.rot l, gleaf ε b 0 (.rot l)⟩ : Tree ε) (.rot _) := good_of (means_acc hε hm2) rfl
    have hx' : ((elab1 .inverse (⟨.rot l, gleaf ε b 0 (.rot l)⟩ : Tree ε)).bind
        (elab2 .compose ⟨.rot k, gleaf ε a 0 (.rot k)⟩)).bind (elab1 .logMap) = some x := hx
    obtain ⟨m, hm', hx'⟩ := Option.bind_eq_some_iff.mp hx'
    obtain ⟨n, hn, hm'⟩ := Option.bind_eq_some_iff.mp hm'
    refine nons_logRot hx' (nons2 hm' trivial (nons1 hn trivial (.inl rfl)))
      (acc_good (acc_compose g1 (acc_good (acc_invRot g2) hn)) hm') ?_
    have hS : IsRotation (rotDen l (s b (.rot l))) := rotDen_rotation hw
    change rotDen k (s a (.rot k)) * _ ≠ 1
    rw [hφ, mul_assoc, Matrix.inv_eq_right_inv hS.1, hS.1, mul_one, ← rodr_exp]
    intro h1
    have hne : φ ≠ 0 := by
      rintro rfl
      have : sqLen (0 : V3) = 0 := by simp [sqLen]
      linarith
    have h2 := arccos_cosAngle_rodr hne (lt_pi_of_sqLen hπ).le
    rw [h1, cosAngle_one, Real.arccos_one] at h2
    rw [sqLen_eq] at hr
    have := Real.sqrt_pos.mpr (lt_trans hε hr)
    linarith
  · intro u hu h1 h2
    change u ∈ [_, _] at hu
    simp only [List.mem_cons, List.not_mem_nil, or_false] at hu ht
    rcases hu with rfl | rfl <;> rcases ht with rfl | rfl <;>
      first | rfl | exact absurd h1 hab | exact absurd h1.symm hab

/-- **C15 (box-minus of rigid transforms).** For any two rigid transform classes, at transforms whose
orientations differ by an angle in `(√ε, π)`. -/
theorem c15_boxminus_rigid (hε : 0 < ε) (hε1 : ε ≤ 1) (s : Memory) (k l : RigK) (a b : ℕ)
    (hab : a ≠ b) (hv : Valid (.rigid k) (s a (.rigid k))) (hw : Valid (.rigid l) (s b (.rigid l)))
    {ξ : Fin 3 ⊕ Fin 3 → ℝ} {D : Rigid} (hD : D.hom = NormedSpace.exp (twistMat ξ))
    (hξ : rigidDen k (s a (.rigid k)) = D.comp (rigidDen l (s b (.rigid l))))
    (hr : ε < sqLen (angular ξ)) (hπ : sqLen (angular ξ) < Real.pi ^ 2) :
    ∃ x, (SExpr.leaf a 0 (.rigid k) - .leaf b 0 (.rigid l)).elab ε = some x ∧
      ∀ t ∈ [(⟨a, 0, .rigid k⟩ : Target (geoLib ε)), ⟨b, 0, .rigid l⟩],
        ∃ J, x.2.jacobianAuto (L := geoLib ε) s t = some J ∧ IsDerivative (ε := ε) s t x.2 J := by
  have hm1 : Means ε s (.leaf a 0 (.rigid k)) (.motion _) := .leaf a 0 (.rigid k) hv
  have hm2 : Means ε s (.leaf b 0 (.rigid l)) (.motion _) := .leaf b 0 (.rigid l) hw
  have hm : Means ε s (.bin .sub (.leaf a 0 (.rigid k)) (.leaf b 0 (.rigid l))) (.vec .twist ξ) :=
    .boxMinusMotion hm1 hm2 hξ hD hπ (.inr hr)
  obtain ⟨x, hx, -⟩ := means_acc hε hm
  refine ⟨x, hx, fun t ht => derives hε hε1 s hm ⟨trivial, trivial⟩ hx ?_ t ht ?_⟩
  · have g1 : Good s (⟨.rigid k, gleaf ε a 0 (.rigid k)⟩ : Tree ε) (.motion _) :=
      good_of (means_acc hε hm1) rfl
    have g2 : Good s (⟨.rigid l, gleaf ε b 0 (.rigid l)⟩ : Tree ε) (.motion _) :=
      good_of (means_acc hε hm2) rfl
    have hx' : ((elab1 .inverse (⟨.rigid l, gleaf ε b 0 (.rigid l)⟩ : Tree ε)).bind
        (elab2 .compose ⟨.rigid k, gleaf ε a 0 (.rigid k)⟩)).bind (elab1 .logMap) = some x := hx
    obtain ⟨m, hm', hx'⟩ := Option.bind_eq_some_iff.mp hx'
    obtain ⟨n, hn, hm'⟩ := Option.bind_eq_some_iff.mp hm'
    set S := rigidDen l (s b (.rigid l)) with hSd
    have hS : IsRotation S.R := by
      rw [hSd, rigidDen_eq l _ hw]
      exact validRigid_rotation l _ hw
    let S' : Rigid := ⟨S.Rᵀ, -(S.Rᵀ *ᵥ S.t)⟩
    have h0 : S.comp S' = Rigid.id := by
      refine Rigid.ext' hS.1 ?_
      change S.R *ᵥ -(S.Rᵀ *ᵥ S.t) + S.t = 0
      rw [mulVec_neg, mulVec_mulVec, hS.1, one_mulVec, neg_add_cancel]
    refine nons_logMotion hx' (nons2 hm' trivial (nons1 hn trivial (.inl rfl)))
      (acc_good (acc_mulMotion g1 (acc_good (acc_invMotion g2 h0) hn)) hm') ?_
    change (rigidDen k (s a (.rigid k))).R * S.Rᵀ ≠ 1
    rw [hξ]
    change D.R * S.R * S.Rᵀ ≠ 1
    rw [mul_assoc, hS.1, mul_one, ((motion_exp_iff _ _).mp hD).1]
    intro h1
    have hne : angular ξ ≠ 0 := by
      intro h
      rw [h] at hr
      have : sqLen (0 : V3) = 0 := by simp [sqLen]
      linarith
    have h2 := arccos_cosAngle_rodr hne (lt_pi_of_sqLen hπ).le
    change rodr (angular ξ) = 1 at h1
    rw [h1, cosAngle_one, Real.arccos_one] at h2
    rw [sqLen_eq] at hr
    have := Real.sqrt_pos.mpr (lt_trans hε hr)
    linarith
  · intro u hu h1 h2
    change u ∈ [_, _] at hu
    simp only [List.mem_cons, List.not_mem_nil, or_false] at hu ht
    rcases hu with rfl | rfl <;> rcases ht with rfl | rfl <;>
      first | rfl | exact absurd h1 hab | exact absurd h1.symm hab

/-! ## C16 -/

private theorem jac_none {a b : Ty} (s : Store (geoLib ε)) (n : ℕ) (op : Un a b)
    (e : Expr (geoLib ε) a) {t : Target (geoLib ε)} (hp : e.noProxy) (ht : t ∈ objects e)
    (h : slopeU s op e = none) : Expr.jacobianAuto s t (.un n op e) = none := by
  refine (c20_auto s t (.un n op e) ht (.inl hp)).trans ?_
  have hne : occurrences s t e ≠ [] := fun h' => (occ_nil_iff s t e).mp h' ht
  change total ((occurrences s t e).map (OMat.mul (slopeU s op e))) = _
  rw [total_map_mul _ _ hne, h]
  rfl

private theorem slope_log_rot (hε : 0 < ε) {s : Memory} {τ : Ty} {q : Expr (geoLib ε) τ}
    {r : (b : Ty) × Un τ b} (hd : direct1 .logMap τ = some r)
    (hg : Good s (⟨τ, q⟩ : Tree ε) (.rot 1)) : slopeU (L := geoLib ε) s r.2 q = none := by
  obtain ⟨k, q', v, he, e, hv, hR⟩ := hg.rot
  cases he
  cases k with
  | mat =>
    cases hd
    unfold slopeU
    cases hu : value (L := geoLib ε) s q' with
    | none => rfl
    | some u =>
      obtain rfl := val_eq e hu
      have : u = 1 := hR
      subst this
      change (logMat ε 1).bind (fun y => logRotJac y) = none
      rw [logMat_one hε]
      exact logRotJac_zero
  | quat => cases hd
  | aa => cases hd

private theorem slope_log_rigid (hε : 0 < ε) {s : Memory} {k : RigK} {q : Expr (geoLib ε) (.rigid k)}
    {T : Rigid} (hg : Good s (⟨.rigid k, q⟩ : Tree ε) (.motion T)) (hT : T.R = 1) :
    slopeU (L := geoLib ε) s (Un.logRigid k) q = none := by
  obtain ⟨k', q', v, he, e, hv, hR⟩ := hg.motion
  cases he
  unfold slopeU
  cases hu : value (L := geoLib ε) s q with
  | none => rfl
  | some u =>
    obtain rfl := val_eq e hu
    rw [rigidDen_eq k u hv] at hR
    have h1 : k.rotMatrix u = 1 := by rw [← hT, ← hR]
    change (logRigid ε (k.rotMatrix u) (k.trans u)).bind (fun y => logRigidJac y) = none
    unfold logRigid
    rw [h1, logMat_one hε]
    simp only [Option.bind_eq_bind, Option.bind_some]
    cases logTrans ε 0 (k.trans u) with
    | none => rfl
    | some w =>
      change logRigidJac _ = none
      unfold logRigidJac
      have : (Twist.mk 0 w).rot = 0 := rfl
      rw [this, logRotJac_zero]; rfl

private theorem log_rot_none (hε : 0 < ε) {s : Memory} {m x : Tree ε}
    (h : elab1 .logMap m = some x) (hg : Good s m (.rot 1)) (hp : m.2.noProxy)
    {t : Target (geoLib ε)} (ht : t ∈ objects m.2) :
    x.2.jacobianAuto (L := geoLib ε) s t = none := by
  obtain ⟨k, p, v, rfl, -⟩ := hg.rot
  obtain ⟨w, r, hw, hd, rfl⟩ := elab1_form h
  have hs := side_same w p
  exact jac_none s 0 r.2 (w.apply p) (hs.np hp) (hs.obj.symm ▸ ht) (slope_log_rot hε hd (side_rot hw hg))

private theorem log_rigid_none (hε : 0 < ε) {s : Memory} {m x : Tree ε} {T : Rigid}
    (h : elab1 .logMap m = some x) (hg : Good s m (.motion T)) (hT : T.R = 1) (hp : m.2.noProxy)
    {t : Target (geoLib ε)} (ht : t ∈ objects m.2) :
    x.2.jacobianAuto (L := geoLib ε) s t = none := by
  obtain ⟨k, p, v, rfl, -⟩ := hg.motion
  cases h
  exact jac_none s 0 (.logRigid k) p hp ht (slope_log_rigid hε hg hT)

/-- **C16 is false for `log` of rotations**: at the identity no Jacobian is finite, whatever
expression the identity comes from and with respect to whichever object in it. -/
theorem c16_log_rotation_not_finite (hε : 0 < ε) {s : Memory} {e : SExpr} (hm : Means ε s e (.rot 1))
    (hp : NoDynamic e) {x : Tree ε} (hx : (SExpr.un .log e).elab ε = some x)
    {t : Target (geoLib ε)} (ht : t ∈ written ε e) :
    x.2.jacobianAuto (L := geoLib ε) s t = none := by
  obtain ⟨y, hy, hx⟩ := Option.bind_eq_some_iff.mp hx
  obtain ⟨h1, h2, -⟩ := elab_written e hy
  exact log_rot_none hε hx (good_of (means_acc hε hm) hy) (h2 hp) (h1 ▸ ht)

/-- **C16 is false for `log` of rigid transforms**: at every transform without rotation (the identity
in particular). -/
theorem c16_log_rigid_not_finite (hε : 0 < ε) {s : Memory} {e : SExpr} {T : Rigid}
    (hm : Means ε s e (.motion T)) (hT : T.R = 1) (hp : NoDynamic e) {x : Tree ε}
    (hx : (SExpr.un .log e).elab ε = some x) {t : Target (geoLib ε)} (ht : t ∈ written ε e) :
    x.2.jacobianAuto (L := geoLib ε) s t = none := by
  obtain ⟨y, hy, hx⟩ := Option.bind_eq_some_iff.mp hx
  obtain ⟨h1, h2, -⟩ := elab_written e hy
  exact log_rigid_none hε hx (good_of (means_acc hε hm) hy) hT (h2 hp) (h1 ▸ ht)

/-- **C16 is false for `exp` of twists**: at every twist without rotation (zero in particular). -/
theorem c16_exp_twist_not_finite (hε : 0 < ε) {s : Memory} {e : SExpr} {ξ : Twist}
    (hm : Means ε s e (.vec .twist ξ)) (hξ : angular ξ = 0) (hp : NoDynamic e) {x : Tree ε}
    (hx : (SExpr.un .exp e).elab ε = some x) {t : Target (geoLib ε)} (ht : t ∈ written ε e) :
    x.2.jacobianAuto (L := geoLib ε) s t = none := by
  obtain ⟨y, hy, hx⟩ := Option.bind_eq_some_iff.mp hx
  obtain ⟨h1, h2, -⟩ := elab_written e hy
  have hg := good_of (means_acc hε hm) hy
  obtain ⟨p, rfl, ev⟩ := hg.vec
  have : elabUn .exp (⟨.vec .twist, p⟩ : Tree ε) =
      some ⟨_, Expr.un (L := geoLib ε) 0 .expTwist p⟩ := rfl
  rw [this] at hx
  cases hx
  refine jac_none s 0 .expTwist p (h2 hp) (h1 ▸ ht) ?_
  unfold slopeU
  cases hu : value (L := geoLib ε) s p with
  | none => rfl
  | some u =>
    obtain rfl := val_eq ev hu
    change (expTwist ε u).bind (fun y => expTwistJac ε (rotBlock y) u) = none
    cases expTwist ε u with
    | none => rfl
    | some y =>
      change expTwistJac ε (rotBlock y) u = none
      unfold expTwistJac
      have h0 : Twist.rot u = 0 := hξ
      rw [h0, eadeB_zero]
      cases expRelJac ε (rotBlock y) 0 <;> rfl

/-- **C16 is false for box-minus of rotations**: `X - Y` at equal rotations, in any storage classes. -/
theorem c16_boxminus_rotation_not_finite (hε : 0 < ε) {s : Memory} {e f : SExpr} {R : M3}
    (hm : Means ε s e (.rot R)) (hm' : Means ε s f (.rot R)) (hp : NoDynamic e) (hp' : NoDynamic f)
    {x : Tree ε} (hx : (SExpr.bin .sub e f).elab ε = some x)
    {t : Target (geoLib ε)} (ht : t ∈ written ε e ∨ t ∈ written ε f) :
    x.2.jacobianAuto (L := geoLib ε) s t = none := by
  obtain ⟨y, hy, hx⟩ := Option.bind_eq_some_iff.mp hx
  obtain ⟨z, hz, hx⟩ := Option.bind_eq_some_iff.mp hx
  obtain ⟨h1, h2, -⟩ := elab_written e hy
  obtain ⟨k1, k2, -⟩ := elab_written f hz
  have hg := good_of (means_acc hε hm) hy
  have hg' := good_of (means_acc hε hm') hz
  have hR : IsRotation R := by
    obtain ⟨l, q, w, -, -, hw, rfl⟩ := hg'.rot
    exact rotDen_rotation hw
  have h3 : R * R⁻¹ = 1 := by rw [Matrix.inv_eq_right_inv hR.1, hR.1]
  have c1 := acc_invRot hg'
  have c2 : ∀ w, Good s w (.rot R⁻¹) → Acc s (elab2 .compose y w) (.rot (R * R⁻¹)) :=
    fun w hw => acc_compose hg hw
  have hx' : ((elab1 .inverse z).bind (elab2 .compose y)).bind (elab1 .logMap) = some x := by
    obtain ⟨k, p, v, rfl, -⟩ := hg.rot
    obtain ⟨l, q, w, rfl, -⟩ := hg'.rot
    exact hx
  obtain ⟨m, hm1, hx⟩ := Option.bind_eq_some_iff.mp hx'
  obtain ⟨n, hn, hm1⟩ := Option.bind_eq_some_iff.mp hm1
  have hs := (elab2_same hm1).before (elab1_same hn)
  exact log_rot_none hε hx (h3 ▸ acc_good (c2 n (acc_good c1 hn)) hm1) (hs.np (h2 hp) (k2 hp'))
    (by rw [hs.obj, h1, k1]; exact List.mem_append.mpr ht)

/-- **C16 is false for box-minus of rigid transforms**: `X - Y` at transforms of equal orientation, in
any storage classes. -/
theorem c16_boxminus_rigid_not_finite (hε : 0 < ε) {s : Memory} {e f : SExpr} {T S : Rigid}
    (hm : Means ε s e (.motion T)) (hm' : Means ε s f (.motion S)) (hTS : T.R = S.R)
    (hp : NoDynamic e) (hp' : NoDynamic f) {x : Tree ε} (hx : (SExpr.bin .sub e f).elab ε = some x)
    {t : Target (geoLib ε)} (ht : t ∈ written ε e ∨ t ∈ written ε f) :
    x.2.jacobianAuto (L := geoLib ε) s t = none := by
  obtain ⟨y, hy, hx⟩ := Option.bind_eq_some_iff.mp hx
  obtain ⟨z, hz, hx⟩ := Option.bind_eq_some_iff.mp hx
  obtain ⟨h1, h2, -⟩ := elab_written e hy
  obtain ⟨k1, k2, -⟩ := elab_written f hz
  have hg := good_of (means_acc hε hm) hy
  have hg' := good_of (means_acc hε hm') hz
  have hS : IsRotation S.R := by
    obtain ⟨l, q, w, -, -, hw, rfl⟩ := hg'.motion
    have := validRigid_rotation l w hw
    rwa [rigidDen_eq l w hw]
  let S' : Rigid := ⟨S.Rᵀ, -(S.Rᵀ *ᵥ S.t)⟩
  have h0 : S.comp S' = Rigid.id := by
    refine Rigid.ext' hS.1 ?_
    change S.R *ᵥ -(S.Rᵀ *ᵥ S.t) + S.t = 0
    rw [mulVec_neg, mulVec_mulVec, hS.1, one_mulVec, neg_add_cancel]
  have h3 : (T.comp S').R = 1 := by
    change T.R * S.Rᵀ = 1
    rw [hTS, hS.1]
  have c1 := acc_invMotion hg' h0
  have c2 : ∀ w, Good s w (.motion S') → Acc s (elab2 .compose y w) (.motion (T.comp S')) :=
    fun w hw => acc_mulMotion hg hw
  have hx' : ((elab1 .inverse z).bind (elab2 .compose y)).bind (elab1 .logMap) = some x := by
    obtain ⟨k, p, v, rfl, -⟩ := hg.motion
    obtain ⟨l, q, w, rfl, -⟩ := hg'.motion
    exact hx
  obtain ⟨m, hm1, hx⟩ := Option.bind_eq_some_iff.mp hx'
  obtain ⟨n, hn, hm1⟩ := Option.bind_eq_some_iff.mp hm1
  have hs := (elab2_same hm1).before (elab1_same hn)
  exact log_rigid_none hε hx (acc_good (c2 n (acc_good c1 hn)) hm1) h3 (hs.np (h2 hp) (k2 hp'))
    (by rw [hs.obj, h1, k1]; exact List.mem_append.mpr ht)

/-- **C16 (what remains true).** `exp` of relative rotations has a finite Jacobian at zero: the chain
rule goes through with the identity.  Missing from the full claim: the logarithm, box-minus and `exp`
of twists, for which it is false (the five theorems above). -/
theorem c16_exp_rotation_partial (hε : 0 < ε) {s : Memory} {e : SExpr}
    (hm : Means ε s e (.vec .relrot 0)) (hp : NoDynamic e) {y x : Tree ε} (hy : e.elab ε = some y)
    (hx : (SExpr.un .exp e).elab ε = some x) {t : Target (geoLib ε)} (ht : t ∈ written ε e) :
    ∃ p : Expr (geoLib ε) (.vec .relrot), y = ⟨_, p⟩ ∧
      ∃ q : Expr (geoLib ε) (.rot .quat), x = ⟨_, q⟩ ∧
        (p.jacobianAuto (L := geoLib ε) s t : Option (Matrix (Fin 3) t.ty.Idx ℝ)) =
          q.jacobianAuto (L := geoLib ε) s t := by
  obtain ⟨h1, h2, -⟩ := elab_written e hy
  have hg := good_of (means_acc hε hm) hy
  obtain ⟨p, rfl, ev⟩ := hg.vec
  have h0 : (SExpr.un .exp e).elab ε = some ⟨_, Expr.un (L := geoLib ε) 0 .expRel p⟩ := by
    change (e.elab ε).bind _ = _
    rw [hy]; rfl
  rw [h0] at hx
  cases hx
  refine ⟨p, rfl, _, rfl, ?_⟩
  have hto : t ∈ objects p := h1 ▸ ht
  have e1 := c20_auto (L := geoLib ε) s t p hto (.inl (h2 hp))
  have e2 := c20_auto (L := geoLib ε) s t (.un 0 .expRel p) hto (.inl (h2 hp))
  refine e1.trans (Eq.trans ?_ e2.symm)
  have hne : occurrences (L := geoLib ε) s t p ≠ [] := fun h' => (occ_nil_iff _ t p).mp h' hto
  have hs : slopeU (L := geoLib ε) s Un.expRel p = some (1 : M3) := by
    unfold slopeU
    have hv : value (L := geoLib ε) s p = some 0 := (mk_val (L := geoLib ε) s p).symm.trans ev
    rw [hv]
    change (expRel ε 0).bind (fun y => expRelJac ε (Quat.toMatrix y) 0) = _
    obtain ⟨y, hy', -⟩ := un_sound hε .expRel (0 : V3) trivial (.inl rfl)
    rw [show expRel ε 0 = some y from hy']
    simp only [Option.bind_some, expRelJac]
    rw [if_neg (by simp [normSq, hε.le])]
    simp [crossMatrix_zero]
  have e3 : total (occurrences (L := geoLib ε) s t (.un 0 .expRel p)) =
      OMat.mul (some (1 : M3)) (total (occurrences (L := geoLib ε) s t p)) := by
    rw [← hs]
    exact total_map_mul _ _ hne
  refine Eq.trans ?_ e3.symm
  cases total (occurrences (L := geoLib ε) s t p) with
  | none => rfl
  | some J =>
    change some J = some ((1 : M3) * J)
    rw [Matrix.one_mul]

section Examples

private theorem one_regular : dblEps < sqLen (fun _ => 1 : V3) ^ 2 := by
  have := dblEps_lt
  simp [sqLen, dotProduct]; linarith

private theorem ex_means : ∃ y, Means dblEps demo
    (SExpr.un .exp (lf (.vec .relrot)) * lf (.rot .mat) * (lf (.rot .mat) * lf (.vec .trans)))
    (.vec .trans y) := ⟨_, .rotate (.mulRot (.expRot (demo_means (.vec .relrot)) (.inr one_regular))
    (.leaf 1 0 (.rot .mat) (demo_valid _ _))) (.rotate (.leaf 1 0 (.rot .mat) (demo_valid _ _))
      (.leaf 1 0 (.vec .trans) trivial))⟩

/-- Hypotheses of C14: `exp(φ) * M * (M * v)` with respect to `M`, which occurs twice, has finite
Jacobians, and they are the derivatives. -/
example : ∃ (x : Tree dblEps) (J : Matrix x.1.Idx (Fin 3) ℝ),
    (SExpr.un .exp (lf (.vec .relrot)) * lf (.rot .mat) * (lf (.rot .mat) * lf (.vec .trans))).elab
      dblEps = some x ∧
    x.2.jacobianAuto (L := geoLib dblEps) demo ⟨1, 0, .rot .mat⟩ = some J ∧
    IsDerivative (ε := dblEps) demo ⟨1, 0, .rot .mat⟩ x.2 J := by
  obtain ⟨y, hm⟩ := ex_means
  obtain ⟨x, hx, -⟩ := means_acc dblEps_pos hm
  have hn : NonsingularAt dblEps demo x.2 := by
    cases hx
    exact ⟨⟨⟨⟨trivial, fun _ _ => trivial⟩, fun _ _ => trivial⟩, trivial⟩, trivial, trivial⟩
  obtain ⟨J, h1, h2⟩ := derives dblEps_pos dblEps_lt.le demo hm
    ⟨⟨trivial, trivial⟩, trivial, trivial⟩ hx hn ⟨1, 0, .rot .mat⟩
    (by simp [written, HMul.hMul, Mul.mul]) (by simp [written, HMul.hMul, Mul.mul])
  exact ⟨x, J, hx, h1, h2⟩

/-- Hypotheses of C14 with a dynamic handle. -/
example : (∃ y, Means dblEps demo (.dynamic 9 (lf (.rot .quat) * lf (.vec .trans))) (.vec .trans y)) ∧
    (1 : ℕ) ∉ dynamicNodes (.dynamic 9 (lf (.rot .quat) * lf (.vec .trans))) :=
  ⟨⟨_, .dynamic 9 rfl (.rotate (.leaf 1 0 (.rot .quat) (demo_valid _ _)) (.leaf 1 0 (.vec .trans) trivial))⟩,
    by simp [dynamicNodes, HMul.hMul, Mul.mul]⟩

/-- Hypotheses of C15 for box-minus: the quarter turn against the identity. -/
example : ∃ s : Memory, Valid (.rot .mat) (s 1 (.rot .mat)) ∧ Valid (.rot .aa) (s 2 (.rot .aa)) ∧
    ∃ φ : V3, rotDen .mat (s 1 (.rot .mat)) = NormedSpace.exp (hat φ) * rotDen .aa (s 2 (.rot .aa)) ∧
      dblEps < sqLen φ ∧ sqLen φ < Real.pi ^ 2 := by
  let v : V3 := fun _ => 1
  let R : M3 := NormedSpace.exp (hat v)
  have hR : IsRotation R := by
    have := rodr_rotation v
    rwa [rodr_exp] at this
  have hv := demo_valid 0 (.rot .aa)
  have hS := rotDen_rotation (k := .aa) hv
  let s : Memory := fun a τ => match τ with
    | .rot .mat => (R * rotDen .aa (demo 0 (.rot .aa)) : M3)
    | τ => demo a τ
  refine ⟨s, hR.mul hS, hv, v, rfl, ?_, ?_⟩
  · have := dblEps_lt
    simp [sqLen, dotProduct, v]; linarith
  · have := Real.two_le_pi
    simp [sqLen, dotProduct, v]
    nlinarith

/-- Hypotheses of the C16 negations: `X * X⁻¹`, `T * T⁻¹`, `X - X` in different classes. -/
example : Means dblEps demo (lf (.rot .quat) * (lf (.rot .quat))⁻¹) (.rot 1) := by
  have hm : Means dblEps demo (lf (.rot .quat)) (.rot (rotDen .quat (demo 1 (.rot .quat)))) :=
    .leaf 1 0 (.rot .quat) (demo_valid _ _)
  have hR : IsRotation (rotDen .quat (demo 1 (.rot .quat))) := rotDen_rotation (demo_valid 1 (.rot .quat))
  have := Means.mulRot hm (.inverseRot hm)
  rwa [Matrix.inv_eq_right_inv hR.1, hR.1] at this

example : Means dblEps demo (lf (.rigid .compact) - lf (.rigid .compact) : SExpr) (.vec .twist 0) := by
  have hm : Means dblEps demo (lf (.rigid .compact)) (.motion (rigidDen .compact (demo 1 (.rigid .compact)))) :=
    .leaf 1 0 (.rigid .compact) (demo_valid _ _)
  refine .boxMinusMotion (D := Rigid.id) hm hm ?_ ?_ ?_ (.inl rfl)
  · exact Rigid.ext' (one_mul _).symm (by
      change _ = (1 : M3) *ᵥ _ + 0
      rw [one_mulVec, add_zero])
  · rw [motion_exp_iff]
    have h0 : Twist.rot 0 = 0 := rfl
    have h1 : Twist.trans 0 = 0 := rfl
    rw [h0, h1, rodr_zero, mulVec_zero]
    exact ⟨rfl, rfl⟩
  · have : sqLen (angular 0) = 0 := by
      have h : angular 0 = 0 := rfl
      rw [h]; simp [sqLen]
    rw [this]
    positivity

example : ∃ x, (SExpr.un .exp (.un .neg (lf (.vec .relrot) - lf (.vec .relrot)) : SExpr)).elab dblEps =
    some x := ⟨_, rfl⟩

/-- Cases of the operation-level theorems: rotating a translation by a quaternion. -/
example := c15_binary_left dblEps_pos dblEps_lt.le Bin.rotateQ (demo 1 (.rot .quat))
  (demo 1 (.vec .trans)) (demo_valid 1 (.rot .quat)) trivial trivial rfl

example := c15_binary_right dblEps_pos dblEps_lt.le Bin.rotateQ (demo 1 (.rot .quat))
  (demo 1 (.vec .trans)) (demo_valid 1 (.rot .quat)) trivial trivial rfl

/-- Cases of the operation-level theorems: the length of `(1, 1, 1)`. -/
example : ∃ y J, evalUn dblEps (Un.norm .trans) (demo 1 (.vec .trans)) = some y ∧
    jacUn dblEps (Un.norm .trans) y (demo 1 (.vec .trans)) = some J ∧
    ∃ F : V3 → Fin 1 → ℝ, F 0 = 0 ∧ HasFDerivAt F (linMap J) 0 := by
  have h1 : (demo 1 (.vec .trans) : V3) ≠ 0 := fun h => by
    have h1 : (fun _ => 1 : Fin 3 → ℝ) = 0 := h
    have := congrFun h1 0
    simp at this
  obtain ⟨J, hJ⟩ := c15_unary_finite dblEps_pos dblEps_lt.le (Un.norm .trans) (demo 1 (.vec .trans))
    trivial trivial h1 rfl
  obtain ⟨F, -, h0, h1⟩ := c15_unary dblEps_pos dblEps_lt.le (Un.norm .trans) (demo 1 (.vec .trans))
    trivial trivial rfl hJ
  exact ⟨_, J, rfl, hJ, F, h0, h1⟩

/-- A vector moving with unit velocity, through an operator of one argument and one of two. -/
example (x : V3) := c15_unary_velocity dblEps_pos dblEps_lt.le (x := x) (Un.sqNorm .trans)
  (c := fun y : V3 => y) (A := fun h => h) trivial (fun i => ⟨.proj i, fun _ => rfl, hasFDerivAt_apply i x⟩) trivial rfl rfl

example (x : V3) := c15_binary_velocity (x := x) (Bin.sum .trans)
  (c := fun y : V3 => y) (d := fun y : V3 => y) (A := fun h => h) (B := fun h => h) trivial trivial
  (fun i => ⟨.proj i, fun _ => rfl, hasFDerivAt_apply i x⟩) (fun i => ⟨.proj i, fun _ => rfl, hasFDerivAt_apply i x⟩) trivial rfl

/-- Cases of `c14_jacobian_is_derivative` and its dynamic form: `R * (R * v)` with respect to `R`. -/
example : ∃ J, (exTwice dblEps).jacobianAuto (L := geoLib dblEps) demo ⟨1, 0, .rot .quat⟩ = some J ∧
    IsDerivative (ε := dblEps) demo ⟨1, 0, .rot .quat⟩ (exTwice dblEps) J := by
  have hr : RegularAt dblEps demo (exTwice dblEps) :=
    ⟨demo_valid _ _, ⟨demo_valid _ _, trivial, fun _ _ _ _ => trivial⟩, fun _ _ _ _ => trivial⟩
  have hm : (⟨1, 0, .rot .quat⟩ : Target (geoLib dblEps)) ∈ objects (exTwice dblEps) := by
    simp [exTwice, objects]
  obtain ⟨J, hJ⟩ := c14_finite dblEps_pos dblEps_lt.le _ _ _ hr ⟨trivial, trivial, trivial⟩ hm (.inl rfl)
  exact ⟨J, hJ, c14_jacobian_is_derivative dblEps_pos dblEps_lt.le _ _ _ hr hm
    (by simp [exTwice, objects]) (.inl rfl) hJ⟩

example : ∃ J, (exDyn dblEps).dynJacobian (L := geoLib dblEps) demo 1 (.rot .quat) = some J ∧
    IsDerivative (ε := dblEps) demo ⟨1, 0, .rot .quat⟩ (exDyn dblEps) J := by
  have hr : RegularAt dblEps demo (exDyn dblEps) :=
    ⟨demo_valid _ _, ⟨demo_valid _ _, trivial, fun _ _ _ _ => trivial⟩, fun _ _ _ _ => trivial⟩
  have hm : (⟨1, 0, .rot .quat⟩ : Target (geoLib dblEps)) ∈ objects (exDyn dblEps) := by
    simp [exDyn, objects]
  have hd : Distinguished (⟨1, 0, .rot .quat⟩ : Target (geoLib dblEps)) (exDyn dblEps) := by
    simp [Distinguished, exDyn, objects, nodeAddrs]
  obtain ⟨J, hJ⟩ := slope_some dblEps_pos dblEps_lt.le demo ⟨1, 0, .rot .quat⟩ _ hr
    ⟨trivial, trivial, trivial⟩ hm
  rw [← (c21_dynamic_forward (L := geoLib dblEps) demo ⟨1, 0, .rot .quat⟩ (exDyn dblEps) hd).1] at hJ
  exact ⟨J, hJ, c14_dynamic_jacobian_is_derivative dblEps_pos dblEps_lt.le _ ⟨1, 0, .rot .quat⟩ _ hr hm
    hd hJ⟩

/-- Cases of the box operators. -/
example := c15_boxplus_rotation dblEps_pos dblEps_lt.le demo .mat 1 1 (demo_valid 1 (.rot .mat))
  (.inr one_regular)

example := c15_boxplus_rigid dblEps_pos dblEps_lt.le demo .compact 1 1 (demo_valid 1 (.rigid .compact))
  (by have := dblEps_lt; simp [demo, angular, sqLen, dotProduct]; linarith)

/-- Cases of the negations of C16. -/
example := c16_boxminus_rigid_not_finite (e := lf (.rigid .compact)) (f := lf (.rigid .mat))
  dblEps_pos (.leaf 1 0 (.rigid .compact) (demo_valid 1 _))
  (.leaf 1 0 (.rigid .mat) (demo_valid 1 _))

end Examples

end WG
