import Verif.Lemmas.Expression
import Verif.Model.Approx

/-! The value of `log` and box-minus at every valid operand, regular or not. -/

namespace WG
open Matrix Spec

variable {ε : ℝ} {s : Memory}

theorem logRot_eval {t : Tree ε} {R : M3} (h : Good s t (.rot R)) :
    ∃ p : Expr (geoLib ε) (.vec .relrot), elab1 .logMap t = some ⟨.vec .relrot, p⟩ ∧
      p.eval (L := geoLib ε) s = logMat ε R := by
  obtain ⟨k, p, v, rfl, e, hv, hd⟩ := h.rot
  have key : ∀ q : Expr (geoLib ε) (.rot .mat),
      Good s (⟨.rot .mat, q⟩ : Tree ε) (.rot R) →
      (Expr.un (L := geoLib ε) 0 .logRot q).eval (L := geoLib ε) s = logMat ε R := by
    intro q hq
    obtain ⟨w, e', hw, ho⟩ := hq
    cases ho
    exact eval_un 0 .logRot q e'
  cases k
  · exact ⟨_, rfl, key _ (good_conv .mat h)⟩
  · exact ⟨_, rfl, key _ h⟩
  · exact ⟨_, rfl, key _ (good_conv .mat h)⟩

theorem logRigid_eval {t : Tree ε} {T : Rigid} (h : Good s t (.motion T)) :
    ∃ p : Expr (geoLib ε) (.vec .twist), elab1 .logMap t = some ⟨.vec .twist, p⟩ ∧
      p.eval (L := geoLib ε) s = logRigid ε T.R T.t := by
  obtain ⟨k, p, v, rfl, e, hv, hd⟩ := h.motion
  refine ⟨Expr.un (L := geoLib ε) 0 (.logRigid k) p, rfl, ?_⟩
  rw [← hd, rigidDen_eq k v hv]
  exact eval_un 0 (.logRigid k) p e

theorem log_value_rot (hε : 0 < ε) {e : SExpr} {R : M3} (h : Means ε s e (.rot R)) :
    (SExpr.un .log e).value ε s = (logMat ε R).map fun v => ⟨.vec .relrot, v⟩ := by
  obtain ⟨t, ht, hg⟩ := means_acc hε h
  obtain ⟨p, hp, hv⟩ := logRot_eval hg
  unfold SExpr.value
  rw [show (SExpr.un .log e).elab ε = some ⟨.vec .relrot, p⟩ by
    simp only [SExpr.elab, ht]; exact hp]
  change (p.eval (L := geoLib ε) s).map _ = _
  rw [hv]

theorem log_value_motion (hε : 0 < ε) {e : SExpr} {T : Rigid} (h : Means ε s e (.motion T)) :
    (SExpr.un .log e).value ε s = (logRigid ε T.R T.t).map fun v => ⟨.vec .twist, v⟩ := by
  obtain ⟨t, ht, hg⟩ := means_acc hε h
  obtain ⟨p, hp, hv⟩ := logRigid_eval hg
  unfold SExpr.value
  rw [show (SExpr.un .log e).elab ε = some ⟨.vec .twist, p⟩ by
    simp only [SExpr.elab, ht]; exact hp]
  change (p.eval (L := geoLib ε) s).map _ = _
  rw [hv]

/-- `a - b` is `log(a * inverse(b))` for transforms. -/
theorem sub_value_rot (hε : 0 < ε) {a b : SExpr} {A B : M3} (ha : Means ε s a (.rot A))
    (hb : Means ε s b (.rot B)) :
    (SExpr.bin .sub a b).value ε s = (logMat ε (A * B⁻¹)).map fun v => ⟨.vec .relrot, v⟩ := by
  rw [← log_value_rot hε (.mulRot ha (.inverseRot hb))]
  obtain ⟨t, ht, hg⟩ := means_acc hε ha
  obtain ⟨u, hu, hg'⟩ := means_acc hε hb
  obtain ⟨k, p, v, rfl, -⟩ := hg.rot
  obtain ⟨l, q, w, rfl, -⟩ := hg'.rot
  obtain ⟨i, hi, hgi⟩ := means_acc hε (.inverseRot hb)
  obtain ⟨k', p', v', rfl, -⟩ := hgi.rot
  unfold SExpr.value
  congr 1
  simp only [SExpr.elab, ht, hu, Option.bind_some] at hi ⊢
  change elab1 .inverse _ = _ at hi
  change ((elab1 .inverse _).bind _).bind _ = ((elab1 .inverse _).bind fun y => elabBin .mul _ y).bind _
  rw [hi]
  rfl

theorem sub_value_motion (hε : 0 < ε) {a b : SExpr} {A B C : Rigid} (ha : Means ε s a (.motion A))
    (hb : Means ε s b (.motion B)) (hC : B.comp C = Rigid.id) :
    (SExpr.bin .sub a b).value ε s =
      (logRigid ε (A.comp C).R (A.comp C).t).map fun v => ⟨.vec .twist, v⟩ := by
  rw [← log_value_motion hε (.mulMotion ha (.inverseMotion hb hC))]
  obtain ⟨t, ht, hg⟩ := means_acc hε ha
  obtain ⟨u, hu, hg'⟩ := means_acc hε hb
  obtain ⟨k, p, v, rfl, -⟩ := hg.motion
  obtain ⟨l, q, w, rfl, -⟩ := hg'.motion
  obtain ⟨i, hi, hgi⟩ := means_acc hε (.inverseMotion hb hC)
  obtain ⟨k', p', v', rfl, -⟩ := hgi.motion
  unfold SExpr.value
  congr 1
  simp only [SExpr.elab, ht, hu, Option.bind_some] at hi ⊢
  change elab1 .inverse _ = _ at hi
  change _ = ((elab1 .inverse _).bind fun y => elabBin .mul _ y).bind _
  simp only [elabBin]
  rw [hi]
  rfl

theorem isApprox_rot (hε : 0 < ε) {a b : SExpr} {A B : M3} (ha : Means ε s a (.rot A))
    (hb : Means ε s b (.rot B)) (prec : ℝ) :
    a.isApprox ε s prec b ↔ ∃ v, logMat ε (A * B⁻¹) = some v ∧ ∀ i, |v i| ≤ prec := by
  unfold SExpr.isApprox
  rw [sub_value_rot hε ha hb]
  cases h : logMat ε (A * B⁻¹) with
  | none => simp
  | some v =>
    change (∀ i, |v i| ≤ prec) ↔ _
    simp

theorem isApprox_motion (hε : 0 < ε) {a b : SExpr} {A B C : Rigid} (ha : Means ε s a (.motion A))
    (hb : Means ε s b (.motion B)) (hC : B.comp C = Rigid.id) (prec : ℝ) :
    a.isApprox ε s prec b ↔
      ∃ v, logRigid ε (A.comp C).R (A.comp C).t = some v ∧ ∀ i, |v i| ≤ prec := by
  unfold SExpr.isApprox
  rw [sub_value_motion hε ha hb hC]
  cases h : logRigid ε (A.comp C).R (A.comp C).t with
  | none => simp
  | some v =>
    change (∀ i, |v i| ≤ prec) ↔ _
    simp

theorem axial_transpose (R : M3) : axial Rᵀ = -axial R := by
  vec3 [axial, uncrossMatrix]

theorem cosAngle_transpose (R : M3) : cosAngle Rᵀ = cosAngle R := by
  simp [cosAngle]

theorem logMat_transpose {R : M3} (h : IsRotation R) :
    logMat ε Rᵀ = (logMat ε R).map fun v => -v := by
  rw [logMat_rot h, logMat_rot h.transpose, cosAngle_transpose, axial_transpose]
  split
  · rw [Option.map_map]
    congr 1
    funext k
    simp
  · rfl

end WG
