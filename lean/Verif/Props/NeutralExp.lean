import Verif.Props.NeutralSame

/-!
# C53: the exponential of a Zero twist
-/

namespace WG
open Matrix Spec Filter Topology

variable {ε : ℝ} {s : Memory}

/-- What the library computes for `exp` of a twist near zero moves, at zero, with the twist. -/
theorem expTwist_moves (hε : 0 < ε) : ∃ p : Twist → M4,
    (∀ᶠ d in 𝓝 (0 : Twist), evalUn ε .expTwist d = some (p d)) ∧ ValidRigid .mat (p 0) ∧
      MovesBy (.rigid .mat) p 0 fun h : Twist => h := by
  have c0 : crossMatrix (0 : V3) = 0 := by mat3 [crossMatrix]
  have hδ := diffV_id (0 : Twist)
  have hR0 : 1 + crossMatrix (Twist.rot (0 : Twist)) = (1 : M3) := by
    rw [show Twist.rot (0 : Twist) = 0 from rfl, c0, add_zero]
  refine ⟨fun d => RigK.mat.mk (1 + crossMatrix (Twist.rot d)) (Twist.trans d),
    expTwist_near hε hδ rfl, ?_, ?_⟩
  · change ValidRigid .mat (RigK.mat.mk (1 + crossMatrix (Twist.rot 0)) (Twist.trans 0))
    rw [hR0]; exact valid_mk4 _ (by simp [IsRotation])
  · apply movesBy_rigid_mk
    · apply turnsBy_mat
      refine (diffM_add (DiffM.const (x := (0 : Twist)) (1 : M3))
        (diffM_cross (diffV_rot hδ))).congr_right fun h => ?_
      rw [hR0, Matrix.mul_one, zero_add]
    · refine (diffV_trans hδ).congr_right fun h => ?_
      rw [show Twist.trans (0 : Twist) = 0 from rfl, cross_anti,
        show cross (0 : V3) (Twist.rot h) = 0 by vec3 [cross], neg_zero, zero_add]

theorem exp_response (s : Store (geoLib ε)) (n c : ℕ) (d : Twist) :
    response s ⟨n, c, .vec .twist⟩ (.un (L := geoLib ε) (α := Ty.vec .twist) 0 Un.expTwist
      (.leaf (L := geoLib ε) n c (.vec .twist))) d =
      (evalUn ε .expTwist (s n (.vec .twist) + d : Twist)).bind fun y =>
        (evalUn ε .expTwist (s n (.vec .twist))).bind fun y₀ => boxMinusVal ε (.rigid .mat) y y₀ := by
  unfold response
  have h1 : boxPlusVal ε (.vec .twist) (s n (.vec .twist)) d = some (s n (.vec .twist) + d : Twist) :=
    rfl
  have h2 : ∀ m : Store (geoLib ε), value m (.un (L := geoLib ε) (α := Ty.vec .twist) 0 Un.expTwist
      (.leaf (L := geoLib ε) n c (.vec .twist))) = evalUn ε .expTwist (m n (.vec .twist)) := by
    intro m
    simp only [value, Option.bind_some]
  refine (congrArg (fun o => Option.bind o _) h1).trans ?_
  rw [Option.bind_some, h2, h2, Store.set_get]

theorem exp_response_zero (s : Store (geoLib ε)) (n c : ℕ) (d : Twist)
    (h0 : s n (.vec .twist) = (0 : Twist)) {y y₀ : M4} (h1 : evalUn ε .expTwist d = some y)
    (h2 : evalUn ε .expTwist (0 : Twist) = some y₀) :
    response s ⟨n, c, .vec .twist⟩ (.un (L := geoLib ε) (α := Ty.vec .twist) 0 Un.expTwist
      (.leaf (L := geoLib ε) n c (.vec .twist))) d = boxMinusVal ε (.rigid .mat) y y₀ := by
  rw [exp_response, h0]
  have h3 : (0 : Twist) + d = d := zero_add d
  rw [h3, h1, h2, Option.bind_some, Option.bind_some]

/-- **C53 (exponential of a Zero twist).** `exp(Zero<Twist>)` has the identity as Jacobian with respect
to the Zero.  That is the derivative of `exp` of an ordinary twist holding zero, although for the
ordinary twist the library's Jacobian is not finite (C16). -/
theorem c53_exp_zero_twist (hε : 0 < ε) {N : ℕ → ℕ} (hN : HoldsNeutral s N) (a c : ℕ) :
    ∃ (p : Expr (xLib ε) (.idRigid .mat)) (p' : Expr (geoLib ε) (.rigid .mat)),
      NExpr.elab ε (.un .exp (.neutral a c (.vec .twist))) = some ⟨_, p⟩ ∧
      (spell N (.un .exp (.neutral a c (.vec .twist)))).elab ε = some ⟨_, p'⟩ ∧
      p.jacobianAuto (xmem ε s) ⟨a, c, .zeroVec .twist⟩ = some (1 : M6) ∧
      p'.jacobianAuto (L := geoLib ε) s ⟨N a, c, .vec .twist⟩ = none ∧
      IsDerivative (ε := ε) s ⟨N a, c, .vec .twist⟩ p' (1 : M6) := by
  have h0 : s (N a) (.vec .twist) = (0 : Twist) := by
    have := (hN a (.vec .twist)).2
    injection this
  refine ⟨.un (L := xLib ε) 0 .expZeroTwist (.leaf (L := xLib ε) a c (.zeroVec .twist)),
    .un (L := geoLib ε) (α := Ty.vec .twist) 0 Un.expTwist (.leaf (L := geoLib ε) (N a) c (.vec .twist)),
    rfl, rfl, ?_, ?_, ?_⟩
  · rw [c20_auto (xmem ε s) _ _ (by simp [objects]) (.inl rfl)]
    have h1 : occurrences (xmem ε s) (⟨a, c, .zeroVec .twist⟩ : Target (xLib ε))
        (.un (L := xLib ε) 0 .expZeroTwist (.leaf (L := xLib ε) a c (.zeroVec .twist))) =
        [some ((1 : M6) * 1)] := by
      simp only [occurrences]
      rfl
    rw [h1, mul_one]
    exact @add_zero (OMat (Fin 3 ⊕ Fin 3) (Fin 3 ⊕ Fin 3)) _ (some 1)
  · rw [c20_auto (L := geoLib ε) s _ _ (by simp [objects]) (.inl rfl)]
    have h1 : slopeU (L := geoLib ε) s Un.expTwist (.leaf (L := geoLib ε) (N a) c (.vec .twist)) =
        none := by
      unfold slopeU
      change (some (s (N a) (.vec .twist))).bind (fun x : Twist => (evalUn ε .expTwist x).bind
        fun v => expTwistJac ε (rotBlock v) x) = none
      rw [h0, Option.bind_some]
      cases evalUn ε .expTwist (0 : Twist) with
      | none => rfl
      | some v => exact expTwistJac_zero _
    simp only [occurrences]
    rw [h1]
    rfl
  · obtain ⟨p, h1, h2, h3⟩ := expTwist_moves hε
    obtain ⟨F, F1, F2, F3⟩ := moves_boxMinus hε (.rigid .mat) (y := p 0) h3 h2 h2 rfl
    have h4 : evalUn ε .expTwist (0 : Twist) = some (p 0) := h1.self_of_nhds
    refine ⟨F, ?_, F2, ?_⟩
    · filter_upwards [h1, F1] with d d1 d2
      exact (exp_response_zero s (N a) c d h0 d1 h4).trans d2
    · exact DiffV.hasFDerivAt (F3.congr_right fun h => one_mulVec h)

end WG
