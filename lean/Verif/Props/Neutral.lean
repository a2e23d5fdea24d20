import Verif.Props.Evaluation
import Verif.Props.Differentiation
import Verif.Lemmas.NeutralExpr
import Verif.Lemmas.NeutralPlain
import Verif.Lemmas.NeutralGen

/-!
# C49, C50, C51: expressions with `Identity` and `Zero`
-/

namespace WG
open Matrix Spec Filter Topology

variable {ε : ℝ} {s : Memory}

/-- The expression is accepted, and evaluates to an object whose `value()` is valid and represents
`o`; the object is an Identity or Zero exactly if `w`. -/
def XYields (ε : ℝ) (s : Memory) (e : NExpr) (o : Obj) (w : Bool) : Prop :=
  ∃ (a : XTy) (p : Expr (xLib ε) a) (v : a.Val), e.elab ε = some ⟨a, p⟩ ∧
    p.eval (xmem ε s) = some v ∧ Valid a.leaf (a.content v) ∧ obj a.leaf (a.content v) = o ∧
      a.wrapper = w

/-! ## C49: values -/

/-- **C49.** An expression with Identity and Zero objects evaluates to what it evaluates to with
ordinary objects holding the identity and zero in their place; the result is itself an Identity or
Zero exactly when the rules of the algebra give one.  Missing from the full claim: the forms for
which `form` is `none`, namely a Zero multiplied or divided by a scalar, a Zero vector plus a Zero
point, `rotation()`/`translation()` of a composite identity (for which it is false, see below), and
dynamic handles around an Identity or Zero. -/
theorem c49_value_partial (hε : 0 < ε) {N : ℕ → ℕ} (hN : HoldsNeutral s N) {e : NExpr} {o : Obj}
    (h : Means ε s (spell N e) o) {f : Kind × Bool} (hf : form e = some f) :
    XYields ε s e o f.2 ∧ Yields ε s (spell N e) o := by
  obtain ⟨⟨⟨a, p⟩, h1, ⟨-, v, h2, h3, h4⟩, h5⟩, -⟩ := means_xacc hε hN e h hf
  exact ⟨⟨a, p, v, h1, (mk_val _ p).trans h2, h3, h4, h5⟩, c01_evaluation_meaning hε h⟩

/-- **C49.** The class requested for the result is obtained, also when the expression is an Identity
or Zero. -/
theorem c49_eval_to_partial (hε : 0 < ε) {N : ℕ → ℕ} (hN : HoldsNeutral s N) {e : NExpr} {o : Obj}
    (h : Means ε s (spell N e) o) {f : Kind × Bool} (hf : form e = some f) (τ : Ty)
    (hk : o.kindOk τ) :
    ∃ (p : Expr (xLib ε) (.plain τ)) (v : τ.Val), NExpr.elab ε (.un (.to τ) e) = some ⟨_, p⟩ ∧
      p.eval (xmem ε s) = some v ∧ Valid τ v ∧ obj τ v = o := by
  have hκ : Kind.of o = f.1 := (means_xacc hε hN e h hf).2
  have hτ : f.1 = .ofTy τ := by
    rw [← hκ]
    cases o with
    | vec k x => cases hk; rfl
    | point x => cases hk; rfl
    | rot R => obtain ⟨k, rfl⟩ := hk; rfl
    | motion T => obtain ⟨k, rfl⟩ := hk; rfl
  have hf' : form (.un (.to τ) e) = some (f.1, false) := by
    change (form e).bind _ = _
    rw [hf]
    obtain ⟨κ, n⟩ := f
    change (if κ = .ofTy τ then some (κ, false) else none) = _
    rw [if_pos hτ]
  obtain ⟨⟨a, p, v, h1, h2, h3, h4, h5⟩, -⟩ :=
    c49_value_partial hε hN (e := .un (.to τ) e) (.evalTo τ h hk) hf'
  have ha : a = .plain τ := by
    have h1' : (e.elab ε).bind (xelabTo τ) = some ⟨a, p⟩ := by
      cases e <;> exact h1
    obtain ⟨x, -, hx⟩ := Option.bind_eq_some_iff.mp h1'
    unfold xelabTo at hx
    split_ifs at hx
    · cases hx; rfl
    · obtain ⟨u, -, hx⟩ := firstConv1_mem hx
      obtain ⟨op, -, hx⟩ := Option.map_eq_some_iff.mp hx
      cases hx; rfl
  subst ha
  exact ⟨p, v, h1, h2, h3, h4⟩

/-- **C49 is false for scaling.** A Zero multiplied (on either side) or divided by a scalar is
accepted, and reading the result is undefined behaviour: the returned Eigen expression refers to the
temporary returned by `Zero::value()`. -/
theorem c49_scaled_zero_undefined {e z : NExpr} {k : VK} (hk : k ≠ .scalar)
    {p : Expr (xLib ε) (.plain (.vec .scalar))} {q : Expr (xLib ε) (.zeroVec k)}
    (he : e.elab ε = some ⟨_, p⟩) (hz : z.elab ε = some ⟨_, q⟩) (s : Memory) :
    (∃ r : Expr (xLib ε) (.plain (.vec k)), NExpr.elab ε (.bin .mul e z) = some ⟨_, r⟩ ∧
      r.eval (xmem ε s) = none) ∧
    (∃ r : Expr (xLib ε) (.plain (.vec k)), NExpr.elab ε (.bin .mul z e) = some ⟨_, r⟩ ∧
      r.eval (xmem ε s) = none) ∧
    ∃ r : Expr (xLib ε) (.plain (.vec k)), NExpr.elab ε (.bin .div z e) = some ⟨_, r⟩ ∧
      r.eval (xmem ε s) = none := by
  have key : ∀ (x y : Option (XTree ε)) (op : BOp) (x' y' r : XTree ε), x = some x' → y = some y' →
      xelabBin op x' y' = some r → (x.bind fun x => y.bind fun y => xelabBin op x y) = some r := by
    rintro _ _ op x' y' r rfl rfl h
    exact h
  have hn : ∀ {a b c : XTy} (op : XBin a b c) (l : Expr (xLib ε) a) (r : Expr (xLib ε) b),
      op.dead = true → Expr.eval (xmem ε s) (.bin (L := xLib ε) 0 op l r) = none := by
    intro a b c op l r h
    cases op with
    | dangling op =>
      refine (mk_val _ _).trans ?_
      change (value (xmem ε s) l).bind (fun x => (value (xmem ε s) r).bind fun y => none) = none
      cases value (xmem ε s) l <;> cases value (xmem ε s) r <;> rfl
    | _ => cases h
  refine ⟨?_, ?_, ?_⟩
  · cases k
    · exact absurd rfl hk
    all_goals exact ⟨_, key _ _ _ _ _ _ he hz rfl, hn _ _ _ rfl⟩
  · cases k
    · exact absurd rfl hk
    all_goals exact ⟨_, key _ _ _ _ _ _ hz he rfl, hn _ _ _ rfl⟩
  · cases k
    · exact absurd rfl hk
    all_goals exact ⟨_, key _ _ _ _ _ _ hz he rfl, hn _ _ _ rfl⟩

/-- **C49 is false for a Zero scalar.**  The `value()` of a `Zero<Scalar>` is a 1x1 matrix and not a
number: its sum, difference, inner product, product and quotient with an ordinary scalar or vector do
not compile (only multiplied from the right onto a vector it does, see below), nor does its conversion
to `Scalar`, its `normalized()` or its arc cosine. -/
theorem c49_zero_scalar_rejected {z y : NExpr} {k : VK} {q : Expr (xLib ε) (.zeroVec .scalar)}
    {p : Expr (xLib ε) (.plain (.vec k))} (hz : z.elab ε = some ⟨_, q⟩)
    (hy : y.elab ε = some ⟨_, p⟩) :
    (∀ op : BOp, NExpr.elab ε (.bin op z y) = none) ∧
    (∀ op : BOp, op ≠ .mul ∨ k = .scalar → NExpr.elab ε (.bin op y z) = none) ∧
    NExpr.elab ε (.un (.to (.vec .scalar)) z) = none ∧
    NExpr.elab ε (.un .normalized z) = none ∧ NExpr.elab ε (.un .acos z) = none := by
  have key : ∀ (x y : Option (XTree ε)) (op : BOp) (x' y' : XTree ε), x = some x' → y = some y' →
      xelabBin op x' y' = none → (x.bind fun x => y.bind fun y => xelabBin op x y) = none := by
    rintro _ _ op x' y' rfl rfl h
    exact h
  have key1 : ∀ op : UOp, xelabUn op ⟨_, q⟩ = none → op ≠ .rotation → op ≠ .translation →
      NExpr.elab ε (.un op z) = none := by
    intro op h h1 h2
    have e : NExpr.elab ε (.un op z) = (z.elab ε).bind (xelabUn op) := by
      cases z <;> cases op <;> first | rfl | exact absurd rfl h1 | exact absurd rfl h2
    rw [e, hz]
    exact h
  refine ⟨fun op => key _ _ _ _ _ hz hy ?_, fun op ho => key _ _ _ _ _ hy hz ?_,
    key1 _ ?_ nofun nofun, key1 _ ?_ nofun nofun, key1 _ ?_ nofun nofun⟩
  · cases op <;> cases k <;> rfl
  · cases op <;> cases k <;> first | rfl | (rcases ho with h | h <;> first | exact absurd rfl h | cases h)
  all_goals rfl

example (τ : VK) := c49_zero_scalar_rejected (ε := ε) (z := .neutral 1 0 (.vec .scalar))
  (y := .leaf 2 0 (.vec τ)) rfl rfl

/-- **C49 is false for a vector multiplied by a Zero scalar from the right**: it compiles, and reading
the result is undefined behaviour. -/
theorem c49_times_zero_scalar_undefined {z y : NExpr} {k : VK} (hk : k ≠ .scalar)
    {q : Expr (xLib ε) (.zeroVec .scalar)} {p : Expr (xLib ε) (.plain (.vec k))}
    (hz : z.elab ε = some ⟨_, q⟩) (hy : y.elab ε = some ⟨_, p⟩) (s : Memory) :
    ∃ r : Expr (xLib ε) (.plain (.vec k)), NExpr.elab ε (.bin .mul y z) = some ⟨_, r⟩ ∧
      r.eval (xmem ε s) = none := by
  have key : ∀ (x y : Option (XTree ε)) (op : BOp) (x' y' r : XTree ε), x = some x' → y = some y' →
      xelabBin op x' y' = some r → (x.bind fun x => y.bind fun y => xelabBin op x y) = some r := by
    rintro _ _ op x' y' r rfl rfl h
    exact h
  have hn : ∀ {a b c : XTy} (op : XBin a b c) (l : Expr (xLib ε) a) (r : Expr (xLib ε) b),
      op.dead = true → Expr.eval (xmem ε s) (.bin (L := xLib ε) 0 op l r) = none := by
    intro a b c op l r h
    cases op with
    | dangling op =>
      refine (mk_val _ _).trans ?_
      change (value (xmem ε s) l).bind (fun x => (value (xmem ε s) r).bind fun y => none) = none
      cases value (xmem ε s) l <;> cases value (xmem ε s) r <;> rfl
    | _ => cases h
  cases k
  · exact absurd rfl hk
  all_goals exact ⟨_, key _ _ _ _ _ _ hy hz rfl, hn _ _ _ rfl⟩

example (s : Memory) := c49_times_zero_scalar_undefined (ε := ε) (k := .twist) (by decide)
  (z := .neutral 1 0 (.vec .scalar)) (y := .leaf 2 0 (.vec .twist)) rfl rfl s

/-- **C49.** What can be done with a `Zero<Scalar>`: its negative and the sum of two are again
`Zero<Scalar>`, and its norm, squared norm and inner product with itself are 0. -/
theorem c49_zero_scalar_accepted (a c b d : ℕ) (s : Memory) :
    XYields ε s (.un .neg (.neutral a c (.vec .scalar))) (.vec .scalar 0) true ∧
    XYields ε s (.bin .add (.neutral a c (.vec .scalar)) (.neutral b d (.vec .scalar)))
      (.vec .scalar 0) true ∧
    XYields ε s (.un .norm (.neutral a c (.vec .scalar))) (.vec .scalar 0) false ∧
    XYields ε s (.un .squaredNorm (.neutral a c (.vec .scalar))) (.vec .scalar 0) false ∧
    XYields ε s (.bin .dot (.neutral a c (.vec .scalar)) (.neutral b d (.vec .scalar)))
      (.vec .scalar 0) false := by
  refine ⟨⟨_, _, _, rfl, rfl, trivial, rfl, rfl⟩, ⟨_, _, _, rfl, rfl, trivial, rfl, rfl⟩,
    ⟨_, _, _, rfl, rfl, trivial, ?_, rfl⟩, ⟨_, _, _, rfl, rfl, trivial, ?_, rfl⟩,
    ⟨_, _, _, rfl, rfl, trivial, ?_, rfl⟩⟩
  · change Obj.vec .scalar (fun _ => vNorm (0 : Fin 1 → ℝ)) = _
    simp only [vNorm, vSqNorm, zero_dotProduct, Real.sqrt_zero]
    rfl
  · change Obj.vec .scalar (fun _ => vSqNorm (0 : Fin 1 → ℝ)) = _
    simp only [vSqNorm, zero_dotProduct]
    rfl
  · change Obj.vec .scalar (fun _ => vDot (0 : Fin 1 → ℝ) 0) = _
    simp only [vDot, zero_dotProduct]
    rfl

/-- **C49 is false for a Zero vector plus a Zero point**: the sum of a vector and a point is a point,
but the result has the class of the left operand, `Zero<Translation>`. -/
theorem c49_zero_plus_zero_point {y z : NExpr}
    {p : Expr (xLib ε) (.zeroVec .trans)} {q : Expr (xLib ε) .zeroPoint}
    (hy : y.elab ε = some ⟨_, p⟩) (hz : z.elab ε = some ⟨_, q⟩) :
    ∃ r : Expr (xLib ε) (.zeroVec .trans), NExpr.elab ε (.bin .add y z) = some ⟨_, r⟩ := by
  refine ⟨.bin (L := xLib ε) 0 (.keepL .sum _ _) p q, ?_⟩
  change ((y.elab ε).bind fun x => (z.elab ε).bind fun y => xelabBin .add x y) = _
  rw [hy, hz]
  rfl

/-- **C49 is false for the parts of a composite identity**: `rotation()` and `translation()` of an
expression that evaluates to an `Identity<RigidTransform>` without being one do not compile. -/
theorem c49_composite_identity_rejected {e : NExpr} {k : RigK} {p : Expr (xLib ε) (.idRigid k)}
    (he : e.elab ε = some ⟨_, p⟩) (hl : literal e = false) :
    NExpr.elab ε (.un .rotation e) = none ∧ NExpr.elab ε (.un .translation e) = none := by
  have h1 : NExpr.elab ε (.un .rotation e) = (e.elab ε).bind (xelabUn .rotation) := by
    cases e <;> first | rfl | cases hl
  have h2 : NExpr.elab ε (.un .translation e) = (e.elab ε).bind (xelabUn .translation) := by
    cases e <;> first | rfl | cases hl
  rw [h1, h2, he]
  cases k <;> exact ⟨rfl, rfl⟩

/-- **C49 is false**: an expression that means something with ordinary objects, and does not evaluate
with a Zero. -/
theorem c49_false (hε : 0 < ε) {N : ℕ → ℕ} (hN : HoldsNeutral s N) : ∃ (e : NExpr) (o : Obj),
    Means ε s (spell N e) o ∧ Yields ε s (spell N e) o ∧ ∀ o' w, ¬XYields ε s e o' w := by
  have hm : Means ε s (spell N (.bin .mul (.leaf 1 0 (.vec .scalar)) (.neutral 2 0 (.vec .trans))))
      (.vec .trans _) :=
    Means.mulScalarVec (.leaf 1 0 (.vec .scalar) trivial) (by
      have h := Means.leaf (ε := ε) (N 2) 0 (.vec .trans) (hN 2 (.vec .trans)).1
      exact h)
  refine ⟨_, _, hm, c01_evaluation_meaning hε hm, ?_⟩
  rintro o' w ⟨a, p, v, h1, h2, -⟩
  obtain ⟨⟨r, h3, h4⟩, -⟩ := c49_scaled_zero_undefined (ε := ε) (e := .leaf 1 0 (.vec .scalar))
    (z := .neutral 2 0 (.vec .trans)) (k := .trans) (by decide) rfl rfl s
  rw [h3] at h1
  cases h1
  rw [h4] at h2
  cases h2

/-! ## C50: derivatives -/

/-- **C50.** At a regular point, whenever `jacobian(x)` of an expression with Identity and Zero
objects compiles and is finite, it is the derivative at zero of
`d ↦ eval(e with x replaced by x + d) - eval(e)`.  Missing from the full claim: that the Jacobian
compiles (false for `Identity * v`, see below). -/
theorem c50_jacobian_partial (hε : 0 < ε) (hε1 : ε ≤ 1) (s : Memory) {e : NExpr} {τ : Ty}
    {p : Expr (xLib ε) (.plain τ)} (he : e.elab ε = some ⟨_, p⟩) (hreg : RegularX ε s p)
    {n c : ℕ} {σ : Ty} (ht : (⟨n, c, .plain σ⟩ : Target (xLib ε)) ∈ objects p)
    (ho : ∀ o ∈ objects p, o.addr = n → o.ty = .plain σ → o = ⟨n, c, .plain σ⟩)
    (hc : p.noProxy ∨ p.fwdCompiles (⟨n, c, .plain σ⟩ : Target (xLib ε)) ∧
      Distinguished (⟨n, c, .plain σ⟩ : Target (xLib ε)) p)
    {J : Matrix τ.Idx σ.Idx ℝ} (hJ : p.jacobianAuto (xmem ε s) ⟨n, c, .plain σ⟩ = some J) :
    IsDerivativeX s n σ p J := by
  rw [c20_auto (xmem ε s) _ p ht hc] at hJ
  exact derivative_x hε hε1 s p (elab_gen e he) hreg ht ho hJ

/-- **C50.** The same for `evaluateDynamicJacobian`. -/
theorem c50_dynamic_partial (hε : 0 < ε) (hε1 : ε ≤ 1) (s : Memory) {e : NExpr} {τ : Ty}
    {p : Expr (xLib ε) (.plain τ)} (he : e.elab ε = some ⟨_, p⟩) (hreg : RegularX ε s p)
    {n c : ℕ} {σ : Ty} (ht : (⟨n, c, .plain σ⟩ : Target (xLib ε)) ∈ objects p)
    (hd : Distinguished (⟨n, c, .plain σ⟩ : Target (xLib ε)) p)
    {J : Matrix τ.Idx σ.Idx ℝ} (hJ : p.dynJacobian (xmem ε s) n (.plain σ) = some J) :
    IsDerivativeX s n σ p J := by
  rw [(c21_dynamic_forward (xmem ε s) ⟨n, c, .plain σ⟩ p hd).1] at hJ
  exact derivative_x hε hε1 s p (elab_gen e he) hreg ht (fun o h1 h2 _ => hd.1 o h1 h2) hJ

/-- An expression that returns the vector object at `n` responds to its change by that change
(helper). -/
theorem returns_vector {n : ℕ} {k : VK} (p : Expr (xLib ε) (.plain (.vec k)))
    (hv : ∀ s, value (xmem ε s) p = some (s n (.vec k))) :
    IsDerivativeX s n (.vec k) p (1 : Matrix k.Idx k.Idx ℝ) := by
  refine ⟨fun d => d, Eventually.of_forall fun d => ?_, rfl, ?_⟩
  · unfold responseX
    change (value (xmem ε (Store.set (L := geoLib ε) s n (.vec k) (s n (.vec k) + d))) p).bind _ = _
    have h1 : Store.set (L := geoLib ε) s n (.vec k) (s n (.vec k) + d) n (.vec k) =
      s n (.vec k) + d := by simp [Store.set]
    refine (congrArg (fun z => Option.bind z _) ((hv _).trans (congrArg some h1))).trans ?_
    refine (congrArg (fun z => Option.bind z _) (hv s)).trans ?_
    exact congrArg some (add_sub_cancel_left _ _)
  · have : (linMap (1 : Matrix k.Idx k.Idx ℝ)) = ContinuousLinearMap.id ℝ (k.Idx → ℝ) := by
      ext1 x
      change (1 : Matrix k.Idx k.Idx ℝ) *ᵥ x = x
      exact Matrix.one_mulVec x
    change HasFDerivAt (fun d : k.Idx → ℝ => d) (linMap (1 : Matrix k.Idx k.Idx ℝ)) 0
    rw [this]
    exact hasFDerivAt_id 0

/-- **C50 is false for `Identity * v`**: the product is `v`, its derivative is the identity, and the
Jacobian does not compile. -/
theorem c50_identity_times_vector (a d n c : ℕ) (τ : Ty)
    (hτ : τ = .rot .quat ∨ τ = .rot .mat ∨ τ = .rot .aa ∨ τ = .rigid .mat ∨ τ = .rigid .compact) :
    ∃ p : Expr (xLib ε) (.plain (.vec .trans)),
      NExpr.elab ε (.bin .mul (.neutral a d τ) (.leaf n c (.vec .trans))) = some ⟨_, p⟩ ∧
      (∀ s : Memory, p.eval (xmem ε s) = some (s n (.vec .trans))) ∧
      (∀ s : Memory, IsDerivativeX s n (.vec .trans) p (1 : M3)) ∧
      ∀ s : Memory, p.jacobianAuto (xmem ε s) ⟨n, c, .plain (.vec .trans)⟩ = none := by
  have key : ∀ (b : XTy) (t : Tag2), b.wrapper = true → (t = .rotate ∨ t = .transform) →
      let p : Expr (xLib ε) (.plain (.vec .trans)) := .bin (L := xLib ε) 0 (.keepR t _ _)
        (.leaf (L := xLib ε) a d b) (.leaf (L := xLib ε) n c (.plain (.vec .trans)))
      (∀ s : Memory, p.eval (xmem ε s) = some (s n (.vec .trans))) ∧
      (∀ s : Memory, IsDerivativeX s n (.vec .trans) p (1 : M3)) ∧
      ∀ s : Memory, p.jacobianAuto (xmem ε s) ⟨n, c, .plain (.vec .trans)⟩ = none := by
    intro b t hb ht p
    refine ⟨fun s => rfl, fun s => returns_vector p fun s => rfl, fun s => ?_⟩
    rw [c20_auto (xmem ε s) _ p (by simp [p, objects]) (.inl rfl)]
    have h1 : occurrences (xmem ε s) (⟨n, c, .plain (.vec .trans)⟩ : Target (xLib ε))
        (.leaf (L := xLib ε) a d b) = [] := occ_wrapper _ trivial hb
    have h2 : slopeR (xmem ε s) (.keepR t b (.plain (.vec .trans)) : XBin _ _ _)
        (.leaf (L := xLib ε) a d b) (.leaf (L := xLib ε) n c (.plain (.vec .trans))) = none := by
      rcases ht with rfl | rfl <;> rfl
    change total ((occurrences (xmem ε s) _ (.leaf (L := xLib ε) a d b)).map _ ++
      (occurrences (xmem ε s) _ (.leaf (L := xLib ε) n c (.plain (.vec .trans)))).map
        (OMat.mul (slopeR (xmem ε s) (.keepR t b (.plain (.vec .trans)) : XBin _ _ _)
        (.leaf (L := xLib ε) a d b) (.leaf (L := xLib ε) n c (.plain (.vec .trans)))))) = none
    rw [h1, h2, occ_leaf_self]
    rfl
  rcases hτ with rfl | rfl | rfl | rfl | rfl
  · exact ⟨_, rfl, key (.idRot .quat) .rotate rfl (.inl rfl)⟩
  · exact ⟨_, rfl, key (.idRot .mat) .rotate rfl (.inl rfl)⟩
  · exact ⟨_, rfl, key (.idRot .aa) .rotate rfl (.inl rfl)⟩
  · exact ⟨_, rfl, key (.idRigid .mat) .transform rfl (.inr rfl)⟩
  · exact ⟨_, rfl, key (.idRigid .compact) .transform rfl (.inr rfl)⟩

/-! ## C51: nothing changes without Identity and Zero -/

/-- **C51.** The overloads for Identity and Zero do not affect expressions that do not mention them:
such an expression is accepted or rejected as if those overloads did not exist, and its class, its
value and its Jacobians are the same. -/
theorem c51_unaffected (e : SExpr) :
    (∀ x : Tree ε, e.elab ε = some x → ∃ p : Expr (xLib ε) (.plain x.1),
      (embed e).elab ε = some ⟨_, p⟩ ∧
      (∀ s : Memory, p.eval (xmem ε s) = x.2.eval (L := geoLib ε) s) ∧
      ∀ (s : Memory) (t : Target (geoLib ε)), t ∈ objects x.2 → x.2.noProxy →
        p.jacobianAuto (xmem ε s) ⟨t.addr, t.cls, .plain t.ty⟩ =
          x.2.jacobianAuto (L := geoLib ε) s t) ∧
    (e.elab ε = none → (embed e).elab ε = none) := by
  refine ⟨fun x hx => ⟨inject x.2, ?_, fun s =>
    ((mk_val _ _).trans (value_inject s x.2)).trans (mk_val (L := geoLib ε) s x.2).symm, fun s t ht hp => ?_⟩,
    fun h => ?_⟩
  · rw [elab_embed, hx]; rfl
  · rw [c20_auto (L := geoLib ε) s t x.2 ht (.inl hp),
      c20_auto (xmem ε s) _ (inject x.2) (by
        rw [objects_inject]
        exact List.mem_map.mpr ⟨t, ht, rfl⟩) (.inl (by rw [noProxy_inject]; exact hp))]
    exact congrArg total (occ_inject s t.addr t.cls t.ty x.2)
  · rw [elab_embed, h]; rfl

/-! ## Concrete cases -/

/-- The demonstration memory with neutral objects at address 9. -/
noncomputable def demoN : Memory := fun a τ => if a = 9 then neutralVal τ else demo a τ

theorem demoN_neutral : HoldsNeutral demoN (fun _ => 9) := fun _ τ => by
  have : demoN 9 τ = neutralVal τ := if_pos rfl
  rw [this]
  exact ⟨neutral_valid τ, neutral_obj τ⟩

theorem demoN_one (τ : Ty) : demoN 1 τ = demo 1 τ := if_neg (by decide)

theorem demoN_valid (a : ℕ) (τ : Ty) : Valid τ (demoN a τ) := by
  unfold demoN
  split_ifs
  · exact neutral_valid τ
  · exact demo_valid a τ

/-- `(Identity<Quat>() * aa) * (v + Zero<Translation>())`. -/
def exNeutral : NExpr := .bin .mul (.bin .mul (.neutral 2 7 (.rot .quat)) (.leaf 1 0 (.rot .aa)))
  (.bin .add (.leaf 1 0 (.vec .trans)) (.neutral 3 8 (.vec .trans)))

/-- Non-vacuity of C49. -/
example : ∃ o, XYields dblEps demoN exNeutral o false ∧ Yields dblEps demoN (spell (fun _ => 9) exNeutral) o :=
  ⟨_, c49_value_partial dblEps_pos demoN_neutral (e := exNeutral)
    (.rotate (.mulRot (.leaf 9 7 (.rot .quat) (demoN_valid _ _))
      (.leaf 1 0 (.rot .aa) (demoN_valid _ _)))
      (.addVec (.leaf 1 0 (.vec .trans) trivial) (.leaf 9 8 (.vec .trans) trivial))) rfl⟩

/-- Non-vacuity of C49: an Identity as result, `exp(Zero<RelativeRotation>()) * Identity<Quat>()`. -/
example : ∃ o, XYields dblEps demoN (.bin .mul (.un .exp (.neutral 2 7 (.vec .relrot)))
    (.neutral 3 8 (.rot .quat))) o true := by
  have hz : demoN 9 (.vec .relrot) = (0 : V3) := if_pos rfl
  exact ⟨_, (c49_value_partial dblEps_pos demoN_neutral (e := .bin .mul (.un .exp
    (.neutral 2 7 (.vec .relrot))) (.neutral 3 8 (.rot .quat)))
    (.mulRot (.expRot (.leaf 9 7 (.vec .relrot) trivial) (Or.inl hz))
      (.leaf 9 8 (.rot .quat) (demoN_valid _ _))) rfl).1⟩

/-- Non-vacuity of the negations. -/
example : ∃ r : Expr (xLib dblEps) (.plain (.vec .trans)),
    NExpr.elab dblEps (.bin .mul (.leaf 1 0 (.vec .scalar)) (.neutral 2 0 (.vec .trans))) =
      some ⟨_, r⟩ ∧ r.eval (xmem dblEps demo) = none :=
  (c49_scaled_zero_undefined (e := .leaf 1 0 (.vec .scalar)) (by decide) rfl rfl demo).1

example : NExpr.elab dblEps (.un .rotation (.un .exp (.neutral 1 0 (.vec .twist)))) = none :=
  (c49_composite_identity_rejected (k := .mat) rfl rfl).1

/-- The tree of `(Identity<MatrixRotation>() * m) * (v + Zero<Translation>())`. -/
noncomputable def exTree : Expr (xLib ε) (.plain (.vec .trans)) :=
  .bin (L := xLib ε) (α := XTy.plain (.rot .mat)) (β := XTy.plain (.vec .trans)) 0
    (XBin.value Bin.rotateM)
    (.bin (L := xLib ε) 0 (XBin.keepR .compose (.idRot .mat) (.plain (.rot .mat)))
      (.leaf (L := xLib ε) 2 7 (XTy.idRot .mat)) (.leaf (L := xLib ε) 1 0 (XTy.plain (.rot .mat))))
    (.bin (L := xLib ε) (α := XTy.plain (.vec .trans)) (β := XTy.plain (.vec .trans)) 0
      (XBin.value (Bin.sum .trans))
      (.leaf (L := xLib ε) 1 1 (XTy.plain (.vec .trans)))
      (.un (L := xLib ε) 0 (XUn.conv (.zeroVec .trans))
        (.leaf (L := xLib ε) 3 8 (XTy.zeroVec .trans))))

/-- Non-vacuity of C50: the Jacobian of that expression with respect to `v` exists. -/
example : ∃ J, IsDerivativeX (ε := dblEps) demo 1 (.vec .trans) exTree J := by
  have hJ : ∃ J, (exTree (ε := dblEps)).jacobianAuto (xmem dblEps demo)
      ⟨1, 1, .plain (.vec .trans)⟩ = some J := by
    rw [c20_auto (xmem dblEps demo) _ exTree (by simp [exTree, objects]) (.inl rfl)]
    exact ⟨_, rfl⟩
  obtain ⟨J, hJ⟩ := hJ
  refine ⟨J, c50_jacobian_partial dblEps_pos dblEps_lt.le demo
    (e := .bin .mul (.bin .mul (.neutral 2 7 (.rot .mat)) (.leaf 1 0 (.rot .mat)))
      (.bin .add (.leaf 1 1 (.vec .trans)) (.neutral 3 8 (.vec .trans)))) (p := exTree)
    (n := 1) (c := 1) rfl ?_ ?_ ?_ (.inl rfl) hJ⟩
  · refine ⟨⟨trivial, demo_valid 1 (.rot .mat), fun _ _ _ _ => trivial⟩,
      ⟨trivial, ⟨trivial, fun _ _ => trivial⟩, fun _ _ _ _ => trivial⟩, fun _ _ _ _ => trivial⟩
  · simp [exTree, objects]
  · simp [exTree, objects]

end WG
