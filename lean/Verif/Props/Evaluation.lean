import Verif.Lemmas.Expression
import Verif.Spec.Kind

/-!
# C01, C23 (values): evaluation computes the mathematical meaning

`Means` (Verif/Spec/Expression.lean) is the specification; `Yields` is the observable behaviour of
the library: the expression compiles and its evaluation is a valid stored value representing `o`.
-/

namespace WG
open Matrix Spec

/-- The expression is accepted by the compiler and evaluates to a valid value representing `o`. -/
def Yields (ε : ℝ) (s : Memory) (e : SExpr) (o : Obj) : Prop :=
  ∃ (τ : Ty) (p : Expr (geoLib ε) τ) (v : τ.Val), e.elab ε = some ⟨τ, p⟩ ∧
    p.eval (L := geoLib ε) s = some v ∧ Valid τ v ∧ obj τ v = o

/-- **C01.** Every expression with a mathematical meaning compiles and evaluates to a valid
value representing exactly that meaning, whatever the depth and the mix of representations. -/
theorem c01_evaluation_meaning {ε : ℝ} (hε : 0 < ε) {s : Memory} {e : SExpr} {o : Obj}
    (h : Means ε s e o) : Yields ε s e o := by
  obtain ⟨⟨τ, p⟩, ht, v, hv⟩ := means_acc hε h
  exact ⟨τ, p, v, ht, hv⟩

/-- **C01.** The meaning is unique, so evaluation returns *the* meaning. -/
theorem c01_meaning_unique {ε : ℝ} (hε : 0 < ε) {s : Memory} {e : SExpr} {o o' : Obj}
    (h : Means ε s e o) (h' : Means ε s e o') : o = o' := by
  obtain ⟨τ, p, v, h1, h2, -, h3⟩ := c01_evaluation_meaning hε h
  obtain ⟨τ', p', v', h1', h2', -, h3'⟩ := c01_evaluation_meaning hε h'
  rw [h1] at h1'
  cases h1'
  rw [h2] at h2'
  cases h2'
  rw [← h3, ← h3']

/-- **C01.** The class requested for the result is the class obtained. -/
theorem c01_eval_to {ε : ℝ} (hε : 0 < ε) {s : Memory} {e : SExpr} {o : Obj} (h : Means ε s e o)
    (τ : Ty) (hk : o.kindOk τ) :
    ∃ (p : Expr (geoLib ε) τ) (v : τ.Val), SExpr.elab ε (.un (.to τ) e) = some ⟨τ, p⟩ ∧
      p.eval (L := geoLib ε) s = some v ∧ Valid τ v ∧ obj τ v = o := by
  obtain ⟨σ, p, v, h1, h2, h3, h4⟩ := c01_evaluation_meaning hε (.evalTo τ h hk)
  have hσ : σ = τ := by
    simp only [SExpr.elab] at h1
    obtain ⟨x, -, hx⟩ := Option.bind_eq_some_iff.mp h1
    change elabTo τ x = _ at hx
    unfold elabTo at hx
    split at hx
    · cases hx; rfl
    · obtain ⟨op, -, ho⟩ := Option.map_eq_some_iff.mp hx
      cases ho; rfl
  subst hσ
  exact ⟨p, v, h1, h2, h3, h4⟩

/-- Expressions a user may write without any condition on values: operators applied to operands of
the right kind, other than the partial functions `acos`, `/`, `exp`, `log` and box-plus/minus. -/
inductive WellKinded (s : Memory) : SExpr → Kind → Prop
  | leaf (a c τ) : Valid τ (s a τ) → WellKinded s (.leaf a c τ) (.ofTy τ)
  | dynamic (a) {e κ} : wrappable e = true → WellKinded s e κ → WellKinded s (.dynamic a e) κ
  | evalTo (τ) {e} : WellKinded s e (.ofTy τ) → WellKinded s (.un (.to τ) e) (.ofTy τ)
  | neg {e k} : WellKinded s e (.vec k) → WellKinded s (-e) (.vec k)
  | squaredNorm {e k} : WellKinded s e (.vec k) → k ≠ .scalar → WellKinded s (.un .squaredNorm e) (.vec .scalar)
  | norm {e k} : WellKinded s e (.vec k) → k ≠ .scalar → WellKinded s (.un .norm e) (.vec .scalar)
  | normalized {e k} : WellKinded s e (.vec k) → k ≠ .scalar → WellKinded s (.un .normalized e) (.vec k)
  | addVec {e f k} : WellKinded s e (.vec k) → WellKinded s f (.vec k) → WellKinded s (e + f) (.vec k)
  | subVec {e f k} : WellKinded s e (.vec k) → WellKinded s f (.vec k) → WellKinded s (e - f) (.vec k)
  | scale {e f k} : WellKinded s e (.vec .scalar) → WellKinded s f (.vec k) → WellKinded s (e * f) (.vec k)
  | scaleR {e f k} : WellKinded s e (.vec k) → WellKinded s f (.vec .scalar) → WellKinded s (e * f) (.vec k)
  | dot {e f k} : WellKinded s e (.vec k) → WellKinded s f (.vec k) → k ≠ .scalar →
      WellKinded s (.bin .dot e f) (.vec .scalar)
  | addPoint {e f} : WellKinded s e .point → WellKinded s f (.vec .trans) → WellKinded s (e + f) .point
  | addPoint' {e f} : WellKinded s e (.vec .trans) → WellKinded s f .point → WellKinded s (e + f) .point
  | subPoint {e f} : WellKinded s e .point → WellKinded s f .point → WellKinded s (e - f) (.vec .trans)
  | subPointVec {e f} : WellKinded s e .point → WellKinded s f (.vec .trans) → WellKinded s (e - f) .point
  | inverseRot {e} : WellKinded s e .rot → WellKinded s e⁻¹ .rot
  | mulRot {e f} : WellKinded s e .rot → WellKinded s f .rot → WellKinded s (e * f) .rot
  | rotate {e f} : WellKinded s e .rot → WellKinded s f (.vec .trans) → WellKinded s (e * f) (.vec .trans)
  | rotationRot {e} : WellKinded s e .rot → WellKinded s (.un .rotation e) .rot
  | translationRot {e} : WellKinded s e .rot → WellKinded s (.un .translation e) (.vec .trans)
  | inverseMotion {e} : WellKinded s e .motion → WellKinded s e⁻¹ .motion
  | mulMotion {e f} : WellKinded s e .motion → WellKinded s f .motion → WellKinded s (e * f) .motion
  | act {e f} : WellKinded s e .motion → WellKinded s f (.vec .trans) → WellKinded s (e * f) (.vec .trans)
  | rotation {e} : WellKinded s e .motion → WellKinded s (.un .rotation e) .rot
  | translation {e} : WellKinded s e .motion → WellKinded s (.un .translation e) (.vec .trans)

theorem Kind.of_obj (τ : Ty) (v : τ.Val) : Kind.of (obj τ v) = .ofTy τ := by
  rcases τ with _ | _ | _ | _ <;> rfl

theorem Kind.kindOk_of {o : Obj} {τ : Ty} (h : Kind.of o = .ofTy τ) : o.kindOk τ := by
  rcases o with ⟨k, x⟩ | p | R | T <;> rcases τ with k' | _ | k' | k' <;> simp [Kind.of, Kind.ofTy] at h
  · subst h; rfl
  · rfl
  · exact ⟨_, rfl⟩
  · exact ⟨_, rfl⟩

theorem Kind.vec_of {o : Obj} {k : VK} (h : Kind.of o = .vec k) : ∃ x, o = .vec k x := by
  rcases o with ⟨k, x⟩ | p | R | T <;> simp [Kind.of] at h
  subst h; exact ⟨_, rfl⟩

theorem Kind.point_of {o : Obj} (h : Kind.of o = .point) : ∃ x, o = .point x := by
  rcases o with ⟨k, x⟩ | p | R | T <;> simp [Kind.of] at h
  exact ⟨_, rfl⟩

theorem Kind.rot_of {o : Obj} (h : Kind.of o = .rot) : ∃ x, o = .rot x := by
  rcases o with ⟨k, x⟩ | p | R | T <;> simp [Kind.of] at h
  exact ⟨_, rfl⟩

theorem Kind.motion_of {o : Obj} (h : Kind.of o = .motion) : ∃ x, o = .motion x := by
  rcases o with ⟨k, x⟩ | p | R | T <;> simp [Kind.of] at h
  exact ⟨_, rfl⟩

/-- A rotation or motion that an expression means is a rotation, respectively has one. -/
theorem Means.rotation_valid {ε : ℝ} (hε : 0 < ε) {s : Memory} {e : SExpr} {R : M3}
    (h : Means ε s e (.rot R)) : IsRotation R := by
  obtain ⟨τ, p, v, -, -, hv, ho⟩ := c01_evaluation_meaning hε h
  rcases τ with k | _ | k | k <;> simp only [obj, reduceCtorEq, Obj.rot.injEq] at ho
  rw [← ho]
  exact rotDen_rotation hv

theorem Means.motion_valid {ε : ℝ} (hε : 0 < ε) {s : Memory} {e : SExpr} {T : Rigid}
    (h : Means ε s e (.motion T)) : IsRotation T.R := by
  obtain ⟨τ, p, v, -, -, hv, ho⟩ := c01_evaluation_meaning hε h
  rcases τ with k | _ | k | k <;> simp only [obj, reduceCtorEq, Obj.motion.injEq] at ho
  rw [← ho, rigidDen_eq _ _ hv]
  exact validRigid_rotation _ _ hv

theorem rigid_inverse_exists {T : Rigid} (h : IsRotation T.R) : ∃ S : Rigid, T.comp S = Rigid.id :=
  ⟨⟨T.Rᵀ, -(T.Rᵀ *ᵥ T.t)⟩, Rigid.ext' h.1 (by
    change T.R *ᵥ (-(T.Rᵀ *ᵥ T.t)) + T.t = 0
    rw [Matrix.mulVec_neg, Matrix.mulVec_mulVec, h.1, Matrix.one_mulVec]; simp)⟩

/-- **C01 (totality).** Every well-kinded expression without partial functions has a meaning, hence
compiles and evaluates to it. -/
theorem c01_total {ε : ℝ} (hε : 0 < ε) {s : Memory} {e : SExpr} {κ : Kind} (h : WellKinded s e κ) :
    ∃ o, Kind.of o = κ ∧ Means ε s e o ∧ Yields ε s e o := by
  suffices h' : ∃ o, Kind.of o = κ ∧ Means ε s e o by
    obtain ⟨o, h1, h2⟩ := h'
    exact ⟨o, h1, h2, c01_evaluation_meaning hε h2⟩
  induction h with
  | leaf a c τ hv => exact ⟨_, Kind.of_obj _ _, .leaf a c τ hv⟩
  | dynamic a hw _ ih => obtain ⟨o, h1, h2⟩ := ih; exact ⟨o, h1, .dynamic a hw h2⟩
  | evalTo τ _ ih => obtain ⟨o, h1, h2⟩ := ih; exact ⟨o, h1, .evalTo τ h2 (Kind.kindOk_of h1)⟩
  | neg _ ih => obtain ⟨o, h1, h2⟩ := ih; obtain ⟨x, rfl⟩ := Kind.vec_of h1; exact ⟨_, rfl, .neg h2⟩
  | squaredNorm _ hk ih =>
    obtain ⟨o, h1, h2⟩ := ih; obtain ⟨x, rfl⟩ := Kind.vec_of h1; exact ⟨_, rfl, .squaredNorm h2 hk⟩
  | norm _ hk ih => obtain ⟨o, h1, h2⟩ := ih; obtain ⟨x, rfl⟩ := Kind.vec_of h1; exact ⟨_, rfl, .norm h2 hk⟩
  | normalized _ hk ih =>
    obtain ⟨o, h1, h2⟩ := ih; obtain ⟨x, rfl⟩ := Kind.vec_of h1; exact ⟨_, rfl, .normalized h2 hk⟩
  | addVec _ _ ih ih' =>
    obtain ⟨o, h1, h2⟩ := ih; obtain ⟨x, rfl⟩ := Kind.vec_of h1
    obtain ⟨o', h1', h2'⟩ := ih'; obtain ⟨x', rfl⟩ := Kind.vec_of h1'
    exact ⟨_, rfl, .addVec h2 h2'⟩
  | subVec _ _ ih ih' =>
    obtain ⟨o, h1, h2⟩ := ih; obtain ⟨x, rfl⟩ := Kind.vec_of h1
    obtain ⟨o', h1', h2'⟩ := ih'; obtain ⟨x', rfl⟩ := Kind.vec_of h1'
    exact ⟨_, rfl, .subVec h2 h2'⟩
  | scale _ _ ih ih' =>
    obtain ⟨o, h1, h2⟩ := ih; obtain ⟨x, rfl⟩ := Kind.vec_of h1
    obtain ⟨o', h1', h2'⟩ := ih'; obtain ⟨x', rfl⟩ := Kind.vec_of h1'
    exact ⟨_, rfl, .mulScalarVec h2 h2'⟩
  | scaleR _ _ ih ih' =>
    obtain ⟨o, h1, h2⟩ := ih; obtain ⟨x, rfl⟩ := Kind.vec_of h1
    obtain ⟨o', h1', h2'⟩ := ih'; obtain ⟨x', rfl⟩ := Kind.vec_of h1'
    exact ⟨_, rfl, .mulVecScalar h2 h2'⟩
  | dot _ _ hk ih ih' =>
    obtain ⟨o, h1, h2⟩ := ih; obtain ⟨x, rfl⟩ := Kind.vec_of h1
    obtain ⟨o', h1', h2'⟩ := ih'; obtain ⟨x', rfl⟩ := Kind.vec_of h1'
    exact ⟨_, rfl, .dot h2 h2' hk⟩
  | addPoint _ _ ih ih' =>
    obtain ⟨o, h1, h2⟩ := ih; obtain ⟨x, rfl⟩ := Kind.point_of h1
    obtain ⟨o', h1', h2'⟩ := ih'; obtain ⟨x', rfl⟩ := Kind.vec_of h1'
    exact ⟨_, rfl, .addPointVec h2 h2'⟩
  | addPoint' _ _ ih ih' =>
    obtain ⟨o, h1, h2⟩ := ih; obtain ⟨x, rfl⟩ := Kind.vec_of h1
    obtain ⟨o', h1', h2'⟩ := ih'; obtain ⟨x', rfl⟩ := Kind.point_of h1'
    exact ⟨_, rfl, .addVecPoint h2 h2'⟩
  | subPoint _ _ ih ih' =>
    obtain ⟨o, h1, h2⟩ := ih; obtain ⟨x, rfl⟩ := Kind.point_of h1
    obtain ⟨o', h1', h2'⟩ := ih'; obtain ⟨x', rfl⟩ := Kind.point_of h1'
    exact ⟨_, rfl, .subPoint h2 h2'⟩
  | subPointVec _ _ ih ih' =>
    obtain ⟨o, h1, h2⟩ := ih; obtain ⟨x, rfl⟩ := Kind.point_of h1
    obtain ⟨o', h1', h2'⟩ := ih'; obtain ⟨x', rfl⟩ := Kind.vec_of h1'
    exact ⟨_, rfl, .subPointVec h2 h2'⟩
  | inverseRot _ ih =>
    obtain ⟨o, h1, h2⟩ := ih; obtain ⟨x, rfl⟩ := Kind.rot_of h1; exact ⟨_, rfl, .inverseRot h2⟩
  | mulRot _ _ ih ih' =>
    obtain ⟨o, h1, h2⟩ := ih; obtain ⟨x, rfl⟩ := Kind.rot_of h1
    obtain ⟨o', h1', h2'⟩ := ih'; obtain ⟨x', rfl⟩ := Kind.rot_of h1'
    exact ⟨_, rfl, .mulRot h2 h2'⟩
  | rotate _ _ ih ih' =>
    obtain ⟨o, h1, h2⟩ := ih; obtain ⟨x, rfl⟩ := Kind.rot_of h1
    obtain ⟨o', h1', h2'⟩ := ih'; obtain ⟨x', rfl⟩ := Kind.vec_of h1'
    exact ⟨_, rfl, .rotate h2 h2'⟩
  | inverseMotion _ ih =>
    obtain ⟨o, h1, h2⟩ := ih; obtain ⟨x, rfl⟩ := Kind.motion_of h1
    obtain ⟨S, hS⟩ := rigid_inverse_exists (Means.motion_valid hε h2)
    exact ⟨.motion S, rfl, .inverseMotion h2 hS⟩
  | mulMotion _ _ ih ih' =>
    obtain ⟨o, h1, h2⟩ := ih; obtain ⟨x, rfl⟩ := Kind.motion_of h1
    obtain ⟨o', h1', h2'⟩ := ih'; obtain ⟨x', rfl⟩ := Kind.motion_of h1'
    exact ⟨_, rfl, .mulMotion h2 h2'⟩
  | act _ _ ih ih' =>
    obtain ⟨o, h1, h2⟩ := ih; obtain ⟨x, rfl⟩ := Kind.motion_of h1
    obtain ⟨o', h1', h2'⟩ := ih'; obtain ⟨x', rfl⟩ := Kind.vec_of h1'
    exact ⟨_, rfl, .act h2 h2'⟩
  | rotation _ ih =>
    obtain ⟨o, h1, h2⟩ := ih; obtain ⟨x, rfl⟩ := Kind.motion_of h1; exact ⟨_, rfl, .rotation h2⟩
  | translation _ ih =>
    obtain ⟨o, h1, h2⟩ := ih; obtain ⟨x, rfl⟩ := Kind.motion_of h1; exact ⟨_, rfl, .translation h2⟩
  | rotationRot _ ih =>
    obtain ⟨o, h1, h2⟩ := ih; obtain ⟨x, rfl⟩ := Kind.rot_of h1; exact ⟨_, rfl, .rotationRot h2⟩
  | translationRot _ ih =>
    obtain ⟨o, h1, h2⟩ := ih; obtain ⟨x, rfl⟩ := Kind.rot_of h1; exact ⟨_, rfl, .translationRot h2⟩

/-- Two expressions that differ only in the class (and place) of their leaves and in the insertion of
dynamic nodes (around expressions that can be wrapped), where corresponding leaves are valid and represent the same object. -/
inductive SameUpToRepresentation (s : Memory) : SExpr → SExpr → Prop
  | leaf (a a' c c' τ τ') : Valid τ (s a τ) → Valid τ' (s a' τ') → obj τ (s a τ) = obj τ' (s a' τ') →
      SameUpToRepresentation s (.leaf a c τ) (.leaf a' c' τ')
  | un (op) {e e'} : (∀ τ, op ≠ .to τ) → SameUpToRepresentation s e e' →
      SameUpToRepresentation s (.un op e) (.un op e')
  | evalTo (τ τ') {e e'} : (∀ o : Obj, o.kindOk τ → o.kindOk τ') → SameUpToRepresentation s e e' →
      SameUpToRepresentation s (.un (.to τ) e) (.un (.to τ') e')
  | bin (op) {e e' f f'} : SameUpToRepresentation s e e' → SameUpToRepresentation s f f' →
      SameUpToRepresentation s (.bin op e f) (.bin op e' f')
  | dynamicR (a) {e e'} : wrappable e' = true → SameUpToRepresentation s e e' →
      SameUpToRepresentation s e (.dynamic a e')
  | dynamicL (a) {e e'} : SameUpToRepresentation s e e' → SameUpToRepresentation s (.dynamic a e) e'

theorem SameUpToRepresentation.means {ε : ℝ} {s : Memory} {e e' : SExpr}
    (h : SameUpToRepresentation s e e') : ∀ {o : Obj}, Means ε s e o → Means ε s e' o := by
  induction h with
  | leaf a a' c c' τ τ' _ hv he =>
    intro o hm
    cases hm
    rw [he]; exact .leaf _ _ _ hv
  | un op hop _ ih =>
    intro o hm
    cases hm with
    | evalTo τ => exact absurd rfl (hop τ)
    | neg h => exact .neg (ih h)
    | squaredNorm h hk => exact .squaredNorm (ih h) hk
    | norm h hk => exact .norm (ih h) hk
    | normalized h hk => exact .normalized (ih h) hk
    | acos h h1 h2 => exact .acos (ih h) h1 h2
    | inverseRot h => exact .inverseRot (ih h)
    | expRot h h1 => exact .expRot (ih h) h1
    | logRot h h1 h2 => exact .logRot (ih h) h1 h2
    | inverseMotion h h1 => exact .inverseMotion (ih h) h1
    | rotation h => exact .rotation (ih h)
    | translation h => exact .translation (ih h)
    | rotationRot h => exact .rotationRot (ih h)
    | translationRot h => exact .translationRot (ih h)
    | expMotion h h1 h2 => exact .expMotion (ih h) h1 h2
    | logMotion h h1 h2 h3 => exact .logMotion (ih h) h1 h2 h3
  | evalTo τ τ' hk _ ih =>
    intro o hm
    cases hm with
    | evalTo _ h h1 => exact .evalTo _ (ih h) (hk _ h1)
  | bin op _ _ ih ih' =>
    intro o hm
    cases hm with
    | addVec h h' => exact .addVec (ih h) (ih' h')
    | subVec h h' => exact .subVec (ih h) (ih' h')
    | mulScalarVec h h' => exact .mulScalarVec (ih h) (ih' h')
    | mulVecScalar h h' => exact .mulVecScalar (ih h) (ih' h')
    | divVec h h' h0 => exact .divVec (ih h) (ih' h') h0
    | dot h h' hk => exact .dot (ih h) (ih' h') hk
    | addPointVec h h' => exact .addPointVec (ih h) (ih' h')
    | addVecPoint h h' => exact .addVecPoint (ih h) (ih' h')
    | subPoint h h' => exact .subPoint (ih h) (ih' h')
    | subPointVec h h' => exact .subPointVec (ih h) (ih' h')
    | mulRot h h' => exact .mulRot (ih h) (ih' h')
    | rotate h h' => exact .rotate (ih h) (ih' h')
    | boxPlusRot h h' h1 => exact .boxPlusRot (ih h) (ih' h') h1
    | boxMinusRot h h' h1 h2 h3 => exact .boxMinusRot (ih h) (ih' h') h1 h2 h3
    | mulMotion h h' => exact .mulMotion (ih h) (ih' h')
    | act h h' => exact .act (ih h) (ih' h')
    | boxPlusMotion h h' h1 h2 => exact .boxPlusMotion (ih h) (ih' h') h1 h2
    | boxMinusMotion h h' h1 h2 h3 h4 => exact .boxMinusMotion (ih h) (ih' h') h1 h2 h3 h4
  | dynamicR a hw _ ih => exact fun hm => .dynamic _ hw (ih hm)
  | dynamicL a _ ih =>
    intro o hm
    cases hm with
    | dynamic _ _ h => exact ih h

/-- **C23 (values).** Changing the class in which leaves are stored (and inserting dynamic nodes)
changes neither acceptance nor the object the expression evaluates to. -/
theorem c23_value_representation_independent {ε : ℝ} (hε : 0 < ε) {s : Memory} {e e' : SExpr}
    {o : Obj} (hr : SameUpToRepresentation s e e') (h : Means ε s e o) :
    Yields ε s e o ∧ Yields ε s e' o :=
  ⟨c01_evaluation_meaning hε h, c01_evaluation_meaning hε (hr.means h)⟩

/-- **C35 (values).** Wrapping subexpressions in proxies (`SameUpToRepresentation` with equal leaves),
where that compiles (C63), does not change the result: special case for the root. -/
theorem c35_proxy_value {ε : ℝ} (hε : 0 < ε) {s : Memory} {e : SExpr} {o : Obj} (a : ℕ)
    (hw : wrappable e = true) (h : Means ε s e o) : Yields ε s (.dynamic a e) o :=
  c01_evaluation_meaning hε (.dynamic a hw h)

/-- The demonstration memory used by the examples: every vector is `(1,1,...)`, points and
translations `(1,2,3)`-like values, a quaternion rotation by `2 acos(3/5)` about `z`, a quarter-turn
matrix, an angle-axis rotation by one radian. -/
noncomputable def demo : Memory := fun _ τ => match τ with
  | .vec _ => fun _ => 1
  | .point => ![1, 2, 3]
  | .rot .quat => (⟨3/5, 0, 0, 4/5⟩ : Quat)
  | .rot .mat => (!![0, -1, 0; 1, 0, 0; 0, 0, 1] : M3)
  | .rot .aa => (⟨1, ![0, 0, 1]⟩ : AngleAxis)
  | .rigid .mat => (mk4 !![0, -1, 0; 1, 0, 0; 0, 0, 1] ![1, 2, 3] : M4)
  | .rigid .compact => (⟨⟨3/5, 0, 0, 4/5⟩, ![1, 2, 3]⟩ : QuatTrans)

theorem demo_quarter : IsRotation (!![0, -1, 0; 1, 0, 0; 0, 0, 1] : M3) := by
  constructor
  · mat3 []
  · simp [Matrix.det_fin_three]

theorem demo_quat : (⟨3/5, 0, 0, 4/5⟩ : Quat).IsUnit := by
  norm_num [Quat.IsUnit]

theorem demo_valid (a : ℕ) (τ : Ty) : Valid τ (demo a τ) := by
  rcases τ with k | _ | k | k
  · trivial
  · trivial
  · cases k
    · exact (validRot_quat _).mpr demo_quat
    · exact demo_quarter
    · exact (validRot_aa _).mpr (by
        change normSq ![0, 0, 1] = 1
        simp [normSq])
  · cases k
    · exact valid_mk4 _ demo_quarter
    · exact valid_compact _ demo_quat

/-- The double-precision machine epsilon. -/
noncomputable def dblEps : ℝ := 2⁻¹ ^ 52

theorem dblEps_pos : 0 < dblEps := by unfold dblEps; positivity
theorem dblEps_lt : dblEps < 1 := by unfold dblEps; norm_num

/-- A leaf of the demonstration memory. -/
abbrev lf (τ : Ty) : SExpr := .leaf 1 0 τ

theorem demo_means (τ : Ty) : Means dblEps demo (lf τ) (obj τ (demo 1 τ)) :=
  .leaf _ _ _ (demo_valid _ _)

/-- Non-vacuity of C01: a mixed-representation expression with an exponential,
`(q * m) * exp(phi) * aa * v`. -/
example : ∃ x, Yields dblEps demo
    (lf (.rot .quat) * lf (.rot .mat) * SExpr.un .exp (lf (.vec .relrot)) * lf (.rot .aa) *
      lf (.vec .trans)) (.vec .trans x) :=
  ⟨_, c01_evaluation_meaning dblEps_pos
    (.rotate (.mulRot (.mulRot (.mulRot (demo_means _) (demo_means _))
      (.expRot (demo_means (.vec .relrot)) (Or.inr (by
        have := dblEps_lt
        change dblEps < sqLen (fun _ => 1) ^ 2
        simp [sqLen, dotProduct]; linarith)))) (demo_means _)) (demo_means _))⟩

/-- Non-vacuity of `c01_total`: `(T⁻¹ * (R * v + v)).normalized()`. -/
example : WellKinded demo (.un .normalized ((lf (.rigid .mat))⁻¹ *
    (lf (.rot .aa) * lf (.vec .trans) + lf (.vec .trans)))) (.vec .trans) :=
  .normalized (.act (.inverseMotion (.leaf _ _ (.rigid .mat) (demo_valid _ _)))
    (.addVec (.rotate (.leaf _ _ (.rot .aa) (demo_valid _ _)) (.leaf _ _ (.vec .trans) trivial))
      (.leaf _ _ (.vec .trans) trivial))) (by decide)

/-- A memory in which address 2 holds, as a matrix, the rotation stored as a quaternion elsewhere. -/
noncomputable def demo2 : Memory := fun a τ => match τ with
  | .rot .mat => if a = 2 then ((⟨3/5, 0, 0, 4/5⟩ : Quat).toMatrix : M3) else demo a (.rot .mat)
  | τ => demo a τ

/-- A quaternion leaf against the matrix leaf of the same rotation. -/
theorem demo2_same : SameUpToRepresentation demo2 (lf (.rot .quat) * lf (.vec .trans))
    (.dynamic 7 (.leaf 2 0 (.rot .mat)) * lf (.vec .trans)) := by
  have hd : rotDen .quat (⟨3/5, 0, 0, 4/5⟩ : Quat) = (⟨3/5, 0, 0, 4/5⟩ : Quat).toMatrix :=
    rotDen_quat_unit demo_quat
  have h2 : demo2 2 (.rot .mat) = (⟨3/5, 0, 0, 4/5⟩ : Quat).toMatrix := by simp [demo2]
  refine .bin .mul (.dynamicR 7 rfl (.leaf _ _ _ _ _ _ ?_ ?_ ?_)) (.leaf _ _ _ _ _ _ trivial trivial rfl)
  · exact (validRot_quat _).mpr demo_quat
  · change IsRotation (demo2 2 (.rot .mat))
    rw [h2]
    exact Quat.toMatrix_isRotation demo_quat
  · change Obj.rot _ = Obj.rot (demo2 2 (.rot .mat))
    rw [h2]
    exact congrArg Obj.rot hd

theorem demo2_quat : Means dblEps demo2 (lf (.rot .quat)) (.rot (⟨3/5, 0, 0, 4/5⟩ : Quat).toMatrix) := by
  have h : Means dblEps demo2 (lf (.rot .quat)) (obj _ (demo2 1 (.rot .quat))) :=
    .leaf _ _ _ ((validRot_quat _).mpr demo_quat)
  rwa [show obj (.rot .quat) (demo2 1 (.rot .quat)) = .rot (⟨3/5, 0, 0, 4/5⟩ : Quat).toMatrix from
    congrArg Obj.rot (rotDen_quat_unit demo_quat)] at h

theorem demo2_mat : Means dblEps demo2 (.leaf 2 0 (.rot .mat)) (.rot (⟨3/5, 0, 0, 4/5⟩ : Quat).toMatrix) := by
  have h2 : demo2 2 (.rot .mat) = (⟨3/5, 0, 0, 4/5⟩ : Quat).toMatrix := by simp [demo2]
  have h : Means dblEps demo2 (.leaf 2 0 (.rot .mat)) (obj _ (demo2 2 (.rot .mat))) :=
    .leaf _ _ _ (by rw [h2]; exact Quat.toMatrix_isRotation demo_quat)
  rwa [h2] at h

example := c23_value_representation_independent dblEps_pos demo2_same
  (.rotate demo2_quat (.leaf 1 0 (.vec .trans) trivial))

/-- Two derivations of the meaning of one expression. -/
example := c01_meaning_unique dblEps_pos (.rotate (demo_means (.rot .aa)) (demo_means (.vec .trans)))
  (.rotate (.leaf 1 0 (.rot .aa) (demo_valid 1 _)) (.leaf 1 0 (.vec .trans) trivial))

/-- A product of rotations converted to angle-axis. -/
example := c01_eval_to dblEps_pos (.mulRot (demo_means (.rot .mat)) (demo_means (.rot .quat))) (.rot .aa)
  ⟨_, rfl⟩

example := c35_proxy_value dblEps_pos 7 rfl (.rotate (demo_means (.rot .aa)) (demo_means (.vec .trans)))

end WG
