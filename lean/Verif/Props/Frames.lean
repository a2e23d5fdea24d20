import Verif.Lemmas.FrameMeans
import Verif.Lemmas.FrameJac
import Verif.Lemmas.FrameExact
import Verif.Props.Differentiation
import Verif.Props.Evaluation

/-!
# Frame labels (C28 – C32)
-/

namespace WG
open Matrix Spec

variable {ε : ℝ}

/-! ## C28 -/

/-- **C28 (partial).** In every arrangement of frames: if every leaf holds the quantity its labels
name, the value of an accepted expression is the quantity its resulting labels name.  Missing:
nodes excluded by `Careful` (exponential, logarithm, box operations and scalings of framed operands,
`T * v` for `v` not measured from the origin of its frame, `translation()` of a rotation between two
frames, casts to other frames); the theorems `c28_scaling`, `c28_exp_log`, `c28_log_minus_conflict`,
`c28_translation_of_rotation` and `c30_other_origin` show the claim false there. -/
theorem c28_partial (hε : 0 < ε) (P : Arrangement) (s : Memory) (e : FExpr) {x : Tree ε} {f : Labels}
    {o : Obj} (hb : e.build ε = some (x, f)) (hm : Means ε s e.erase o) (hl : e.LeavesNamed P s)
    (hc : Careful ε e) : Names P f o :=
  names_main hε e hb hm hl hc

/-- A memory for the examples. -/
noncomputable def frameMem (R : M3) (t v : V3) : Memory := fun _ τ => match τ with
  | .vec .scalar => fun _ => 2
  | .vec .trans => v
  | .vec .relrot => v
  | .vec .twist => Sum.elim v v
  | .point => v
  | .rot .mat => R
  | .rot .quat => ⟨1, 0, 0, 0⟩
  | .rot .aa => ⟨0, ![1, 0, 0]⟩
  | .rigid .mat => mk4 R t
  | .rigid .compact => ⟨⟨1, 0, 0, 0⟩, t⟩

/-- Labels with all frames named. -/
abbrev lab3 (a b c : ℕ) : Labels := .three (some a) (some b) (some c)
/-- Labels with both frames named. -/
abbrev lab2 (a b : ℕ) : Labels := .two (some a) (some b)

/-- **C28 fails for scalings:** the labels of a vector are kept when it is scaled. -/
theorem c28_scaling :
    let e : FExpr := .leaf 0 (.vec .scalar) (bare (.vec .scalar)) * .leaf 1 (.vec .trans) (lab3 0 0 1)
    ∃ (P : Arrangement) (s : Memory) (x : Tree ε) (f : Labels) (o : Obj), e.build ε = some (x, f) ∧
      Means ε s e.erase o ∧ e.LeavesNamed P s ∧ ¬ Names P f o := by
  refine ⟨lineArr (fun _ => false) (fun n => n), frameMem 1 0 ![1, 0, 0], _, _, _, rfl,
    .mulScalarVec (.leaf _ _ (.vec .scalar) trivial) (.leaf _ _ (.vec .trans) trivial), ⟨trivial, ?_⟩, ?_⟩
  · change ![1, 0, 0] = (lineArr (fun _ => false) (fun n => n)).vector 0 0 1
    funext i
    fin_cases i <;> simp [lineArr, arr, Arrangement.vector, Arrangement.express, Arrangement.origin, half]
  · intro h
    have h : ((2 : ℝ) • ![1, 0, 0] : V3) = (lineArr (fun _ => false) (fun n => n)).vector 0 0 1 := h
    have := congrFun h 0
    simp [lineArr, arr, Arrangement.vector, Arrangement.express, Arrangement.origin, half] at this

/-- Frame 1 turned by `rodr φ` against the others (helper for the witnesses). -/
noncomputable def turned (φ : V3) (h : φ ≠ 0) : Arrangement :=
  arr (fun n => if n = 1 then rodr φ else 1) (fun n => by
    split_ifs
    exacts [rodr_isRotation h, isRotation_one]) 0

theorem unit_ne : (![1, 0, 0] : V3) ≠ 0 := fun h => by simpa using congrFun h 0

theorem turned_rotation {φ : V3} (h : φ ≠ 0) : (turned φ h).rotation 0 1 = rodr φ := by
  simp [turned, arr, Arrangement.rotation]

theorem unit_small : sqLen (![1, 0, 0] : V3) < Real.pi ^ 2 := by
  have := Real.two_le_pi
  have h : sqLen (![1, 0, 0] : V3) = 1 := by simp [sqLen, dotProduct, Fin.sum_univ_three]
  rw [h]
  nlinarith

/-- **C28 and `translation()` of a rotation.** The translation of a rotation `R_ab`, of any class, is
accepted, is labelled as the vector from `a` to `b` expressed in `a`, and is zero: its labels are right
exactly if the two frames have the same origin. -/
theorem c28_translation_of_rotation (P : Arrangement) (s : Memory) (k : RotK) (i a b : ℕ)
    (hv : Valid (.rot k) (s i (.rot k))) :
    let e : FExpr := .un .translation (.leaf i (.rot k) (lab2 a b))
    ∃ x : Tree ε, e.build ε = some (x, lab3 a a b) ∧ Means ε s e.erase (.vec .trans 0) ∧
      (Names P (lab3 a a b) (.vec .trans 0) ↔ P.origin a = P.origin b) := by
  refine ⟨_, rfl, .translationRot (.leaf _ _ _ hv), ?_⟩
  change (0 : V3) = P.vector a a b ↔ _
  rw [eq_comm, vector_eq_zero]

/-- **C28 fails for `translation()` of a rotation:** frames 0 and 1 of the witness have different
origins. -/
theorem c28_translation_of_rotation_false :
    let e : FExpr := .un .translation (.leaf 0 (.rot .mat) (lab2 0 1))
    ∃ (P : Arrangement) (s : Memory) (x : Tree ε) (f : Labels) (o : Obj), e.build ε = some (x, f) ∧
      Means ε s e.erase o ∧ e.LeavesNamed P s ∧ ¬ Names P f o := by
  obtain ⟨x, h1, h2, h3⟩ := c28_translation_of_rotation (ε := ε)
    (lineArr (fun _ => false) (fun n => n)) (frameMem 1 0 0) .mat 0 0 1 isRotation_one
  refine ⟨lineArr (fun _ => false) (fun n => n), _, x, _, _, h1, h2, ?_, fun h => ?_⟩
  · change (1 : M3) = (lineArr (fun _ => false) fun n => n).rotation 0 1
    simp [lineArr, arr, Arrangement.rotation, half]
  · have := congrFun (h3.mp h) 0
    simp [lineArr, arr, Arrangement.origin] at this

/-- **C28 fails for `exp(log R)`:** the result is labelled as a rotation between identical frames. -/
theorem c28_exp_log (h1 : ε < 1) :
    let e : FExpr := .un .exp (.un .log (.leaf 0 (.rot .mat) (lab2 0 1)))
    ∃ (P : Arrangement) (s : Memory) (x : Tree ε) (f : Labels) (o : Obj), e.build ε = some (x, f) ∧
      Means ε s e.erase o ∧ e.LeavesNamed P s ∧ f = lab2 0 0 ∧ ¬ Names P f o := by
  have hφ : Means ε (frameMem (rodr ![1, 0, 0]) 0 0) (.leaf 0 0 (.rot .mat))
      (.rot (NormedSpace.exp (hat ![1, 0, 0]))) := by
    rw [← rodr_eq_exp unit_ne]
    exact .leaf _ _ (.rot .mat) (rodr_isRotation unit_ne)
  refine ⟨turned _ unit_ne, frameMem (rodr ![1, 0, 0]) 0 0, _, _, _, rfl,
    .expRot (.logRot hφ unit_small (.inr ?_)) (.inr ?_), ?_, rfl, ?_⟩
  · simpa [sqLen, dotProduct, Fin.sum_univ_three] using h1
  · simpa [sqLen, dotProduct, Fin.sum_univ_three] using h1
  · exact (turned_rotation unit_ne).symm
  · intro h
    have h : NormedSpace.exp (hat ![1, 0, 0]) = (turned _ unit_ne).rotation 0 0 := h
    rw [rotation_self] at h
    have h2 := logMat_exp (ε := 1 / 2) (by norm_num) (φ := ![1, 0, 0]) unit_small
      (.inr (by simp [sqLen, dotProduct, Fin.sum_univ_three]; norm_num))
    have h3 := logMat_exp (ε := 1 / 2) (by norm_num) (φ := 0)
      (by have := Real.two_le_pi; simp [sqLen]; nlinarith) (.inl rfl)
    have h4 : hat 0 = 0 := by
      ext i j; simp [hat, cross_apply]
    rw [h, show (1 : M3) = NormedSpace.exp (hat 0) by rw [h4, NormedSpace.exp_zero], h3] at h2
    exact unit_ne (Option.some.inj h2).symm

/-- **C28, no reading of the labels of relative rotations helps:** `log(X)` and `X - X` carry the same
labels but have different values, whatever quantity those labels are taken to name. -/
theorem c28_log_minus_conflict (h1 : ε < 1) :
    let X : FExpr := .leaf 0 (.rot .mat) (lab2 0 1)
    ∃ (P : Arrangement) (s : Memory) (x y : Tree ε) (f : Labels) (o o' : Obj),
      X.LeavesNamed P s ∧ (FExpr.un .log X).build ε = some (x, f) ∧ (X - X).build ε = some (y, f) ∧
      Means ε s (FExpr.un .log X).erase o ∧ Means ε s (X - X).erase o' ∧ o ≠ o' := by
  have hl : Means ε (frameMem (rodr ![1, 0, 0]) 0 0) (.leaf 0 0 (.rot .mat))
      (.rot (rodr ![1, 0, 0])) := .leaf _ _ (.rot .mat) (rodr_isRotation unit_ne)
  have hφ : Means ε (frameMem (rodr ![1, 0, 0]) 0 0) (.leaf 0 0 (.rot .mat))
      (.rot (NormedSpace.exp (hat ![1, 0, 0]))) := rodr_eq_exp unit_ne ▸ hl
  have h4 : hat 0 = 0 := by
    ext i j; simp [hat, cross_apply]
  refine ⟨turned _ unit_ne, frameMem (rodr ![1, 0, 0]) 0 0, _, _, _, _, _,
    (turned_rotation unit_ne).symm, rfl, rfl, .logRot hφ unit_small (.inr ?_),
    .boxMinusRot hl hl (φ := 0) ?_ ?_ (.inl rfl), ?_⟩
  · simpa [sqLen, dotProduct, Fin.sum_univ_three] using h1
  · rw [h4, NormedSpace.exp_zero, one_mul]
  · have := Real.two_le_pi; simp [sqLen]; nlinarith
  · intro h
    exact unit_ne (eq_of_heq (Obj.vec.inj h).2)

/-- A non-trivial case of `c28_partial`: `T_01 * p_112 + v_023` with frame 1 half-turned. -/
example : let e : FExpr := .leaf 0 (.rigid .mat) (lab2 0 1) * .leaf 1 (.vec .trans) (lab3 1 1 2) -
      .leaf 2 (.vec .trans) (lab3 0 1 2)
    ∃ (P : Arrangement) (s : Memory) (x : Tree dblEps) (o : Obj),
      e.build dblEps = some (x, lab3 0 0 1) ∧ Means dblEps s e.erase o ∧ e.LeavesNamed P s ∧
      Careful dblEps e ∧ P.vector 0 0 1 ≠ 0 := by
  let P := lineArr (fun n => n = 1) (fun n => n)
  let s : Memory := fun a τ => match τ with
    | .vec .trans => if a = 1 then ![-1, 0, 0] else ![1, 0, 0]
    | τ => frameMem (half true) ![1, 0, 0] 0 a τ
  refine ⟨P, s, _, _, rfl, .subVec (.act (.leaf _ _ (.rigid .mat) (valid_mk4 _ (half_rotation true)))
    (.leaf _ _ (.vec .trans) trivial)) (.leaf _ _ (.vec .trans) trivial), ⟨⟨?_, ?_⟩, ?_⟩,
    ⟨⟨trivial, trivial, ?_⟩, trivial, ?_⟩, ?_⟩
  · change rigidDen .mat (mk4 (half true) ![1, 0, 0]) = P.motion 0 1
    refine Rigid.ext' ?_ ?_
    · ext i j
      fin_cases i <;> fin_cases j <;>
        simp [P, s, frameMem, lineArr, arr, Arrangement.motion, Arrangement.rotation, half, mk4] <;> rfl
    · funext i
      fin_cases i <;> simp [P, s, frameMem, lineArr, arr, Arrangement.motion, Arrangement.vector,
        Arrangement.express, Arrangement.origin, half, mk4] <;> rfl
  · change ![-1, 0, 0] = P.vector 1 1 2
    funext i
    fin_cases i <;> simp [P, lineArr, arr, Arrangement.vector, Arrangement.express, Arrangement.origin,
      half, mulVec, dotProduct, Fin.sum_univ_three]
    norm_num
  · change ![1, 0, 0] = P.vector 0 1 2
    funext i
    fin_cases i <;> simp [P, lineArr, arr, Arrangement.vector, Arrangement.express, Arrangement.origin,
      half]
    norm_num
  · intro x f y g h h'
    cases h; cases h'
    exact .inr rfl
  · intro x f y g h h'
    cases h
    exact trivial
  · intro h
    have := congrFun h 0
    simp [P, lineArr, arr, Arrangement.vector, Arrangement.express, Arrangement.origin, half] at this

/-! ## C29 -/

section C29
variable {l r : FExpr} {k : VK} {p q : Expr (geoLib ε) (.vec k)}

theorem elab_sum (p q : Expr (geoLib ε) (.vec k)) : ∃ w : Expr (geoLib ε) (.vec k),
    elabBin .add (⟨.vec k, p⟩ : Tree ε) ⟨.vec k, q⟩ = some ⟨.vec k, w⟩ := by
  cases k <;> exact ⟨_, rfl⟩

theorem elab_sub (p q : Expr (geoLib ε) (.vec k)) : ∃ w : Expr (geoLib ε) (.vec k),
    elabBin .sub (⟨.vec k, p⟩ : Tree ε) ⟨.vec k, q⟩ = some ⟨.vec k, w⟩ := by
  cases k <;> exact ⟨_, rfl⟩

theorem build_bin {op : BOp} {x y z : Tree ε} {f g : Labels} (hl : l.build ε = some (x, f))
    (hr : r.build ε = some (y, g)) (hz : elabBin op x y = some z) :
    (FExpr.bin op l r).build ε = (labelBin op x.1 y.1 f g z.1).map fun h => (z, h) := by
  change (l.build ε).bind _ = _
  rw [hl]
  change (r.build ε).bind _ = _
  rw [hr]
  change (elabBin op x y).bind _ = _
  rw [hz]
  rfl

/-- **C29, sums, all labels (with or without frames).** The sum of two vectors of one class is
accepted exactly when both are expressed in the same frame and the end of one is the start of the
other. -/
theorem c29_sum_labels {f g : Labels} (hl : l.build ε = some (⟨.vec k, p⟩, f))
    (hr : r.build ε = some (⟨.vec k, q⟩, g)) :
    ((l + r).build ε).isSome ↔ f.left = g.left ∧ (f.right = g.middle ∨ f.middle = g.right) := by
  obtain ⟨w, hw⟩ := elab_sum p q
  rw [show (l + r).build ε = _ from build_bin hl hr hw]
  change ((sumLabels (.vec k) f g).map _).isSome ↔ _
  rw [Option.isSome_map]
  unfold sumLabels
  split_ifs with h1 h2
  · exact ⟨fun _ => ⟨h1.1, .inl h2⟩, fun _ => rfl⟩
  · exact ⟨fun _ => ⟨h1.1, h1.2.symm⟩, fun _ => rfl⟩
  · exact ⟨fun h => (by cases h), fun h => absurd ⟨h.1, h.2.symm⟩ h1⟩

/-- **C29, differences, all labels.** -/
theorem c29_difference_labels {f g : Labels} (hl : l.build ε = some (⟨.vec k, p⟩, f))
    (hr : r.build ε = some (⟨.vec k, q⟩, g)) :
    ((l - r).build ε).isSome ↔ f.left = g.left ∧ (f.right = g.right ∨ f.middle = g.middle) := by
  obtain ⟨w, hw⟩ := elab_sub p q
  rw [show (l - r).build ε = _ from build_bin hl hr hw]
  change ((subLabels (.vec k) f g).map _).isSome ↔ _
  rw [Option.isSome_map]
  unfold subLabels
  split_ifs with h1 h2
  · exact ⟨fun _ => ⟨h1.1, .inl h2⟩, fun _ => rfl⟩
  · exact ⟨fun _ => h1, fun _ => rfl⟩
  · exact ⟨fun h => (by cases h), fun h => absurd h h1⟩

/-- **C29, sums, meaning.** For vectors between distinct frames the sum is accepted exactly when some
labels name it in all arrangements: nothing meaningful is rejected, nothing meaningless accepted. -/
theorem c29_sum (hk : k ≠ .scalar) {a b c a' d e : ℕ} (hbc : b ≠ c) (hde : d ≠ e)
    (hl : l.build ε = some (⟨.vec k, p⟩, lab3 a b c))
    (hr : r.build ε = some (⟨.vec k, q⟩, lab3 a' d e)) :
    ((l + r).build ε).isSome ↔ ∃ i j n, ∀ (P : Arrangement) (x y : k.Idx → ℝ),
      Names P (lab3 a b c) (.vec k x) → Names P (lab3 a' d e) (.vec k y) →
        Names P (lab3 i j n) (.vec k (x + y)) := by
  rw [c29_sum_labels hl hr]
  constructor
  · rintro ⟨h1, h2⟩
    cases h1
    rcases h2 with h2 | h2 <;> cases h2
    · refine ⟨a, b, e, fun P x y hx hy => ?_⟩
      refine names_sum hx hy ?_
      simp [sumLabels, Labels.left, Labels.middle, Labels.right, wrap3, Ty.three]
    · refine ⟨a, d, c, fun P x y hx hy => ?_⟩
      rw [add_comm]
      refine names_sum hy hx ?_
      simp [sumLabels, Labels.left, Labels.middle, Labels.right, wrap3, Ty.three]
  · rintro ⟨i, j, n, H⟩
    have := sum_exact (a := a) (a' := a') (i := i) (j := j) (n := n) hbc hde fun s o => by
      have h := H (lineArr s o) _ _ (names_vec_mk (isNamed_namedVec ..)) (names_vec_mk (isNamed_namedVec ..))
      rcases names_vec h with h | ⟨_, _, _, h, h'⟩
      · cases h
      · cases h
        have := congrArg (first k) (isNamed_eq hk h')
        rwa [first_add, first_line hk, first_line hk, first_line hk] at this
    obtain ⟨rfl, h⟩ := this
    exact ⟨rfl, h.imp (congrArg some) (congrArg some)⟩

/-- **C29, differences, meaning.** -/
theorem c29_difference (hk : k ≠ .scalar) {a b c a' d e : ℕ} (hbc : b ≠ c) (hde : d ≠ e)
    (hl : l.build ε = some (⟨.vec k, p⟩, lab3 a b c))
    (hr : r.build ε = some (⟨.vec k, q⟩, lab3 a' d e)) :
    ((l - r).build ε).isSome ↔ ∃ i j n, ∀ (P : Arrangement) (x y : k.Idx → ℝ),
      Names P (lab3 a b c) (.vec k x) → Names P (lab3 a' d e) (.vec k y) →
        Names P (lab3 i j n) (.vec k (x - y)) := by
  rw [c29_difference_labels hl hr]
  constructor
  · rintro ⟨h1, h2⟩
    cases h1
    rcases h2 with h2 | h2 <;> cases h2
    · refine ⟨a, b, d, fun P x y hx hy => ?_⟩
      refine names_sub hx hy ?_
      simp [subLabels, Labels.left, Labels.middle, Labels.right, wrap3, Ty.three]
    · by_cases hce : c = e
      · subst hce
        refine ⟨a, b, b, fun P x y hx hy => names_sub hx hy ?_⟩
        simp [subLabels, Labels.left, Labels.middle, Labels.right, wrap3, Ty.three]
      refine ⟨a, e, c, fun P x y hx hy => names_sub hx hy ?_⟩
      simp [subLabels, Labels.left, Labels.middle, Labels.right, wrap3, Ty.three, hce]
  · rintro ⟨i, j, n, H⟩
    have := sum_exact (a := a) (a' := a') (i := i) (j := j) (n := n) hbc hde.symm fun s o => by
      have h := H (lineArr s o) _ _ (names_vec_mk (isNamed_namedVec ..)) (names_vec_mk (isNamed_namedVec ..))
      rcases names_vec h with h | ⟨_, _, _, h, h'⟩
      · cases h
      · cases h
        have := congrArg (first k) (isNamed_eq hk h')
        rw [sub_eq_add_neg, first_add, first_neg, first_line hk, first_line hk, first_line hk] at this
        rw [← this]; ring
    obtain ⟨rfl, h⟩ := this
    exact ⟨rfl, h.imp (congrArg some) (congrArg some)⟩

end C29

section C29b
variable {l r : FExpr}

theorem elab_mul_rot {k k' : RotK} (p : Expr (geoLib ε) (.rot k)) (q : Expr (geoLib ε) (.rot k')) :
    ∃ (m : RotK) (w : Expr (geoLib ε) (.rot m)),
      elabBin .mul (⟨.rot k, p⟩ : Tree ε) ⟨.rot k', q⟩ = some ⟨.rot m, w⟩ := by
  cases k <;> cases k' <;> exact ⟨_, _, rfl⟩

theorem elab_mul_rigid {k k' : RigK} (p : Expr (geoLib ε) (.rigid k)) (q : Expr (geoLib ε) (.rigid k')) :
    ∃ (m : RigK) (w : Expr (geoLib ε) (.rigid m)),
      elabBin .mul (⟨.rigid k, p⟩ : Tree ε) ⟨.rigid k', q⟩ = some ⟨.rigid m, w⟩ := by
  cases k <;> cases k' <;> exact ⟨_, _, rfl⟩

theorem elab_rotate {k : RotK} (p : Expr (geoLib ε) (.rot k)) (q : Expr (geoLib ε) (.vec .trans)) :
    ∃ w : Expr (geoLib ε) (.vec .trans),
      elabBin .mul (⟨.rot k, p⟩ : Tree ε) ⟨.vec .trans, q⟩ = some ⟨.vec .trans, w⟩ := by
  cases k <;> exact ⟨_, rfl⟩

theorem elab_act {k : RigK} (p : Expr (geoLib ε) (.rigid k)) (q : Expr (geoLib ε) (.vec .trans)) :
    ∃ w : Expr (geoLib ε) (.vec .trans),
      elabBin .mul (⟨.rigid k, p⟩ : Tree ε) ⟨.vec .trans, q⟩ = some ⟨.vec .trans, w⟩ := by
  cases k <;> exact ⟨_, rfl⟩

/-- **C29, Compose, all labels.** The product of two rotations or of two rigid transforms, of any
classes, is accepted exactly when the inner frames match, and gets the outer frames. -/
theorem c29_compose_labels {α β : Ty} (hαβ : (∃ k k', α = .rot k ∧ β = .rot k') ∨
      ∃ k k', α = .rigid k ∧ β = .rigid k') {p : Expr (geoLib ε) α} {q : Expr (geoLib ε) β}
    {f g : Labels} (hl : l.build ε = some (⟨α, p⟩, f)) (hr : r.build ε = some (⟨β, q⟩, g)) :
    (((l * r).build ε).isSome ↔ f.right = g.left) ∧
      ∀ x h, (l * r).build ε = some (x, h) → h = .two f.left g.right := by
  obtain ⟨z, hz, h2, hb⟩ : ∃ z : Tree ε, elabBin .mul (⟨α, p⟩ : Tree ε) ⟨β, q⟩ = some z ∧
      z.1.three = false ∧ labelBin .mul α β f g z.1 = composeLabels z.1 f g := by
    rcases hαβ with ⟨k, k', rfl, rfl⟩ | ⟨k, k', rfl, rfl⟩
    · obtain ⟨m, w, hw⟩ := elab_mul_rot p q
      exact ⟨_, hw, rfl, rfl⟩
    · obtain ⟨m, w, hw⟩ := elab_mul_rigid p q
      exact ⟨_, hw, rfl, rfl⟩
  rw [show (l * r).build ε = _ from build_bin hl hr hz]
  change ((Option.map _ (labelBin .mul α β f g z.1)).isSome ↔ _) ∧ ∀ x h,
    Option.map _ (labelBin .mul α β f g z.1) = _ → _
  rw [hb, Option.isSome_map]
  unfold composeLabels wrap2
  rw [h2]
  simp only [Bool.false_eq_true, if_false]
  split_ifs with h1
  · exact ⟨⟨fun _ => h1, fun _ => rfl⟩, fun x h hh => by cases hh; rfl⟩
  · exact ⟨⟨fun h => (by cases h), fun h => absurd h h1⟩, fun x h hh => by cases hh⟩

/-- **C29, Rotate, all labels.** -/
theorem c29_rotate_labels {k : RotK} {p : Expr (geoLib ε) (.rot k)} {q : Expr (geoLib ε) (.vec .trans)}
    {f g : Labels} (hl : l.build ε = some (⟨.rot k, p⟩, f))
    (hr : r.build ε = some (⟨.vec .trans, q⟩, g)) :
    (((l * r).build ε).isSome ↔ f.right = g.left) ∧
      ∀ x h, (l * r).build ε = some (x, h) → h = .three f.left g.middle g.right := by
  obtain ⟨w, hw⟩ := elab_rotate p q
  rw [show (l * r).build ε = _ from build_bin hl hr hw]
  change ((Option.map _ (rotateLabels (.vec .trans) f g)).isSome ↔ _) ∧ ∀ x h,
    Option.map _ (rotateLabels (.vec .trans) f g) = _ → _
  rw [Option.isSome_map]
  unfold rotateLabels wrap3
  split_ifs with h1 h2
  · exact ⟨⟨fun _ => h1, fun _ => rfl⟩, fun x h hh => by cases hh; rfl⟩
  · exact absurd rfl h2
  · exact absurd rfl h2
  · exact ⟨⟨fun h => (by cases h), fun h => absurd h h1⟩, fun x h hh => by cases hh⟩

/-- **C29, Transform, all labels.** -/
theorem c29_transform_labels {k : RigK} {p : Expr (geoLib ε) (.rigid k)}
    {q : Expr (geoLib ε) (.vec .trans)} {f g : Labels} (hl : l.build ε = some (⟨.rigid k, p⟩, f))
    (hr : r.build ε = some (⟨.vec .trans, q⟩, g)) :
    (((l * r).build ε).isSome ↔ f.right = g.left) ∧
      ∀ x h, (l * r).build ε = some (x, h) → h = .three f.left f.left g.right := by
  obtain ⟨w, hw⟩ := elab_act p q
  rw [show (l * r).build ε = _ from build_bin hl hr hw]
  change ((Option.map _ (transformLabels (.vec .trans) f g)).isSome ↔ _) ∧ ∀ x h,
    Option.map _ (transformLabels (.vec .trans) f g) = _ → _
  rw [Option.isSome_map]
  unfold transformLabels wrap3
  split_ifs with h1 h2
  · exact ⟨⟨fun _ => h1, fun _ => rfl⟩, fun x h hh => by cases hh; rfl⟩
  · exact absurd rfl h2
  · exact absurd rfl h2
  · exact ⟨⟨fun h => (by cases h), fun h => absurd h h1⟩, fun x h hh => by cases hh⟩

/-- **C29, Compose, meaning.** For rotations between distinct frames the product is accepted exactly
when some labels name it in all arrangements. -/
theorem c29_compose_rotations {k k' : RotK} {p : Expr (geoLib ε) (.rot k)}
    {q : Expr (geoLib ε) (.rot k')} {a b c d : ℕ} (hab : a ≠ b) (hcd : c ≠ d)
    (hl : l.build ε = some (⟨.rot k, p⟩, lab2 a b)) (hr : r.build ε = some (⟨.rot k', q⟩, lab2 c d)) :
    ((l * r).build ε).isSome ↔ ∃ i j, ∀ (P : Arrangement) (R S : M3), Names P (lab2 a b) (.rot R) →
      Names P (lab2 c d) (.rot S) → Names P (lab2 i j) (.rot (R * S)) := by
  rw [(c29_compose_labels (.inl ⟨k, k', rfl, rfl⟩) hl hr).1]
  constructor
  · intro h
    cases h
    refine ⟨a, d, fun P R S hR hS => ?_⟩
    cases hR; cases hS
    exact rotation_comp ..
  · rintro ⟨i, j, H⟩
    refine congrArg some (compose_exact (i := i) (j := j) hab hcd fun R hR => ?_)
    exact H (arr R hR 0) _ _ rfl rfl

/-- **C29, Compose, meaning, rigid transforms.** -/
theorem c29_compose_motions {k k' : RigK} {p : Expr (geoLib ε) (.rigid k)}
    {q : Expr (geoLib ε) (.rigid k')} {a b c d : ℕ} (hab : a ≠ b) (hcd : c ≠ d)
    (hl : l.build ε = some (⟨.rigid k, p⟩, lab2 a b))
    (hr : r.build ε = some (⟨.rigid k', q⟩, lab2 c d)) :
    ((l * r).build ε).isSome ↔ ∃ i j, ∀ (P : Arrangement) (T S : Rigid),
      Names P (lab2 a b) (.motion T) → Names P (lab2 c d) (.motion S) →
        Names P (lab2 i j) (.motion (T.comp S)) := by
  rw [(c29_compose_labels (.inr ⟨k, k', rfl, rfl⟩) hl hr).1]
  constructor
  · intro h
    cases h
    refine ⟨a, d, fun P T S hT hS => ?_⟩
    cases hT; cases hS
    exact motion_comp ..
  · rintro ⟨i, j, H⟩
    refine congrArg some (compose_exact (i := i) (j := j) hab hcd fun R hR => ?_)
    have := H (arr R hR 0) _ _ rfl rfl
    exact congrArg Rigid.R (show Rigid.comp _ _ = Arrangement.motion _ i j from this)

/-- **C29, Rotate, meaning.** -/
theorem c29_rotate {k : RotK} {p : Expr (geoLib ε) (.rot k)} {q : Expr (geoLib ε) (.vec .trans)}
    {a b c d e : ℕ} (hab : a ≠ b) (hde : d ≠ e) (hl : l.build ε = some (⟨.rot k, p⟩, lab2 a b))
    (hr : r.build ε = some (⟨.vec .trans, q⟩, lab3 c d e)) :
    ((l * r).build ε).isSome ↔ ∃ i j n, ∀ (P : Arrangement) (R : M3) (v : V3),
      Names P (lab2 a b) (.rot R) → Names P (lab3 c d e) (.vec .trans v) →
        Names P (lab3 i j n) (.vec .trans (R *ᵥ v)) := by
  rw [(c29_rotate_labels hl hr).1]
  constructor
  · intro h
    cases h
    refine ⟨a, d, e, fun P R v hR hv => ?_⟩
    cases hR; cases hv
    exact rotation_vector ..
  · rintro ⟨i, j, n, H⟩
    refine congrArg some (rotate_exact (i := i) (j := j) (n := n) hab hde fun R o hR => ?_)
    exact H (arr R hR o) _ _ rfl rfl

/-- **C29, Transform, meaning.** A rejected product of a transform between distinct frames and a
vector between distinct frames has no labels naming it. -/
theorem c29_transform {k : RigK} {p : Expr (geoLib ε) (.rigid k)} {q : Expr (geoLib ε) (.vec .trans)}
    {a b c d e : ℕ} (hab : a ≠ b) (hde : d ≠ e) (hl : l.build ε = some (⟨.rigid k, p⟩, lab2 a b))
    (hr : r.build ε = some (⟨.vec .trans, q⟩, lab3 c d e))
    (H : ∃ i j n, ∀ (P : Arrangement) (T : Rigid) (v : V3), Names P (lab2 a b) (.motion T) →
      Names P (lab3 c d e) (.vec .trans v) → Names P (lab3 i j n) (.vec .trans (T.act v))) :
    ((l * r).build ε).isSome := by
  rw [(c29_transform_labels hl hr).1]
  obtain ⟨i, j, n, H⟩ := H
  refine congrArg some (transform_exact (i := i) (j := j) (n := n) hab hde fun R o hR => ?_)
  exact H (arr R hR o) _ _ rfl rfl

end C29b

/-- Non-trivial cases for C29: accepted and rejected sums, products, differences of framed leaves. -/
example : (((FExpr.leaf 0 (.vec .trans) (lab3 0 1 2)) + .leaf 1 (.vec .trans) (lab3 0 2 3)).build ε).isSome ∧
    ¬ (((FExpr.leaf 0 (.vec .trans) (lab3 0 1 2)) + .leaf 1 (.vec .trans) (lab3 0 1 3)).build ε).isSome ∧
    ¬ (((FExpr.leaf 0 (.vec .twist) (lab3 0 1 2)) + .leaf 1 (.vec .twist) (lab3 4 2 3)).build ε).isSome := by
  refine ⟨(c29_sum_labels (f := lab3 0 1 2) (g := lab3 0 2 3) rfl rfl).mpr ⟨rfl, .inl rfl⟩,
    fun h => ?_, fun h => ?_⟩
  · exact ((c29_sum_labels (f := lab3 0 1 2) (g := lab3 0 1 3) rfl rfl).mp h).2.elim
      (fun h => by cases h) fun h => by cases h
  · cases ((c29_sum_labels (f := lab3 0 1 2) (g := lab3 4 2 3) rfl rfl).mp h).1

example : ¬ (((FExpr.leaf 0 (.rot .quat) (lab2 0 1)) * .leaf 1 (.rot .aa) (lab2 0 1)).build ε).isSome ∧
    (((FExpr.leaf 0 (.rot .quat) (lab2 0 1)) * .leaf 1 (.rot .aa) (lab2 1 2)).build ε).isSome ∧
    ¬ (((FExpr.leaf 0 (.rot .quat) (lab2 0 1)) * .leaf 1 (.vec .trans) (lab3 0 1 2)).build ε).isSome ∧
    ¬ (((FExpr.leaf 0 (.rigid .mat) (lab2 0 1)) * .leaf 1 (.vec .trans) (lab3 0 1 2)).build ε).isSome := by
  refine ⟨fun h => ?_, (c29_compose_labels (.inl ⟨.quat, .aa, rfl, rfl⟩) rfl rfl).1.mpr rfl,
    fun h => ?_, fun h => ?_⟩
  · cases (c29_compose_labels (.inl ⟨.quat, .aa, rfl, rfl⟩) rfl rfl).1.mp h
  · cases (c29_rotate_labels rfl rfl).1.mp h
  · cases (c29_transform_labels rfl rfl).1.mp h

/-! ## C30 -/

/-- **C30 (partial).** `T_AB * r` is accepted only for `r` expressed in `B`; for `r` also measured
from the origin of `B` the result is labelled as, and is, the position of the same point from `A` in
`A`.  Missing: vectors measured from another origin are accepted as well (`c30_other_origin`). -/
theorem c30_partial {l r : FExpr} {k : RigK} {p : Expr (geoLib ε) (.rigid k)}
    {q : Expr (geoLib ε) (.vec .trans)} {a b c d e : ℕ} (hl : l.build ε = some (⟨.rigid k, p⟩, lab2 a b))
    (hr : r.build ε = some (⟨.vec .trans, q⟩, lab3 c d e)) :
    (((l * r).build ε).isSome → c = b) ∧
      (c = b → d = b → ∃ x, (l * r).build ε = some (x, lab3 a a e) ∧
        ∀ (P : Arrangement) (T : Rigid) (v : V3), Names P (lab2 a b) (.motion T) →
          Names P (lab3 c d e) (.vec .trans v) → T.act v = P.vector a a e) := by
  obtain ⟨h1, h2⟩ := c29_transform_labels hl hr
  refine ⟨fun h => (Option.some.inj (h1.mp h)).symm, ?_⟩
  rintro rfl rfl
  obtain ⟨⟨x, h⟩, hx⟩ := Option.isSome_iff_exists.mp (h1.mpr rfl)
  refine ⟨x, hx.trans (by rw [h2 _ _ hx]; rfl), fun P T v hT hv => ?_⟩
  cases hT; cases hv
  exact motion_act ..

/-- **C30 fails:** `T_AB * r_BDE` is accepted whatever `D` is and labelled as the position of `E` from
`A`; that is right in all arrangements only if `D` is `B`. -/
theorem c30_other_origin {l r : FExpr} {k : RigK} {p : Expr (geoLib ε) (.rigid k)}
    {q : Expr (geoLib ε) (.vec .trans)} {a b d e : ℕ} (hl : l.build ε = some (⟨.rigid k, p⟩, lab2 a b))
    (hr : r.build ε = some (⟨.vec .trans, q⟩, lab3 b d e)) :
    (∃ x, (l * r).build ε = some (x, lab3 a a e)) ∧
      ((∀ (P : Arrangement) (T : Rigid) (v : V3), Names P (lab2 a b) (.motion T) →
        Names P (lab3 b d e) (.vec .trans v) → Names P (lab3 a a e) (.vec .trans (T.act v))) ↔ d = b) := by
  obtain ⟨h1, h2⟩ := c29_transform_labels hl hr
  obtain ⟨⟨x, h⟩, hx⟩ := Option.isSome_iff_exists.mp (h1.mpr rfl)
  refine ⟨⟨x, hx.trans (by rw [h2 _ _ hx]; rfl)⟩, fun H => ?_, ?_⟩
  · by_contra hdb
    obtain ⟨o, ho⟩ : ∃ o : ℕ → ℝ, o = fun n => if n = b then 1 else 0 := ⟨_, rfl⟩
    have hv : ∀ i j n, (lineArr (fun _ => false) o).vector i j n 0 = sgn false * (o n - o j) :=
      fun i j n => express_line (fun _ => false) o i j n
    have h4 : (lineArr (fun _ => false) o).rotation a b *ᵥ (lineArr (fun _ => false) o).vector b d e +
        (lineArr (fun _ => false) o).vector a a b = (lineArr (fun _ => false) o).vector a a e :=
      H (lineArr (fun _ => false) o) _ _ rfl rfl
    rw [rotation_vector] at h4
    have h5 := congrFun h4 0
    rw [Pi.add_apply, hv, hv, hv] at h5
    have hb : o b = 1 := by rw [ho]; exact if_pos rfl
    have hd : o d = 0 := by rw [ho]; exact if_neg hdb
    simp only [sgn, Bool.false_eq_true, if_false] at h5
    linarith
  · rintro rfl P T v hT hv
    cases hT; cases hv
    exact motion_act ..

/-- Non-trivial case: frames 0, 1 and points 2, 3. -/
example : ∃ x, (((FExpr.leaf 0 (.rigid .compact) (lab2 0 1)) * .leaf 1 (.vec .trans) (lab3 1 2 3)).build
    ε) = some (x, lab3 0 0 3) := (c30_other_origin rfl rfl).1

/-! ## C31 -/

/-- **C31, values.** Two accepted expressions that differ only in frame labels and casts have the same
class and the same value in every memory. -/
theorem c31_values {e e' : FExpr} (h : e.erase = e'.erase) {x x' : Tree ε} {f f' : Labels}
    (hb : e.build ε = some (x, f)) (hb' : e'.build ε = some (x', f')) (s : Memory) :
    (x.2.eval (L := geoLib ε) s).map (fun v => (⟨x.1, v⟩ : (τ : Ty) × τ.Val)) =
      (x'.2.eval (L := geoLib ε) s).map fun v => ⟨x'.1, v⟩ := by
  have key : ∀ {e : FExpr} {x : Tree ε} {f : Labels}, e.build ε = some (x, f) →
      (x.2.eval (L := geoLib ε) s).map (fun v => (⟨x.1, v⟩ : (τ : Ty) × τ.Val)) =
        (e.erase.elab ε).bind fun y => (y.2.eval (L := geoLib ε) s).map fun v => ⟨y.1, v⟩ := by
    intro e x f hb
    rw [build_erase e hb]
    change _ = (((forgetT x).2).eval (L := geoLib ε) s).map _
    have : Expr.eval (L := geoLib ε) s (forgetT x).2 = Expr.eval (L := geoLib ε) s x.2 :=
      (mk_val (L := geoLib ε) s _).trans ((value_forget s x.2).trans (mk_val (L := geoLib ε) s _).symm)
    rw [this]
    rfl
  rw [key hb, key hb', h]

/-- **C31, values: an unframed expression has the value of the framed one.** -/
theorem c31_unframed_value {e : FExpr} {x : Tree ε} {f : Labels} (hb : e.build ε = some (x, f))
    (s : Memory) : e.erase.value ε s = (x.2.eval (L := geoLib ε) s).map fun v => ⟨x.1, v⟩ := by
  unfold SExpr.value
  rw [build_erase e hb]
  change (((forgetT x).2).eval (L := geoLib ε) s).map _ = _
  have : Expr.eval (L := geoLib ε) s (forgetT x).2 = Expr.eval (L := geoLib ε) s x.2 :=
    (mk_val (L := geoLib ε) s _).trans ((value_forget s x.2).trans (mk_val (L := geoLib ε) s _).symm)
  rw [this]
  rfl

/-- The hypotheses under which the static evaluators give the sum over occurrences (C20). -/
def StaticOk {τ : Ty} (t : Target (geoLib ε)) (e : Expr (geoLib ε) τ) : Prop :=
  e.noProxy ∨ e.fwdCompiles t ∧ Distinguished t e

/-- An object has the same labels everywhere in the expression. -/
def SameType {τ : Ty} (t : Target (geoLib ε)) (e : Expr (geoLib ε) τ) : Prop :=
  ∀ o ∈ objects e, o.addr = t.addr → o.ty = t.ty → o.cls = t.cls

/-- **C31, Jacobians (static evaluators).** Whatever evaluator `jacobian(x)` chooses for the labels at
hand, the Jacobian by an object of class `τ` at address `a` is the same. -/
theorem c31_jacobians {e e' : FExpr} (h : e.erase = e'.erase) {x x' : Tree ε} {f f' : Labels}
    (hb : e.build ε = some (x, f)) (hb' : e'.build ε = some (x', f')) (s : Memory) (a c c' : ℕ) (τ : Ty)
    (ht : (⟨a, c, τ⟩ : Target (geoLib ε)) ∈ objects x.2)
    (ht' : (⟨a, c', τ⟩ : Target (geoLib ε)) ∈ objects x'.2)
    (hs : SameType ⟨a, c, τ⟩ x.2) (hs' : SameType ⟨a, c', τ⟩ x'.2)
    (hc : StaticOk ⟨a, c, τ⟩ x.2) (hc' : StaticOk ⟨a, c', τ⟩ x'.2) :
    (⟨x.1, x.2.jacobianAuto (L := geoLib ε) s ⟨a, c, τ⟩⟩ : (σ : Ty) × OMat σ.Idx τ.Idx) =
      ⟨x'.1, x'.2.jacobianAuto (L := geoLib ε) s ⟨a, c', τ⟩⟩ := by
  have key : ∀ {x : Tree ε} {c : ℕ}, (⟨a, c, τ⟩ : Target (geoLib ε)) ∈ objects x.2 →
      SameType ⟨a, c, τ⟩ x.2 → StaticOk ⟨a, c, τ⟩ x.2 →
      (⟨x.1, x.2.jacobianAuto (L := geoLib ε) s ⟨a, c, τ⟩⟩ : (σ : Ty) × OMat σ.Idx τ.Idx) =
        ⟨(forgetT x).1, total (occurrences (L := geoLib ε) s ⟨a, 0, τ⟩ (forgetT x).2)⟩ := by
    intro x c ht hs hc
    refine Sigma.ext rfl (heq_of_eq ?_)
    change _ = total (occurrences (L := geoLib ε) s ⟨a, 0, τ⟩ (forget x.2))
    rw [occ_forget s a c τ x.2 hs]
    exact c20_auto (L := geoLib ε) s ⟨a, c, τ⟩ x.2 ht hc
  have hx : forgetT x = forgetT x' :=
    Option.some.inj ((build_erase e hb).symm.trans ((congrArg (SExpr.elab ε) h).trans (build_erase e' hb')))
  rw [key ht hs hc, key ht' hs' hc', hx]

/-- **C31, Jacobians (dynamic evaluators).** The dynamic evaluator finds objects by address only; it
gives the same Jacobian with and without labels, occurring or not. -/
theorem c31_dynamic_jacobians {e e' : FExpr} (h : e.erase = e'.erase) {x x' : Tree ε} {f f' : Labels}
    (hb : e.build ε = some (x, f)) (hb' : e'.build ε = some (x', f')) (s : Memory) (a c c' : ℕ) (τ : Ty)
    (hd : Distinguished ⟨a, c, τ⟩ x.2) (hd' : Distinguished ⟨a, c', τ⟩ x'.2) :
    (⟨x.1, x.2.dynJacobian (L := geoLib ε) s a τ⟩ : (σ : Ty) × OMat σ.Idx τ.Idx) =
      ⟨x'.1, x'.2.dynJacobian (L := geoLib ε) s a τ⟩ := by
  have key : ∀ {x : Tree ε} {c : ℕ}, Distinguished ⟨a, c, τ⟩ x.2 →
      (⟨x.1, x.2.dynJacobian (L := geoLib ε) s a τ⟩ : (σ : Ty) × OMat σ.Idx τ.Idx) =
        ⟨(forgetT x).1, total (occurrences (L := geoLib ε) s ⟨a, 0, τ⟩ (forgetT x).2)⟩ := by
    intro x c hd
    refine Sigma.ext rfl (heq_of_eq ?_)
    change _ = total (occurrences (L := geoLib ε) s ⟨a, 0, τ⟩ (forget x.2))
    rw [occ_forget s a c τ x.2 fun o ho h1 _ => congrArg Target.cls (hd.1 o ho h1)]
    exact (c21_dynamic_forward (L := geoLib ε) s ⟨a, c, τ⟩ x.2 hd).1
  have hx : forgetT x = forgetT x' :=
    Option.some.inj ((build_erase e hb).symm.trans ((congrArg (SExpr.elab ε) h).trans (build_erase e' hb')))
  rw [key hd, key hd', hx]

/-- Non-trivial case: framed leaves with a cast against bare leaves. -/
example : let e : FExpr := .cast (lab3 5 6 7) (.leaf 1 (.rot .quat) (lab2 0 1) *
      .leaf 2 (.vec .trans) (lab3 1 2 3))
    let e' : FExpr := .leaf 1 (.rot .quat) (bare (.rot .quat)) * .leaf 2 (.vec .trans) (bare (.vec .trans))
    e.erase = e'.erase ∧ ∃ x f x' f', e.build ε = some (x, f) ∧ e'.build ε = some (x', f') ∧ f ≠ f' ∧
      (⟨2, (lab3 1 2 3).code, Ty.vec .trans⟩ : Target (geoLib ε)) ∈ objects x.2 ∧
      SameType ⟨2, (lab3 1 2 3).code, Ty.vec .trans⟩ x.2 ∧
      StaticOk ⟨2, (lab3 1 2 3).code, Ty.vec .trans⟩ x.2 ∧
      Distinguished (L := geoLib ε) ⟨2, (lab3 1 2 3).code, Ty.vec .trans⟩ x.2 := by
  refine ⟨rfl, _, _, _, _, rfl, rfl, fun h => (by cases h), .tail _ (.head _), ?_, .inl rfl, ?_, ?_⟩
  · intro o ho h1 h2
    rcases List.mem_cons.mp ho with rfl | ho
    · cases h1
    · rw [List.mem_singleton.mp ho]
  · intro o ho h1
    rcases List.mem_cons.mp ho with rfl | ho
    · cases h1
    · exact List.mem_singleton.mp ho
  · intro h
    change 2 ∈ [0, 0] at h
    simp at h

/-! ## C32 -/

/-- The rotation and rigid transform classes. -/
def IsTransform (τ : Ty) : Prop := (∃ k, τ = .rot k) ∨ ∃ k, τ = .rigid k

/-- The classes of one group. -/
def SameGroup (α β : Ty) : Prop :=
  (∃ k k', α = .rot k ∧ β = .rot k') ∨ ∃ k k', α = .rigid k ∧ β = .rigid k'

theorem fits_two {τ : Ty} {f : Labels} (h : f.fits τ) (hτ : τ.three = false) :
    ∃ l r, f = .two l r := by
  rcases f with ⟨l, r⟩ | ⟨l, m, r⟩
  · exact ⟨l, r, rfl⟩
  · rw [Labels.fits, hτ] at h; cases h

theorem elab_minus {α β : Ty} (h : SameGroup α β) (p : Expr (geoLib ε) α) (q : Expr (geoLib ε) β) :
    ∃ z : Tree ε, elabBin .sub (⟨α, p⟩ : Tree ε) ⟨β, q⟩ = some z ∧ z.1.three = true ∧
      ∀ f g, labelBin .sub α β f g z.1 = boxMinusLabels z.1 α f g := by
  rcases h with ⟨k, k', rfl, rfl⟩ | ⟨k, k', rfl, rfl⟩
  · cases k <;> cases k' <;> exact ⟨_, rfl, rfl, fun _ _ => rfl⟩
  · cases k <;> cases k' <;> exact ⟨_, rfl, rfl, fun _ _ => rfl⟩

theorem boxMinus_two {τ α : Ty} (h3 : τ.three = true) (hα : α.three = false) (a b c d : Frame) :
    boxMinusLabels τ α (.two a b) (.two c d) =
      if Labels.two a b = .two c d then some (.three a a b) else none := by
  by_cases h : a = c ∧ b = d
  · obtain ⟨rfl, rfl⟩ := h
    simp [boxMinusLabels, inverseLabels, composeLabels, logLabels, wrap2, wrap3, hα, h3, Labels.left,
      Labels.right]
  · have h' : ¬ Labels.two a b = .two c d := fun hh => h ⟨(Labels.two.inj hh).1, (Labels.two.inj hh).2⟩
    rw [if_neg h']
    exact if_neg h

/-- **C32.** `X - Y` is accepted exactly for equal labels, and carries `(A, A, B)`. -/
theorem c32_minus {X Y : FExpr} {α β : Ty} (hg : SameGroup α β) {p : Expr (geoLib ε) α}
    {q : Expr (geoLib ε) β} {a b c d : Frame} (hX : X.build ε = some (⟨α, p⟩, .two a b))
    (hY : Y.build ε = some (⟨β, q⟩, .two c d)) :
    (((X - Y).build ε).isSome ↔ Labels.two a b = .two c d) ∧
      ∀ z h, (X - Y).build ε = some (z, h) → h = .three a a b := by
  obtain ⟨z, hz, h3, hl⟩ := elab_minus hg p q
  have hα : α.three = false := by rcases hg with ⟨k, k', rfl, rfl⟩ | ⟨k, k', rfl, rfl⟩ <;> rfl
  rw [show (X - Y).build ε = _ from build_bin hX hY hz]
  change ((Option.map _ (labelBin .sub α β (.two a b) (.two c d) z.1)).isSome ↔ _) ∧ ∀ x h,
    Option.map _ (labelBin .sub α β (.two a b) (.two c d) z.1) = _ → _
  rw [hl, Option.isSome_map]
  rw [boxMinus_two h3 hα]
  by_cases h1 : Labels.two a b = .two c d
  · rw [if_pos h1]
    exact ⟨⟨fun _ => h1, fun _ => rfl⟩, fun x h hh => by cases hh; rfl⟩
  · rw [if_neg h1]
    exact ⟨⟨fun h => (by cases h), fun h => absurd h h1⟩, fun x h hh => by cases hh⟩

/-- **C32.** `X + v` is accepted exactly when the increment is expressed in the left frame of `X` and
goes from that frame to the right frame of `X`; it carries the labels of `X`. -/
theorem c32_plus {X V : FExpr} {α β : Ty}
    (hg : (∃ k, α = .rot k ∧ β = .vec .relrot) ∨ ∃ k, α = .rigid k ∧ β = .vec .twist)
    {p : Expr (geoLib ε) α} {q : Expr (geoLib ε) β} {a b c d e : Frame}
    (hX : X.build ε = some (⟨α, p⟩, .two a b)) (hV : V.build ε = some (⟨β, q⟩, .three c d e)) :
    (((X + V).build ε).isSome ↔ Labels.three c d e = .three a a b) ∧
      ∀ z h, (X + V).build ε = some (z, h) → h = .two a b := by
  obtain ⟨w, hw, hw3, hwl⟩ : ∃ w : Tree ε, elabBin .add (⟨α, p⟩ : Tree ε) ⟨β, q⟩ = some w ∧
      w.1.three = false ∧ ∀ f g, labelBin .add α β f g w.1 = boxPlusLabels w.1 f g := by
    rcases hg with ⟨k, rfl, rfl⟩ | ⟨k, rfl, rfl⟩ <;> cases k <;> exact ⟨_, rfl, rfl, fun _ _ => rfl⟩
  rw [show (X + V).build ε = _ from build_bin hX hV hw]
  change ((Option.map _ (labelBin .add α β (.two a b) (.three c d e) w.1)).isSome ↔ _) ∧ ∀ x h,
    Option.map _ (labelBin .add α β (.two a b) (.three c d e) w.1) = _ → _
  rw [hwl, Option.isSome_map]
  have key : boxPlusLabels w.1 (.two a b) (.three c d e) =
      if Labels.three c d e = .three a a b then some (.two a b) else none := by
    by_cases h : Labels.three c d e = .three a a b
    · obtain ⟨rfl, rfl, rfl⟩ := Labels.three.inj h
      simp [boxPlusLabels, expLabels, wrap2, hw3, Labels.left, Labels.middle, Labels.right]
    · rw [if_neg h]
      refine if_neg fun h' => h ?_
      obtain ⟨h1, h2, h3⟩ := h'
      obtain rfl : a = c := h1
      obtain rfl : a = d := h2
      obtain rfl : b = e := h3
      rfl
  rw [key]
  split_ifs with h1
  · exact ⟨⟨fun _ => h1, fun _ => rfl⟩, fun x h hh => by cases hh; rfl⟩
  · exact ⟨⟨fun h => (by cases h), fun h => absurd h h1⟩, fun x h hh => by cases hh⟩

/-- An increment through another middle frame is rejected, the matching one accepted. -/
example (ε : ℝ) : (((FExpr.leaf 0 (.rot .quat) (.two (some 0) (some 1))) +
      (FExpr.leaf 1 (.vec .relrot) (.three (some 0) (some 2) (some 1)))).build ε).isSome = false ∧
    (((FExpr.leaf 0 (.rot .quat) (.two (some 0) (some 1))) +
      (FExpr.leaf 1 (.vec .relrot) (.three (some 0) (some 0) (some 1)))).build ε).isSome = true := by
  constructor
  · rw [Bool.eq_false_iff, ne_eq, (c32_plus (.inl ⟨_, rfl, rfl⟩) rfl rfl).1]; simp
  · rw [(c32_plus (.inl ⟨_, rfl, rfl⟩) rfl rfl).1]

/-- **C32.** If `X - Y` is accepted, `Y + (X - Y)` is accepted and carries the labels of `X`. -/
theorem c32_plus_minus {X Y : FExpr} {α β : Ty} (hg : SameGroup α β) {p : Expr (geoLib ε) α}
    {q : Expr (geoLib ε) β} {a b c d : Frame} (hX : X.build ε = some (⟨α, p⟩, .two a b))
    (hY : Y.build ε = some (⟨β, q⟩, .two c d)) (h : ((X - Y).build ε).isSome) :
    ∃ w, (Y + (X - Y)).build ε = some (w, .two a b) := by
  obtain ⟨h1, h2⟩ := c32_minus hg hX hY
  cases h1.mp h
  obtain ⟨⟨z, f⟩, hz⟩ := Option.isSome_iff_exists.mp h
  have hf := h2 _ _ hz
  subst hf
  obtain ⟨z', hz', h3, hl⟩ := elab_minus hg p q
  have hzz : z = z' := by
    have := (build_bin (op := .sub) hX hY hz').symm.trans hz
    obtain ⟨g, -, hg⟩ := Option.map_eq_some_iff.mp this
    exact (congrArg Prod.fst hg).symm
  subst hzz
  obtain ⟨w, hw, hw3, hwl⟩ : ∃ w : Tree ε, elabBin .add (⟨β, q⟩ : Tree ε) z = some w ∧
      w.1.three = false ∧ ∀ f g, labelBin .add β z.1 f g w.1 = boxPlusLabels w.1 f g := by
    rcases hg with ⟨k, k', rfl, rfl⟩ | ⟨k, k', rfl, rfl⟩ <;> cases k <;> cases k' <;> cases hz' <;>
      exact ⟨_, rfl, rfl, fun _ _ => rfl⟩
  refine ⟨w, (build_bin (op := .add) hY hz hw).trans ?_⟩
  change Option.map _ (labelBin .add β z.1 _ _ w.1) = _
  rw [hwl]
  simp [boxPlusLabels, expLabels, wrap2, hw3, Labels.left, Labels.middle, Labels.right]

/-- Labels of `exp(log(X))`: `(A, A)` for `X` labelled `(A, B)`. -/
theorem c32_exp_log_labels {X : FExpr} {α : Ty} (ht : IsTransform α) {p : Expr (geoLib ε) α}
    {a b : Frame} (hX : X.build ε = some (⟨α, p⟩, .two a b)) :
    ∃ w, (FExpr.un .exp (.un .log X)).build ε = some (w, .two a a) := by
  have key : ∀ z w : Tree ε, elabUn .log (⟨α, p⟩ : Tree ε) = some z → z.1.three = true →
      elabUn .exp z = some w → w.1.three = false →
      (FExpr.un .exp (.un .log X)).build ε = some (w, .two a a) := by
    intro z w hz h3 hw h2
    change ((X.build ε).bind fun x => _).bind _ = _
    rw [hX]
    change ((elabUn .log (⟨α, p⟩ : Tree ε)).bind fun y => _).bind _ = _
    rw [hz]
    simp only [labelUn, logLabels, expLabels, wrap3, wrap2, h3, h2, hw, if_true, if_false,
      Option.bind_some, Option.map_some, Labels.left, Bool.false_eq_true]
  rcases ht with ⟨k, rfl⟩ | ⟨k, rfl⟩ <;> cases k <;> exact ⟨_, key _ _ rfl rfl rfl rfl⟩

/-- **C32 (partial).** All three claims, the last for `X` between identical frames or unframed.
Missing: `exp(log(X))` carries the labels of `X` for no other `X` (`c32_exp_log_fails`). -/
theorem c32_partial {X Y : FExpr} {α β : Ty} (hg : SameGroup α β) {p : Expr (geoLib ε) α}
    {q : Expr (geoLib ε) β} {a b c d : Frame} (hX : X.build ε = some (⟨α, p⟩, .two a b))
    (hY : Y.build ε = some (⟨β, q⟩, .two c d)) :
    (((X - Y).build ε).isSome ↔ Labels.two a b = .two c d) ∧
      (((X - Y).build ε).isSome → ∃ w, (Y + (X - Y)).build ε = some (w, .two a b)) ∧
      ((∃ w, (FExpr.un .exp (.un .log X)).build ε = some (w, .two a b)) ↔ a = b) := by
  refine ⟨(c32_minus hg hX hY).1, c32_plus_minus hg hX hY, ?_⟩
  have ht : IsTransform α := hg.imp (fun ⟨k, _, h, _⟩ => ⟨k, h⟩) fun ⟨k, _, h, _⟩ => ⟨k, h⟩
  obtain ⟨w, hw⟩ := c32_exp_log_labels ht hX
  constructor
  · rintro ⟨w', hw'⟩
    rw [hw] at hw'
    exact (Labels.two.inj (congrArg Prod.snd (Option.some.inj hw'))).2
  · rintro rfl
    exact ⟨w, hw⟩

/-- **C32 fails:** `exp(log(X))` does not carry the labels of `X` labelled `(A, B)` with `A ≠ B`. -/
theorem c32_exp_log_fails {X : FExpr} {α : Ty} (ht : IsTransform α) {p : Expr (geoLib ε) α}
    {a b : Frame} (hX : X.build ε = some (⟨α, p⟩, .two a b)) (hab : a ≠ b) :
    ∃ w f, (FExpr.un .exp (.un .log X)).build ε = some (w, f) ∧ f ≠ .two a b := by
  obtain ⟨w, hw⟩ := c32_exp_log_labels ht hX
  exact ⟨w, _, hw, fun h => hab (Labels.two.inj h).2⟩

/-- Non-trivial case. -/
example : ∃ w, ((FExpr.leaf 1 (.rot .aa) (lab2 0 1)) + (.leaf 0 (.rot .quat) (lab2 0 1) -
    .leaf 1 (.rot .aa) (lab2 0 1))).build ε = some (w, lab2 0 1) :=
  c32_plus_minus (α := .rot .quat) (β := .rot .aa) (.inl ⟨_, _, rfl, rfl⟩) rfl rfl
    ((c32_minus (.inl ⟨_, _, rfl, rfl⟩) rfl rfl).1.mpr rfl)

/-- Each theorem at concrete framed leaves. -/
example := c29_difference_labels (ε := ε) (l := .leaf 0 (.vec .trans) (lab3 0 1 3))
  (r := .leaf 1 (.vec .trans) (lab3 0 1 2)) rfl rfl

example := c29_sum (ε := ε) (k := .trans) (by decide) (by decide) (by decide)
  (l := .leaf 0 (.vec .trans) (lab3 0 1 2)) (r := .leaf 1 (.vec .trans) (lab3 0 2 3)) rfl rfl

example := c29_difference (ε := ε) (k := .trans) (by decide) (by decide) (by decide)
  (l := .leaf 0 (.vec .trans) (lab3 0 1 3)) (r := .leaf 1 (.vec .trans) (lab3 0 1 2)) rfl rfl

example := c29_compose_rotations (ε := ε) (l := .leaf 0 (.rot .quat) (lab2 0 1))
  (r := .leaf 1 (.rot .aa) (lab2 1 2)) (by decide) (by decide) rfl rfl

example := c29_compose_motions (ε := ε) (l := .leaf 0 (.rigid .mat) (lab2 0 1))
  (r := .leaf 1 (.rigid .compact) (lab2 1 2)) (by decide) (by decide) rfl rfl

example := c29_rotate (ε := ε) (l := .leaf 0 (.rot .quat) (lab2 0 1))
  (r := .leaf 1 (.vec .trans) (lab3 1 2 3)) (by decide) (by decide) rfl rfl

example := c30_partial (ε := ε) (l := .leaf 0 (.rigid .compact) (lab2 0 1))
  (r := .leaf 1 (.vec .trans) (lab3 1 1 2)) rfl rfl

example (s : Memory) := c31_values (ε := ε) (e := .cast (lab2 5 6) (.leaf 1 (.rot .quat) (lab2 0 1)))
  (e' := .leaf 1 (.rot .quat) (lab2 2 3)) rfl rfl rfl s

example := c32_partial (ε := ε) (X := .leaf 1 (.rot .aa) (lab2 0 1)) (Y := .leaf 0 (.rot .quat) (lab2 0 1))
  (.inl ⟨_, _, rfl, rfl⟩) rfl rfl

example := c32_exp_log_labels (ε := ε) (X := .leaf 1 (.rigid .mat) (lab2 0 1)) (.inr ⟨_, rfl⟩) rfl

example := c32_exp_log_fails (ε := ε) (X := .leaf 1 (.rigid .mat) (lab2 0 1)) (.inr ⟨_, rfl⟩) rfl (by decide)

end WG
