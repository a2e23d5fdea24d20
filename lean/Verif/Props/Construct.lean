import Verif.Spec.Construct
import Verif.Lemmas.Meaning

/-!
# C70: leaves constructed from Eigen objects
-/

namespace WG
open Matrix Spec

/-! ## Delegation -/

theorem constructLeaf_mono {τ : LCls} {n : ℕ} : ∀ {args : List EArg} {o : Made τ.ty.Val},
    constructLeaf τ n args = some o → constructLeaf τ (n + 1) args = some o := by
  induction n with
  | zero => intro args o h; simp [constructLeaf] at h
  | succ n ih =>
    intro args o h
    rw [constructLeaf] at h ⊢
    cases hc : choose τ args with
    | none => rw [hc] at h; exact h
    | many => rw [hc] at h; exact h
    | one c =>
      rw [hc] at h
      simp only at h ⊢
      cases hb : c.body τ args with
      | done o' => rw [hb] at h; exact h
      | delegate args' => rw [hb] at h; exact ih h

theorem constructLeaf_le {τ : LCls} {n m : ℕ} (hnm : n ≤ m) {args : List EArg} {o : Made τ.ty.Val}
    (h : constructLeaf τ n args = some o) : constructLeaf τ m args = some o := by
  induction m, hnm using Nat.le_induction with
  | base => exact h
  | succ m _ ih => exact constructLeaf_mono ih

theorem Builds.unique {τ : LCls} {args : List EArg} {o o' : Made τ.ty.Val} (h : Builds τ args o)
    (h' : Builds τ args o') : o = o' := by
  obtain ⟨n, h⟩ := h
  obtain ⟨m, h'⟩ := h'
  have a := constructLeaf_le (le_max_left n m) h
  have b := constructLeaf_le (le_max_right n m) h'
  rw [a] at b
  exact Option.some.inj b

theorem Endless.not {τ : LCls} {args : List EArg} (h : Endless τ args) (o : Made τ.ty.Val) :
    ¬ Builds τ args o := fun ⟨n, hn⟩ => by rw [h n] at hn; simp at hn

theorem builds_done {τ : LCls} {args : List EArg} {c : Ctor} {o : Made τ.ty.Val}
    (hc : choose τ args = .one c) (hb : c.body τ args = .done o) : Builds τ args o :=
  ⟨1, by simp [constructLeaf, hc, hb]⟩

theorem builds_none {τ : LCls} {args : List EArg} (hc : choose τ args = .none) :
    Builds τ args .noMatch := ⟨1, by simp [constructLeaf, hc]⟩

theorem builds_delegate {τ : LCls} {args args' : List EArg} {c : Ctor} {o : Made τ.ty.Val}
    (hc : choose τ args = .one c) (hb : c.body τ args = .delegate args')
    (h : Builds τ args' o) : Builds τ args o := by
  obtain ⟨n, h⟩ := h
  exact ⟨n + 1, by simp [constructLeaf, hc, hb, h]⟩

/-! ## Overload resolution, class by class -/

/-- Unfolds overload resolution. -/
macro "resolve" "[" l:Lean.Parser.Tactic.simpLemma,* "]" : tactic =>
  `(tactic| simp [choose, viable, LCls.ctors, ranks, Ctor.params, Param.rank, Ctor.requires,
    Ctor.requires1, constructible, Ctor.better, Ctor.moreSpecial, List.filter, $l,*] <;> rfl)

theorem ranks_length : ∀ {ps : List Param} {as : List EArg}, ps.length ≠ as.length →
    ranks ps as = none
  | [], [], h => absurd rfl h
  | [], _ :: _, _ => rfl
  | _ :: _, [], _ => rfl
  | p :: ps, a :: as, h => by
    have := ranks_length (ps := ps) (as := as) (by simpa using h)
    simp [ranks, this]

theorem choose_none {τ : LCls} {args : List EArg} (h : ∀ c ∈ τ.ctors, ranks c.params args = none) :
    choose τ args = .none := by
  have : viable τ args = [] := by
    unfold viable
    rw [List.filter_eq_nil_iff]
    intro c hc
    rw [h c hc]; simp
  unfold choose
  rw [this]

theorem choose_rot_mat (k : RotK) (s : Through) (A : MatObj) (h : A.rows = 3 ∧ A.cols = 3) :
    choose (.rot k) [.mat s A] = .one .ofMat := by
  cases s <;> resolve [h]

theorem choose_rot_mat_bad (k : RotK) (s : Through) (A : MatObj) (h : ¬ (A.rows = 3 ∧ A.cols = 3)) :
    choose (.rot k) [.mat s A] = .none := by
  cases s <;> resolve [h]

theorem choose_rot_rot (k : RotK) (s : Through) (r : RotObj) :
    choose (.rot k) [.rot s r] = .one .ofRot := by
  cases s <;> resolve []

theorem choose_compact_mat (s u : Through) (A B : MatObj) (h : A.rows = 3 ∧ A.cols = 3) :
    choose (.rigid .compact) [.mat s A, .mat u B] =
      .one (if s = .base ∧ u = .base then .ofMatMat else .inherited) := by
  cases s <;> cases u <;> resolve [h]

theorem choose_compact_mat_bad (s u : Through) (A B : MatObj) (h : ¬ (A.rows = 3 ∧ A.cols = 3)) :
    choose (.rigid .compact) [.mat s A, .mat u B] = .one .ofMatMat := by
  cases s <;> cases u <;> resolve [h]

theorem choose_compact_rot (s u : Through) (r : RotObj) (B : MatObj) :
    choose (.rigid .compact) [.rot s r, .mat u B] =
      .one (if s = .base ∧ u = .base then .ofRotMat else .inherited) := by
  cases s <;> cases u <;> resolve []

theorem choose_matrix_mat (s u : Through) (A B : MatObj) :
    choose (.rigid .mat) [.mat s A, .mat u B] = .one .ofMatMat := by
  cases s <;> cases u <;> resolve []

theorem choose_matrix_rot (s u : Through) (r : RotObj) (B : MatObj) :
    choose (.rigid .mat) [.rot s r, .mat u B] = .one .ofRotMat := by
  cases s <;> cases u <;> resolve []

/-! ## The comma initialiser -/

theorem commaInit_single (R C : ℕ) (hC : C ≠ 0) (A : MatObj) : commaInit R C [A] =
    if A.rows = R ∧ A.cols = C then some (putBlock 0 0 A fun _ _ => none) else none := by
  unfold commaInit commaStart
  by_cases h : A.rows = R ∧ A.cols = C
  · obtain ⟨rfl, rfl⟩ := h
    simp
  · by_cases h' : A.rows ≤ R ∧ A.cols ≤ C
    · simp [h', h, hC]
    · simp [h', h]

theorem comma_columns (A B : MatObj) (hA : A.rows = 3 ∧ A.cols = 1) (hB : B.rows = 3 ∧ B.cols = 1) :
    commaInit 6 1 [A, B] = some (putBlock 3 0 B (putBlock 0 0 A fun _ _ => none)) := by
  simp [commaInit, commaStart, commaNext, hA, hB]

theorem comma_row_left (A B : MatObj) (hA : A.cols = 3) : commaInit 6 1 [A, B] = none := by
  simp [commaInit, commaStart, hA]

theorem comma_row_right (A B : MatObj) (hA : A.rows = 3 ∧ A.cols = 1) (hB : B.cols = 3) :
    commaInit 6 1 [A, B] = none := by
  simp [commaInit, commaStart, commaNext, hA, hB]

theorem isVector_three (A : MatObj) : A.isVector 3 ↔
    (A.rows = 3 ∧ A.cols = 1) ∨ (A.rows = 1 ∧ A.cols = 3) := by
  unfold MatObj.isVector
  constructor
  · rintro ⟨h | h, e⟩
    · right; rw [h] at e; omega
    · left; rw [h] at e; omega
  · rintro (⟨h, e⟩ | ⟨h, e⟩) <;> simp [h, e]

theorem lastRow_comma : commaInit 1 4 [MatObj.one 0, MatObj.one 0, MatObj.one 0, MatObj.one 1] =
    some (putBlock 0 3 (MatObj.one 1) (putBlock 0 2 (MatObj.one 0) (putBlock 0 1 (MatObj.one 0)
      (putBlock 0 0 (MatObj.one 0) fun _ _ => none)))) := by
  simp [commaInit, commaStart, commaNext, MatObj.one, List.foldlM]

theorem matrixRigid_column (A B : MatObj) (hA : A.rows = 3 ∧ A.cols = 3)
    (hB : B.rows = 3 ∧ B.cols = 1) :
    matrixRigidBody A B = some (mk4 A.m3 fun i => B.coeff i 0) := by
  unfold matrixRigidBody
  rw [lastRow_comma, commaInit_single 3 3 (by decide), commaInit_single 3 1 (by decide)]
  simp only [hA, hB, and_self, if_true, Option.bind_eq_bind, Option.bind_some]
  unfold readM4
  have e : ∀ i j : Fin 4, (pasteAt 0 3 3 1 (putBlock 0 0 B fun _ _ => none)
      (pasteAt 0 0 3 3 (putBlock 0 0 A fun _ _ => none) (pasteAt 3 0 1 4
        (putBlock 0 3 (MatObj.one 1) (putBlock 0 2 (MatObj.one 0) (putBlock 0 1 (MatObj.one 0)
          (putBlock 0 0 (MatObj.one 0) fun _ _ => none)))) fun _ _ => none)) i j) =
      some (mk4 A.m3 (fun i => B.coeff i 0) i j) := by
    intro i j
    fin_cases i <;> fin_cases j <;>
      simp [pasteAt, putBlock, hA, hB, MatObj.one, mk4, MatObj.m3]
  simp only [e]
  simp
  ext i j
  rfl

theorem matrixRigid_row (A B : MatObj) (hB : B.rows = 1 ∧ B.cols = 3) :
    matrixRigidBody A B = none := by
  unfold matrixRigidBody
  rw [commaInit_single 3 1 (by decide)]
  simp [hB]

/-! ## Rotations -/

theorem ofMat_spec (k : RotK) {R : M3} (hR : IsRotation R) :
    ∃ x, k.ofMat R = some x ∧ ValidRot k x ∧ rotDen k x = R := by
  cases k with
  | quat =>
    obtain ⟨q, h, hu, hm⟩ := ofMatrix_spec hR
    exact ⟨q, h, (validRot_quat q).2 hu, (rotDen_quat_unit hu).trans hm⟩
  | mat => exact ⟨R, rfl, hR, rfl⟩
  | aa =>
    obtain ⟨q, h, hu, hm⟩ := ofMatrix_spec hR
    obtain ⟨h1, h2⟩ := AngleAxis.ofQuat_spec hu
    refine ⟨AngleAxis.ofQuat q, ?_, (validRot_aa _).2 h1, (rotDen_aa h1).trans (h2.trans hm)⟩
    change (Quat.ofMatrix R).map AngleAxis.ofQuat = _
    rw [h]; rfl

theorem ofRot_quat (k : RotK) {q : Quat} (h : ValidRot .quat q) :
    ValidRot k (k.ofRot (.quat q)) ∧ rotDen k (k.ofRot (.quat q)) = rotDen .quat q := by
  have hu := (validRot_quat q).1 h
  cases k with
  | quat => exact ⟨h, rfl⟩
  | mat => exact ⟨Quat.toMatrix_isRotation hu, (rotDen_quat_unit hu).symm⟩
  | aa =>
    obtain ⟨h1, h2⟩ := AngleAxis.ofQuat_spec hu
    exact ⟨(validRot_aa _).2 h1, (rotDen_aa h1).trans (h2.trans (rotDen_quat_unit hu).symm)⟩

theorem ofRot_aa (k : RotK) {a : AngleAxis} (h : ValidRot .aa a) :
    ValidRot k (k.ofRot (.aa a)) ∧ rotDen k (k.ofRot (.aa a)) = rotDen .aa a := by
  have hu := (validRot_aa a).1 h
  cases k with
  | quat =>
    obtain ⟨h1, h2⟩ := AngleAxis.quat_spec hu
    exact ⟨(validRot_quat _).2 h1, (rotDen_quat_unit h1).trans (h2.trans (rotDen_aa hu).symm)⟩
  | mat => exact ⟨AngleAxis.toMatrix_isRotation hu, (rotDen_aa hu).symm⟩
  | aa => exact ⟨h, rfl⟩

theorem m3_eq {A : MatObj} {R : M3} (h : ∀ i j : Fin 3, A.coeff i j = R i j) : A.m3 = R := by
  ext i j; exact h i j

/-- A rotation leaf of any class, built from any Eigen rotation (quaternion, angle-axis, matrix;
by value or through a base class), is valid and represents the same rotation. -/
theorem c70_rotation (k : RotK) {a : EArg} {R : M3} (h : IsRot a R) :
    ∃ x, Builds (.rot k) [a] (.made x) ∧ Valid (.rot k) x ∧ den (.rot k) x = R := by
  match a, h with
  | .rot s (.quat q), ⟨h, e⟩ =>
    exact ⟨_, builds_done (choose_rot_rot k s _) rfl, (ofRot_quat k h).1, (ofRot_quat k h).2.trans e⟩
  | .rot s (.aa b), ⟨h, e⟩ =>
    exact ⟨_, builds_done (choose_rot_rot k s _) rfl, (ofRot_aa k h).1, (ofRot_aa k h).2.trans e⟩
  | .mat s A, ⟨h1, h2, hR, e⟩ =>
    obtain ⟨x, hx, hv, hd⟩ := ofMat_spec k hR
    refine ⟨x, builds_done (choose_rot_mat k s A ⟨h1, h2⟩) ?_, hv, hd⟩
    change CtorStep.done (Made.ofOption (k.ofMat A.m3)) = _
    rw [m3_eq e, hx]; rfl

/-! ## Vectors -/

theorem column_col {n : ℕ} {A : MatObj} (h : A.rows = n ∧ A.cols = 1) :
    A.column n = some fun i : Fin n => A.coeff i 0 := if_pos h

theorem column_row {n : ℕ} (hn : n ≠ 1) {A : MatObj} (h : A.rows = 1 ∧ A.cols = n) :
    A.column n = some fun i : Fin n => A.coeff 0 i := by
  have h' : ¬ (A.rows = n ∧ A.cols = 1) := fun h' => hn (by rw [← h'.1, h.1])
  unfold MatObj.column
  rw [if_neg h', if_pos h]

theorem column_of {n : ℕ} (hn : n ≠ 1) {s : Through} {A : MatObj} {v : Fin n → ℝ}
    (h : IsCol (.mat s A) v ∨ IsRow (.mat s A) v) : A.column n = some v := by
  rcases h with ⟨h1, h2, e⟩ | ⟨h1, h2, e⟩
  · rw [column_col ⟨h1, h2⟩]; congr 1; funext i; exact e i
  · rw [column_row hn ⟨h1, h2⟩]; congr 1; funext i; exact e i

theorem choose_vec_mat (τ : LCls) (hτ : τ = .relrot ∨ τ = .trans ∨ τ = .point ∨ τ = .twist)
    (s : Through) (A : MatObj) : choose τ [.mat s A] = .one .ofMat := by
  rcases hτ with rfl | rfl | rfl | rfl <;> cases s <;> resolve []

theorem choose_vec_xyz (τ : LCls) (hτ : τ = .relrot ∨ τ = .trans ∨ τ = .point) (x y z : ℝ) :
    choose τ [.num x, .num y, .num z] = .one .ofXYZ := by
  rcases hτ with rfl | rfl | rfl <;> resolve []

theorem choose_twist_mat (s u : Through) (A B : MatObj) :
    choose .twist [.mat s A, .mat u B] = .one .ofMatMat := by
  cases s <;> cases u <;> resolve []

theorem choose_matrix_one (s : Through) (A : MatObj) (h : A.rows = 4 ∧ A.cols = 4) :
    choose (.rigid .mat) [.mat s A] = .one .ofMat := by
  cases s <;> resolve [h]

/-- A relative rotation, translation or point built from a row or column of three numbers holds
these numbers. -/
theorem c70_vector {a : EArg} {v : V3} (h : IsCol a v ∨ IsRow a v) :
    Builds .relrot [a] (.made v) ∧ Builds .trans [a] (.made v) ∧ Builds .point [a] (.made v) := by
  match a, h with
  | .mat s A, h =>
    have e := column_of (by decide) h
    refine ⟨builds_done (choose_vec_mat _ (by simp) s A) ?_,
      builds_done (choose_vec_mat _ (by simp) s A) ?_,
      builds_done (choose_vec_mat _ (by simp) s A) ?_⟩ <;>
    · simp only [Ctor.body, vec3Body, e]

/-- So does one built from three numbers. -/
theorem c70_xyz (v : V3) :
    Builds .relrot [.num (v 0), .num (v 1), .num (v 2)] (.made v) ∧
    Builds .trans [.num (v 0), .num (v 1), .num (v 2)] (.made v) ∧
    Builds .point [.num (v 0), .num (v 1), .num (v 2)] (.made v) := by
  have e : (![v 0, v 1, v 2] : V3) = v := by ext i; fin_cases i <;> rfl
  refine ⟨builds_done (choose_vec_xyz _ (by simp) _ _ _) ?_,
    builds_done (choose_vec_xyz _ (by simp) _ _ _) ?_,
    builds_done (choose_vec_xyz _ (by simp) _ _ _) ?_⟩ <;>
  · simp only [Ctor.body, vec3Body, e]

/-- A twist built from a row or column of six numbers has the first three as its rotation part and
the last three as its translation part. -/
theorem c70_twist {a : EArg} {v : Fin 6 → ℝ} (h : IsCol a v ∨ IsRow a v) :
    Builds .twist [a] (.made (Sum.elim (fun i : Fin 3 => v (Fin.castAdd 3 i))
      fun i : Fin 3 => v (Fin.natAdd 3 i))) := by
  match a, h with
  | .mat s A, h =>
    have e := column_of (by decide) h
    refine builds_done (choose_vec_mat _ (by simp) s A) ?_
    simp only [Ctor.body, twistBody, e]
    congr 2
    funext i
    rcases i with i | i <;> fin_cases i <;> rfl

/-- A twist built from two columns of three numbers: rotation part first. -/
theorem c70_twist_columns {a b : EArg} {u v : V3} (ha : IsCol a u) (hb : IsCol b v) :
    Builds .twist [a, b] (.made (Sum.elim u v)) := by
  match a, b, ha, hb with
  | .mat s A, .mat t B, ⟨ha1, ha2, ea⟩, ⟨hb1, hb2, eb⟩ =>
    refine builds_done (choose_twist_mat s t A B) ?_
    have hv : A.isVector 3 ∧ B.isVector 3 :=
      ⟨(isVector_three A).2 (.inl ⟨ha1, ha2⟩), (isVector_three B).2 (.inl ⟨hb1, hb2⟩)⟩
    simp only [Ctor.body, twistBody]
    rw [if_pos hv, comma_columns A B ⟨ha1, ha2⟩ ⟨hb1, hb2⟩]
    have e : ∀ i, splitSix (fun i => putBlock 3 0 B (putBlock 0 0 A fun _ _ => none) i 0) i =
        some (Sum.elim u v i) := by
      intro i
      rcases i with i | i
      · have h3 : ¬ 3 ≤ (i : ℕ) := by omega
        simp [splitSix, putBlock, ha1, ha2, h3, ea i]
      · have h6 : (i : ℕ) < 3 := i.isLt
        have h7 : 3 + (i : ℕ) < 6 := by omega
        simp [splitSix, putBlock, hb1, hb2, eb i, h7]
    simp only [e]
    simp

/-! ## Rigid transforms -/

theorem mk4_spec {R : M3} (hR : IsRotation R) (t : V3) :
    ValidRigid .mat (mk4 R t) ∧ rigidDen .mat (mk4 R t) = ⟨R, t⟩ := by
  have e : rigidDen .mat (mk4 R t) = ⟨R, t⟩ := by
    simp only [rigidDen, Rigid.mk.injEq]
    constructor
    · ext i j; fin_cases i <;> fin_cases j <;> rfl
    · funext i; fin_cases i <;> rfl
  refine ⟨⟨by rw [e]; exact hR, ?_⟩, e⟩
  funext j; fin_cases j <;> rfl

theorem rotObj_matrix (r : RotObj) {s : Through} {R : M3} (h : IsRot (.rot s r) R) :
    IsRotation R ∧ r.matrix = R := by
  cases r with
  | quat q => exact ⟨h.2 ▸ rotDen_rotation h.1, (rotDen_quat_unit ((validRot_quat q).1 h.1)).symm.trans h.2⟩
  | aa a => exact ⟨h.2 ▸ rotDen_rotation h.1, (rotDen_aa ((validRot_aa a).1 h.1)).symm.trans h.2⟩

theorem matrix_columns {s u : Through} {A B : MatObj} {R : M3} {v : V3}
    (ha : IsRot (.mat s A) R) (hb : IsCol (.mat u B) v) :
    Builds (.rigid .mat) [.mat s A, .mat u B] (.made (mk4 R v)) := by
  obtain ⟨h1, h2, -, e⟩ := ha
  obtain ⟨h3, h4, e'⟩ := hb
  refine builds_done (choose_matrix_mat s u A B) ?_
  simp only [Ctor.body]
  rw [if_pos ⟨⟨h1, h2⟩, (isVector_three B).2 (.inl ⟨h3, h4⟩)⟩,
    matrixRigid_column A B ⟨h1, h2⟩ ⟨h3, h4⟩, m3_eq e]
  have : (fun i : Fin 3 => B.coeff i 0) = v := funext e'
  rw [this]

theorem ofM3_isRot {R : M3} (hR : IsRotation R) (s : Through) : IsRot (.mat s (.ofM3 R)) R :=
  ⟨rfl, rfl, hR, fun i j => by simp [MatObj.ofM3]⟩

theorem quatFrom_spec {a : EArg} {R : M3} (h : IsRot a R) :
    ∃ q, quatFrom a = .made q ∧ ValidRot .quat q ∧ rotDen .quat q = R := by
  match a, h with
  | .rot s (.quat q), ⟨h, e⟩ => exact ⟨_, rfl, (ofRot_quat .quat h).1, (ofRot_quat .quat h).2.trans e⟩
  | .rot s (.aa b), ⟨h, e⟩ => exact ⟨_, rfl, (ofRot_aa .quat h).1, (ofRot_aa .quat h).2.trans e⟩
  | .mat s A, ⟨h1, h2, hR, e⟩ =>
    obtain ⟨x, hx, hv, hd⟩ := ofMat_spec .quat hR
    refine ⟨x, ?_, hv, hd⟩
    simp only [quatFrom]
    rw [if_pos ⟨h1, h2⟩, m3_eq e, hx]; rfl

theorem compactStorage_spec {a b : EArg} {R : M3} {v : V3} (ha : IsRot a R)
    (hb : IsCol b v ∨ IsRow b v) :
    ∃ x, compactStorage a b = .made x ∧ ValidRigid .compact x ∧ rigidDen .compact x = ⟨R, v⟩ := by
  match b, hb with
  | .mat s B, hb =>
    obtain ⟨q, hq, hv, hd⟩ := quatFrom_spec ha
    refine ⟨⟨q, v⟩, ?_, hv, ?_⟩
    · simp only [compactStorage, vec3Body, column_of (by decide) hb, hq]
    · simp only [rigidDen, hd]

theorem vecArg_of {n : ℕ} {b : EArg} {v : Fin n → ℝ} (h : IsCol b v ∨ IsRow b v) : VecArg n b := by
  match b, h with
  | .mat s B, .inl h => exact .inl ⟨h.1, h.2.1⟩
  | .mat s B, .inr h => exact .inr ⟨h.1, h.2.1⟩

theorem rotArg_of {a : EArg} {R : M3} (h : IsRot a R) : RotArg a := by
  match a, h with
  | .rot s r, _ => exact .inl trivial
  | .mat s A, h => exact .inr ⟨h.1, h.2.1⟩

/-- A rigid transform of either class, built from an Eigen rotation and a vector, is valid and
represents `x ↦ R x + v`, apart from the two cases of `Circular` and `Overrun`. -/
theorem c70_rigid (k : RigK) {a b : EArg} {R : M3} {v : V3} (ha : IsRot a R)
    (hb : IsCol b v ∨ IsRow b v) (hc : ¬ Circular (.rigid k) [a, b])
    (ho : ¬ Overrun (.rigid k) [a, b]) :
    ∃ x, Builds (.rigid k) [a, b] (.made x) ∧ Valid (.rigid k) x ∧ den (.rigid k) x = (⟨R, v⟩ : Rigid) := by
  cases k with
  | mat =>
    have hb' : IsCol b v := hb.resolve_right fun h => ho ⟨rotArg_of ha, by
      match b, h with
      | .mat s B, h => exact ⟨h.1, h.2.1⟩⟩
    match a, b, ha, hb' with
    | .mat s A, .mat u B, ha, hb' =>
      have hR : IsRotation R := ha.2.2.1
      exact ⟨_, matrix_columns ha hb', (mk4_spec hR v).1, (mk4_spec hR v).2⟩
    | .rot s r, .mat u B, ha, hb' =>
      obtain ⟨hR, e⟩ := rotObj_matrix r ha
      refine ⟨_, builds_delegate (choose_matrix_rot s u r B) rfl ?_, (mk4_spec hR v).1, (mk4_spec hR v).2⟩
      rw [e]
      exact matrix_columns (ofM3_isRot hR _) hb'
  | compact =>
    match a, b, ha, hb with
    | .mat s A, .mat u B, ha, hb =>
      have hA : A.rows = 3 ∧ A.cols = 3 := ⟨ha.1, ha.2.1⟩
      by_cases h : s = .base ∧ u = .base
      · obtain ⟨q, hq, hv, hd⟩ := ofMat_spec .quat ha.2.2.1
        obtain ⟨x, hx, hv', hd'⟩ := compactStorage_spec (a := .rot .cls (.quat q)) (b := .mat .cls B)
          ⟨hv, hd⟩ hb
        refine ⟨x, builds_done (c := .ofMatMat) ?_ ?_, hv', hd'⟩
        · rw [choose_compact_mat s u A B hA, if_pos h]
        · have hB : B.isVector 3 := by
            rcases hb with hb | hb
            · exact (isVector_three B).2 (.inl ⟨hb.1, hb.2.1⟩)
            · exact (isVector_three B).2 (.inr ⟨hb.1, hb.2.1⟩)
          have hq' : Quat.ofMatrix A.m3 = some q := by rw [m3_eq ha.2.2.2]; exact hq
          simp only [Ctor.body]
          rw [if_pos ⟨hA, hB⟩, hq']
          exact congrArg CtorStep.done hx
      · obtain ⟨x, hx, hv', hd'⟩ := compactStorage_spec ha hb
        refine ⟨x, builds_done (c := .inherited) ?_ ?_, hv', hd'⟩
        · rw [choose_compact_mat s u A B hA, if_neg h]
        · simp only [Ctor.body, hx]
    | .rot s r, .mat u B, ha, hb =>
      have h : ¬ (s = .base ∧ u = .base) := fun h => hc ⟨trivial, h.1, h.2, vecArg_of hb⟩
      obtain ⟨x, hx, hv', hd'⟩ := compactStorage_spec ha hb
      refine ⟨x, builds_done (c := .inherited) ?_ ?_, hv', hd'⟩
      · rw [choose_compact_rot s u r B, if_neg h]
      · simp only [Ctor.body, hx]

/-- A matrix transform built from a 4x4 matrix holds exactly its coefficients. -/
theorem c70_homogeneous (s : Through) (A : MatObj) (h : SizeIs 4 4 (.mat s A)) :
    ∃ m : M4, Builds (.rigid .mat) [.mat s A] (.made m) ∧ ∀ i j : Fin 4, m i j = A.coeff i j :=
  ⟨_, builds_done (choose_matrix_one s A h) rfl, fun _ _ => rfl⟩

/-! ## Every outcome -/

/-- The outcomes that are possible, each with the argument lists it belongs to. -/
def Sorted (τ : LCls) (args : List EArg) : Prop :=
  (∃ x, Builds τ args (.made x) ∧ Documented τ args ∧ ¬ Circular τ args ∧ ¬ Overrun τ args) ∨
  (Endless τ args ∧ Documented τ args ∧ Circular τ args ∧ ¬ Overrun τ args) ∨
  (Builds τ args .undefined ∧ Documented τ args ∧ Overrun τ args ∧ ¬ Circular τ args) ∨
  (Builds τ args .noMatch ∧ ¬ Documented τ args ∧ ¬ Circular τ args ∧ ¬ Overrun τ args) ∨
  (Builds τ args .rejected ∧ ¬ Documented τ args ∧ ¬ Circular τ args ∧ ¬ Overrun τ args)

theorem sorted_none {τ : LCls} {args : List EArg} (hc : choose τ args = .none)
    (h : ¬ Documented τ args) (h1 : ¬ Circular τ args) (h2 : ¬ Overrun τ args) : Sorted τ args :=
  .inr (.inr (.inr (.inl ⟨builds_none hc, h, h1, h2⟩)))

theorem ofMat_total (k : RotK) (m : M3) : ∃ x, k.ofMat m = some x := by
  have h : ∃ q, Quat.ofMatrix m = some q := by
    rcases ofMatrix_cases m with h | h | h | h <;> exact ⟨_, h.2⟩
  obtain ⟨q, hq⟩ := h
  cases k with
  | quat => exact ⟨q, hq⟩
  | mat => exact ⟨m, rfl⟩
  | aa =>
    refine ⟨AngleAxis.ofQuat q, ?_⟩
    change (Quat.ofMatrix m).map AngleAxis.ofQuat = _
    rw [hq]; rfl

theorem sorted_rot (k : RotK) (args : List EArg) : Sorted (.rot k) args := by
  match args with
  | [] => exact sorted_none (by resolve []) (by simp [Documented]) (by simp [Circular]) (by simp [Overrun])
  | [.num x] =>
    exact sorted_none (by resolve []) (by simp [Documented, RotArg, IsRotObj, SizeIs]) (by simp [Circular])
      (by simp [Overrun])
  | [.rot s r] =>
    exact .inl ⟨_, builds_done (choose_rot_rot k s r) rfl, .inl trivial, by simp [Circular],
      by simp [Overrun]⟩
  | [.mat s A] =>
    by_cases h : A.rows = 3 ∧ A.cols = 3
    · obtain ⟨x, hx⟩ := ofMat_total k A.m3
      refine .inl ⟨x, builds_done (choose_rot_mat k s A h) ?_, .inr h, by simp [Circular],
        by simp [Overrun]⟩
      simp only [Ctor.body, hx]; rfl
    · exact sorted_none (choose_rot_mat_bad k s A h) (by simpa [Documented, RotArg, IsRotObj, SizeIs] using h)
        (by simp [Circular]) (by simp [Overrun])
  | a :: b :: l =>
    exact sorted_none (choose_none fun c hc => ranks_length (by
        simp only [LCls.ctors, List.mem_cons, List.not_mem_nil, or_false] at hc
        rcases hc with rfl | rfl <;> simp [Ctor.params])) (by simp [Documented]) (by simp [Circular]) (by simp [Overrun])

theorem column_none {n : ℕ} {s : Through} {A : MatObj} (h : ¬ VecArg n (.mat s A)) :
    A.column n = none := by
  unfold MatObj.column
  have h1 : ¬ (A.rows = n ∧ A.cols = 1) := fun h' => h (.inl h')
  have h2 : ¬ (A.rows = 1 ∧ A.cols = n) := fun h' => h (.inr h')
  rw [if_neg h1, if_neg h2]

theorem column_some {n : ℕ} {s : Through} {A : MatObj} (h : VecArg n (.mat s A)) :
    ∃ v, A.column n = some v := by
  unfold MatObj.column
  split_ifs with h1 h2
  · exact ⟨_, rfl⟩
  · exact ⟨_, rfl⟩
  · exact (h.elim h1 h2).elim

theorem sorted_three (τ : LCls) (hτ : τ = .relrot ∨ τ = .trans ∨ τ = .point) (args : List EArg) :
    Sorted τ args := by
  have hctors : τ.ctors = [.ofMat, .ofXYZ] := by rcases hτ with rfl | rfl | rfl <;> rfl
  have hcirc : ¬ Circular τ args := by rcases hτ with rfl | rfl | rfl <;> simp [Circular]
  have hover : ¬ Overrun τ args := by rcases hτ with rfl | rfl | rfl <;> simp [Overrun]
  have hτ' : τ = .relrot ∨ τ = .trans ∨ τ = .point ∨ τ = .twist := by tauto
  have hnone : ranks [.matBase] args = none → ranks [.scalar, .scalar, .scalar] args = none →
      choose τ args = .none := fun h1 h2 => choose_none fun c hc => by
    rw [hctors] at hc
    simp only [List.mem_cons, List.not_mem_nil, or_false] at hc
    rcases hc with rfl | rfl
    · exact h1
    · exact h2
  match args with
  | [] =>
    refine sorted_none (hnone (ranks_length (by simp)) (ranks_length (by simp))) ?_ hcirc hover
    rcases hτ with rfl | rfl | rfl <;> simp [Documented]
  | [.num x] =>
    refine sorted_none (hnone rfl (ranks_length (by simp))) ?_ hcirc hover
    rcases hτ with rfl | rfl | rfl <;> simp [Documented, VecArg, SizeIs]
  | [.rot s r] =>
    refine sorted_none (hnone rfl (ranks_length (by simp))) ?_ hcirc hover
    rcases hτ with rfl | rfl | rfl <;> simp [Documented, VecArg, SizeIs]
  | [.mat s A] =>
    by_cases h : VecArg 3 (.mat s A)
    · obtain ⟨v, hv⟩ := column_some h
      rcases hτ with rfl | rfl | rfl <;>
      exact .inl ⟨v, builds_done (choose_vec_mat _ hτ' s A) (by simp only [Ctor.body, vec3Body, hv]),
        h, hcirc, hover⟩
    · rcases hτ with rfl | rfl | rfl <;>
      exact .inr (.inr (.inr (.inr ⟨builds_done (choose_vec_mat _ hτ' s A)
        (by simp only [Ctor.body, vec3Body, column_none h]), h, hcirc, hover⟩)))
  | [a, b] =>
    refine sorted_none (hnone (ranks_length (by simp)) (ranks_length (by simp))) ?_ hcirc hover
    rcases hτ with rfl | rfl | rfl <;> simp [Documented]
  | [a, b, c] =>
    by_cases h : IsNum a ∧ IsNum b ∧ IsNum c
    · match a, b, c, h with
      | .num x, .num y, .num z, h =>
        rcases hτ with rfl | rfl | rfl <;>
        exact .inl ⟨![x, y, z], builds_done (choose_vec_xyz _ (by simp) x y z)
          (by simp only [Ctor.body, vec3Body]), h, hcirc, hover⟩
    · refine sorted_none (hnone (ranks_length (by simp)) ?_) ?_ hcirc hover
      · cases a <;> cases b <;> cases c <;> simp_all [ranks, Param.rank, IsNum]
      · rcases hτ with rfl | rfl | rfl <;> exact h
  | a :: b :: c :: d :: l =>
    refine sorted_none (hnone (ranks_length (by simp)) (ranks_length (by simp))) ?_ hcirc hover
    rcases hτ with rfl | rfl | rfl <;> simp [Documented]

theorem vecArg_iff {s : Through} {A : MatObj} : VecArg 3 (.mat s A) ↔ A.isVector 3 :=
  (isVector_three A).symm

theorem sorted_twist (args : List EArg) : Sorted .twist args := by
  have hcirc : ¬ Circular .twist args := by simp [Circular]
  have hnone : ranks [.matBase] args = none → ranks [.matBase, .matBase] args = none →
      choose .twist args = .none := fun h1 h2 => choose_none fun c hc => by
    simp only [LCls.ctors, List.mem_cons, List.not_mem_nil, or_false] at hc
    rcases hc with rfl | rfl
    · exact h1
    · exact h2
  match args with
  | [] =>
    exact sorted_none (hnone (ranks_length (by simp)) (ranks_length (by simp))) (by simp [Documented])
      hcirc (by simp [Overrun])
  | [.num x] =>
    exact sorted_none (hnone rfl (ranks_length (by simp))) (by simp [Documented, VecArg, SizeIs])
      hcirc (by simp [Overrun])
  | [.rot s r] =>
    exact sorted_none (hnone rfl (ranks_length (by simp))) (by simp [Documented, VecArg, SizeIs])
      hcirc (by simp [Overrun])
  | [.mat s A] =>
    by_cases h : VecArg 6 (.mat s A)
    · obtain ⟨v, hv⟩ := column_some h
      exact .inl ⟨_, builds_done (choose_vec_mat _ (by simp) s A)
        (by simp only [Ctor.body, twistBody, hv]; rfl), h, hcirc, by simp [Overrun]⟩
    · exact .inr (.inr (.inr (.inr ⟨builds_done (choose_vec_mat _ (by simp) s A)
        (by simp only [Ctor.body, twistBody, column_none h]), h, hcirc, by simp [Overrun]⟩)))
  | [.mat s A, .mat u B] =>
    by_cases h : VecArg 3 (.mat s A) ∧ VecArg 3 (.mat u B)
    · have hv : A.isVector 3 ∧ B.isVector 3 := ⟨vecArg_iff.1 h.1, vecArg_iff.1 h.2⟩
      have hund : commaInit 6 1 [A, B] = none → Builds .twist [.mat s A, .mat u B] .undefined :=
        fun hn => builds_done (choose_twist_mat s u A B) (by
          simp only [Ctor.body, twistBody]
          rw [if_pos hv, hn])
      rcases h.1 with hA | hA
      · rcases h.2 with hB | hB
        · have hA' : IsCol (.mat s A) fun i : Fin 3 => A.coeff i 0 := ⟨hA.1, hA.2, fun _ => rfl⟩
          have hB' : IsCol (.mat u B) fun i : Fin 3 => B.coeff i 0 := ⟨hB.1, hB.2, fun _ => rfl⟩
          refine .inl ⟨_, c70_twist_columns hA' hB', h, hcirc, ?_⟩
          rintro ⟨-, -, h' | h'⟩
          · have := h'.1.symm.trans hA.1; omega
          · have := h'.1.symm.trans hB.1; omega
        · exact .inr (.inr (.inl ⟨hund (comma_row_right A B hA hB.2), h, ⟨h.1, h.2, .inr hB⟩, hcirc⟩))
      · exact .inr (.inr (.inl ⟨hund (comma_row_left A B hA.2), h, ⟨h.1, h.2, .inl hA⟩, hcirc⟩))
    · refine .inr (.inr (.inr (.inr ⟨builds_done (choose_twist_mat s u A B) ?_, h, hcirc,
        fun h' => h ⟨h'.1, h'.2.1⟩⟩)))
      simp only [Ctor.body, twistBody]
      rw [if_neg fun h' => h ⟨vecArg_iff.2 h'.1, vecArg_iff.2 h'.2⟩]
  | [.rot s r, b] =>
    exact sorted_none (hnone (ranks_length (by simp)) rfl) (by simp [Documented, VecArg, SizeIs])
      hcirc (by simp [Overrun, VecArg, SizeIs])
  | [.num x, b] =>
    exact sorted_none (hnone (ranks_length (by simp)) rfl) (by simp [Documented, VecArg, SizeIs])
      hcirc (by simp [Overrun, VecArg, SizeIs])
  | [.mat s A, .rot u r] =>
    exact sorted_none (hnone (ranks_length (by simp)) (by cases s <;> rfl))
      (by simp [Documented, VecArg, SizeIs]) hcirc (by simp [Overrun, VecArg, SizeIs])
  | [.mat s A, .num x] =>
    exact sorted_none (hnone (ranks_length (by simp)) (by cases s <;> rfl))
      (by simp [Documented, VecArg, SizeIs]) hcirc (by simp [Overrun, VecArg, SizeIs])
  | a :: b :: c :: l =>
    exact sorted_none (hnone (ranks_length (by simp)) (ranks_length (by simp))) (by simp [Documented])
      hcirc (by simp [Overrun])

theorem choose_rigid_none (k : RigK) (a b : EArg)
    (h : (∃ x, a = .num x) ∨ (∃ x, b = .num x) ∨ ∃ s r, b = .rot s r) :
    choose (.rigid k) [a, b] = .none := by
  cases k with
  | mat =>
    refine choose_none fun c hc => ?_
    simp only [LCls.ctors, List.mem_cons, List.not_mem_nil, or_false] at hc
    rcases h with ⟨x, rfl⟩ | ⟨x, rfl⟩ | ⟨s, r, rfl⟩ <;> rcases hc with rfl | rfl | rfl <;>
      first
        | rfl
        | (rcases a with ⟨s, _⟩ | ⟨s, _⟩ | _ <;> first | rfl | (cases s <;> rfl))
  | compact =>
    rcases h with ⟨x, rfl⟩ | ⟨x, rfl⟩ | ⟨s, r, rfl⟩
    · resolve []
    · rcases a with ⟨s, _⟩ | ⟨s, _⟩ | _ <;> first | (cases s <;> resolve []) | resolve []
    · rcases a with ⟨s, _⟩ | ⟨s, _⟩ | _ <;> first | (cases s <;> resolve []) | resolve []

theorem sorted_matrix_mat (s u : Through) (A B : MatObj) : Sorted (.rigid .mat) [.mat s A, .mat u B] := by
  have hcirc : ¬ Circular (.rigid .mat) [.mat s A, .mat u B] := by simp [Circular]
  by_cases h : (A.rows = 3 ∧ A.cols = 3) ∧ B.isVector 3
  · rcases (isVector_three B).1 h.2 with hB | hB
    · refine .inl ⟨mk4 A.m3 fun i => B.coeff i 0, builds_done (choose_matrix_mat s u A B) ?_,
        ⟨.inr h.1, .inl hB⟩, hcirc, fun h' => ?_⟩
      · simp only [Ctor.body]
        rw [if_pos h, matrixRigid_column A B h.1 hB]
      · have := h'.2.1.symm.trans hB.1; omega
    · refine .inr (.inr (.inl ⟨builds_done (choose_matrix_mat s u A B) ?_, ⟨.inr h.1, .inr hB⟩,
        ⟨.inr h.1, hB⟩, hcirc⟩))
      simp only [Ctor.body]
      rw [if_pos h, matrixRigid_row A B hB]
  · have hd : ¬ Documented (.rigid .mat) [.mat s A, .mat u B] := fun h' =>
      h ⟨h'.1.resolve_left id, vecArg_iff.1 h'.2⟩
    refine .inr (.inr (.inr (.inr ⟨builds_done (choose_matrix_mat s u A B) ?_, hd, hcirc,
      fun h' => hd ⟨h'.1, .inr h'.2⟩⟩)))
    simp only [Ctor.body]
    rw [if_neg h]

theorem sorted_matrix (args : List EArg) : Sorted (.rigid .mat) args := by
  have hcirc : ¬ Circular (.rigid .mat) args := by simp [Circular]
  have hlen : args.length ≠ 1 → args.length ≠ 2 → choose (.rigid .mat) args = .none := fun h1 h2 =>
    choose_none fun c hc => ranks_length (by
      simp only [LCls.ctors, List.mem_cons, List.not_mem_nil, or_false] at hc
      rcases hc with rfl | rfl | rfl
      · exact fun h => h2 h.symm
      · exact fun h => h2 h.symm
      · exact fun h => h1 h.symm)
  match args with
  | [] =>
    exact sorted_none (hlen (by simp) (by simp)) (by simp [Documented]) hcirc (by simp [Overrun])
  | [.num x] =>
    exact sorted_none (by resolve []) (by simp [Documented, SizeIs]) hcirc (by simp [Overrun])
  | [.rot s r] =>
    exact sorted_none (by resolve []) (by simp [Documented, SizeIs]) hcirc (by simp [Overrun])
  | [.mat s A] =>
    by_cases h : A.rows = 4 ∧ A.cols = 4
    · exact .inl ⟨_, builds_done (choose_matrix_one s A h) rfl, h, hcirc, by simp [Overrun]⟩
    · have hb : (A.rows == 4 && A.cols == 4) = false := by
        rw [Bool.eq_false_iff]
        simpa using h
      exact sorted_none (by cases s <;> resolve [hb]) (by simpa [Documented, SizeIs] using h) hcirc
        (by simp [Overrun])
  | [.mat s A, .mat u B] => exact sorted_matrix_mat s u A B
  | [.rot s r, .mat u B] =>
    have go : ∀ {o : Made M4}, Builds (.rigid .mat) [.mat .cls (.ofM3 r.matrix), .mat .base B] o →
        Builds (.rigid .mat) [.rot s r, .mat u B] o :=
      fun h => builds_delegate (choose_matrix_rot s u r B) rfl h
    have h3 : SizeIs 3 3 (.mat .cls (.ofM3 r.matrix)) := ⟨rfl, rfl⟩
    rcases sorted_matrix_mat .cls .base (.ofM3 r.matrix) B with
      ⟨x, h, hd, -, ho⟩ | ⟨-, -, hc, -⟩ | ⟨h, hd, ho, -⟩ | ⟨h, hd, -, ho⟩ | ⟨h, hd, -, ho⟩
    · exact .inl ⟨x, go h, ⟨.inl trivial, hd.2⟩, hcirc, fun h' => ho ⟨.inr h3, h'.2⟩⟩
    · exact hc.elim
    · exact .inr (.inr (.inl ⟨go h, ⟨.inl trivial, hd.2⟩, ⟨.inl trivial, ho.2⟩, hcirc⟩))
    · exact .inr (.inr (.inr (.inl ⟨go h, fun h' => hd ⟨.inr h3, h'.2⟩, hcirc,
        fun h' => ho ⟨.inr h3, h'.2⟩⟩)))
    · exact .inr (.inr (.inr (.inr ⟨go h, fun h' => hd ⟨.inr h3, h'.2⟩, hcirc,
        fun h' => ho ⟨.inr h3, h'.2⟩⟩)))
  | [.num x, b] =>
    exact sorted_none (choose_rigid_none _ _ _ (.inl ⟨x, rfl⟩))
      (by simp [Documented, RotArg, IsRotObj, SizeIs]) hcirc
      (by simp [Overrun, RotArg, IsRotObj, SizeIs])
  | [a, .num x] =>
    exact sorted_none (choose_rigid_none _ _ _ (.inr (.inl ⟨x, rfl⟩)))
      (by simp [Documented, VecArg, SizeIs]) hcirc (by simp [Overrun, SizeIs])
  | [a, .rot s r] =>
    exact sorted_none (choose_rigid_none _ _ _ (.inr (.inr ⟨s, r, rfl⟩)))
      (by simp [Documented, VecArg, SizeIs]) hcirc (by simp [Overrun, SizeIs])
  | a :: b :: c :: l =>
    exact sorted_none (hlen (by simp) (by simp)) (by simp [Documented]) hcirc (by simp [Overrun])

theorem compactStorage_cases {a b : EArg} {q : Quat} (hq : quatFrom a = .made q) (s : Through)
    (B : MatObj) (hb : b = .mat s B) :
    (VecArg 3 b ∧ ∃ x, compactStorage a b = .made x) ∨
    (¬ VecArg 3 b ∧ compactStorage a b = .rejected) := by
  subst hb
  by_cases h : VecArg 3 (.mat s B)
  · obtain ⟨v, hv⟩ := column_some h
    exact .inl ⟨h, ⟨q, v⟩, by simp only [compactStorage, vec3Body, hv, hq]⟩
  · exact .inr ⟨h, by simp only [compactStorage, vec3Body, column_none h]⟩

theorem endless_compact (r : RotObj) (B : MatObj) (h : B.isVector 3) :
    Endless (.rigid .compact) [.rot .base r, .mat .base B] := by
  intro n
  induction n with
  | zero => rfl
  | succ n ih =>
    have hc := choose_compact_rot .base .base r B
    rw [if_pos ⟨rfl, rfl⟩] at hc
    have hb : Ctor.ofRotMat.body (.rigid .compact) [.rot .base r, .mat .base B] =
        .delegate [.rot .base r, .mat .base B] := by
      simp only [Ctor.body]; rw [if_pos h]
    rw [constructLeaf, hc]
    simp only [hb]
    exact ih

theorem sorted_compact (args : List EArg) : Sorted (.rigid .compact) args := by
  have hlen : args.length ≠ 2 → choose (.rigid .compact) args = .none := fun h2 =>
    choose_none fun c hc => ranks_length (by
      simp only [LCls.ctors, List.mem_cons, List.not_mem_nil, or_false] at hc
      rcases hc with rfl | rfl | rfl <;> exact fun h => h2 h.symm)
  match args with
  | [] => exact sorted_none (hlen (by simp)) (by simp [Documented]) (by simp [Circular]) (by simp [Overrun])
  | [a] =>
    exact sorted_none (hlen (by simp)) (by simp [Documented]) (by simp [Circular]) (by simp [Overrun])
  | [.rot s r, .mat u B] =>
    have hover : ¬ Overrun (.rigid .compact) [.rot s r, .mat u B] := by simp [Overrun]
    by_cases h : s = .base ∧ u = .base
    · obtain ⟨rfl, rfl⟩ := h
      by_cases hB : B.isVector 3
      · exact .inr (.inl ⟨endless_compact r B hB, ⟨.inl trivial, vecArg_iff.2 hB⟩,
          ⟨trivial, rfl, rfl, vecArg_iff.2 hB⟩, hover⟩)
      · have hd : ¬ VecArg 3 (.mat .base B) := fun h => hB (vecArg_iff.1 h)
        refine .inr (.inr (.inr (.inr ⟨builds_done (c := .ofRotMat) ?_ ?_, fun h => hd h.2,
          fun h => hd h.2.2.2, hover⟩)))
        · rw [choose_compact_rot, if_pos ⟨rfl, rfl⟩]
        · simp only [Ctor.body]; rw [if_neg hB]
    · have hc : choose (.rigid .compact) [.rot s r, .mat u B] = .one .inherited := by
        rw [choose_compact_rot, if_neg h]
      have hcirc : ¬ Circular (.rigid .compact) [.rot s r, .mat u B] := fun h' => h ⟨h'.2.1, h'.2.2.1⟩
      rcases compactStorage_cases (a := .rot s r) rfl u B rfl with ⟨hv, x, hx⟩ | ⟨hv, hx⟩
      · exact .inl ⟨x, builds_done hc (by simp only [Ctor.body, hx]), ⟨.inl trivial, hv⟩, hcirc, hover⟩
      · exact .inr (.inr (.inr (.inr ⟨builds_done hc (by simp only [Ctor.body, hx]),
          fun h => hv h.2, hcirc, hover⟩)))
  | [.mat s A, .mat u B] =>
    have hover : ¬ Overrun (.rigid .compact) [.mat s A, .mat u B] := by simp [Overrun]
    have hcirc : ¬ Circular (.rigid .compact) [.mat s A, .mat u B] := by simp [Circular, IsRotObj]
    by_cases hA : A.rows = 3 ∧ A.cols = 3
    · obtain ⟨q, hq⟩ := ofMat_total .quat A.m3
      by_cases h : s = .base ∧ u = .base
      · have hc : choose (.rigid .compact) [.mat s A, .mat u B] = .one .ofMatMat := by
          rw [choose_compact_mat s u A B hA, if_pos h]
        by_cases hB : B.isVector 3
        · rcases compactStorage_cases (a := .rot .cls (.quat q)) rfl .cls B rfl with
            ⟨hv, x, hx⟩ | ⟨hv, hx⟩
          · refine .inl ⟨x, builds_done hc ?_, ⟨.inr hA, hv⟩, hcirc, hover⟩
            have hq' : Quat.ofMatrix A.m3 = some q := hq
            simp only [Ctor.body]
            rw [if_pos ⟨hA, hB⟩, hq']
            exact congrArg CtorStep.done hx
          · exact (hv (vecArg_iff.2 hB)).elim
        · refine .inr (.inr (.inr (.inr ⟨builds_done hc ?_, fun h => hB (vecArg_iff.1 h.2), hcirc, hover⟩)))
          simp only [Ctor.body]
          rw [if_neg fun h => hB h.2]
      · have hc : choose (.rigid .compact) [.mat s A, .mat u B] = .one .inherited := by
          rw [choose_compact_mat s u A B hA, if_neg h]
        have hq' : quatFrom (.mat s A) = .made q := by
          simp only [quatFrom]; rw [if_pos hA, hq]; rfl
        rcases compactStorage_cases hq' u B rfl with ⟨hv, x, hx⟩ | ⟨hv, hx⟩
        · exact .inl ⟨x, builds_done hc (by simp only [Ctor.body, hx]), ⟨.inr hA, hv⟩, hcirc, hover⟩
        · exact .inr (.inr (.inr (.inr ⟨builds_done hc (by simp only [Ctor.body, hx]),
            fun h => hv h.2, hcirc, hover⟩)))
    · refine .inr (.inr (.inr (.inr ⟨builds_done (choose_compact_mat_bad s u A B hA) ?_,
        fun h => hA (h.1.resolve_left id), hcirc, hover⟩)))
      simp only [Ctor.body]
      rw [if_neg fun h => hA h.1]
  | [.num x, b] =>
    exact sorted_none (choose_rigid_none _ _ _ (.inl ⟨x, rfl⟩))
      (by simp [Documented, RotArg, IsRotObj, SizeIs]) (by simp [Circular, IsRotObj]) (by simp [Overrun])
  | [a, .num x] =>
    exact sorted_none (choose_rigid_none _ _ _ (.inr (.inl ⟨x, rfl⟩)))
      (by simp [Documented, VecArg, SizeIs]) (by simp [Circular, VecArg, SizeIs]) (by simp [Overrun])
  | [a, .rot s r] =>
    exact sorted_none (choose_rigid_none _ _ _ (.inr (.inr ⟨s, r, rfl⟩)))
      (by simp [Documented, VecArg, SizeIs]) (by simp [Circular, VecArg, SizeIs]) (by simp [Overrun])
  | a :: b :: c :: l =>
    exact sorted_none (hlen (by simp)) (by simp [Documented]) (by simp [Circular]) (by simp [Overrun])

theorem sorted_all : ∀ (τ : LCls) (args : List EArg), Sorted τ args
  | .rot k, args => sorted_rot k args
  | .relrot, args => sorted_three _ (by simp) args
  | .trans, args => sorted_three _ (by simp) args
  | .point, args => sorted_three _ (by simp) args
  | .twist, args => sorted_twist args
  | .rigid .mat, args => sorted_matrix args
  | .rigid .compact, args => sorted_compact args

/-- A leaf is made exactly from the documented arguments other than those of `Circular` and
`Overrun`. -/
theorem c70_made (τ : LCls) (args : List EArg) : (∃ x, Builds τ args (.made x)) ↔
    Documented τ args ∧ ¬ Circular τ args ∧ ¬ Overrun τ args := by
  constructor
  · rintro ⟨x, hx⟩
    rcases sorted_all τ args with ⟨y, h, hd⟩ | ⟨h, -⟩ | ⟨h, -⟩ | ⟨h, -⟩ | ⟨h, -⟩
    · exact hd
    · exact (h.not _ hx).elim
    all_goals exact absurd (hx.unique h) (by simp)
  · rintro ⟨hd, hc, ho⟩
    rcases sorted_all τ args with ⟨y, h, -⟩ | ⟨-, -, h, -⟩ | ⟨-, -, h, -⟩ | ⟨-, h, -⟩ | ⟨-, h, -⟩
    · exact ⟨y, h⟩
    · exact (hc h).elim
    · exact (ho h).elim
    all_goals exact (h hd).elim

/-- The constructor that delegates to itself, exactly. -/
theorem c70_endless (τ : LCls) (args : List EArg) : Endless τ args ↔ Circular τ args := by
  constructor
  · intro he
    rcases sorted_all τ args with ⟨y, h, -⟩ | ⟨-, -, h, -⟩ | ⟨h, -⟩ | ⟨h, -⟩ | ⟨h, -⟩
    · exact (he.not _ h).elim
    · exact h
    all_goals exact (he.not _ h).elim
  · intro hc
    rcases sorted_all τ args with ⟨y, -, -, h, -⟩ | ⟨h, -⟩ | ⟨-, -, -, h⟩ | ⟨-, -, h, -⟩ | ⟨-, -, h, -⟩
    · exact (h hc).elim
    · exact h
    all_goals exact (h hc).elim

/-- The writes outside the storage, exactly. -/
theorem c70_undefined (τ : LCls) (args : List EArg) :
    Builds τ args .undefined ↔ Overrun τ args := by
  constructor
  · intro hu
    rcases sorted_all τ args with ⟨y, h, -⟩ | ⟨h, -⟩ | ⟨-, -, h, -⟩ | ⟨h, -⟩ | ⟨h, -⟩
    · exact absurd (hu.unique h) (by simp)
    · exact (h.not _ hu).elim
    · exact h
    all_goals exact absurd (hu.unique h) (by simp)
  · intro ho
    rcases sorted_all τ args with ⟨y, -, -, -, h⟩ | ⟨-, -, -, h⟩ | ⟨h, -⟩ | ⟨-, -, -, h⟩ | ⟨-, -, -, h⟩
    · exact (h ho).elim
    · exact (h ho).elim
    · exact h
    all_goals exact (h ho).elim

/-- Anything else does not compile, and never for lack of a unique best constructor; no constructor
produces a NaN. -/
theorem c70_otherwise (τ : LCls) (args : List EArg) :
    (¬ Documented τ args → Builds τ args .noMatch ∨ Builds τ args .rejected) ∧
    ¬ Builds τ args .ambiguous ∧ ¬ Builds τ args .nan := by
  rcases sorted_all τ args with ⟨y, h, hd, -⟩ | ⟨h, hd, -⟩ | ⟨h, hd, -⟩ | ⟨h, -⟩ | ⟨h, -⟩
  · exact ⟨fun hn => (hn hd).elim, fun ha => absurd (ha.unique h) (by simp),
      fun ha => absurd (ha.unique h) (by simp)⟩
  · exact ⟨fun hn => (hn hd).elim, h.not _, h.not _⟩
  · exact ⟨fun hn => (hn hd).elim, fun ha => absurd (ha.unique h) (by simp),
      fun ha => absurd (ha.unique h) (by simp)⟩
  · exact ⟨fun _ => .inl h, fun ha => absurd (ha.unique h) (by simp),
      fun ha => absurd (ha.unique h) (by simp)⟩
  · exact ⟨fun _ => .inr h, fun ha => absurd (ha.unique h) (by simp),
      fun ha => absurd (ha.unique h) (by simp)⟩

/-! ## Angle and axis -/

theorem hat_smul' (c : ℝ) (v : V3) : hat (c • v) = c • hat v := by
  ext i j; fin_cases i <;> fin_cases j <;> simp [hat]

/-- `FromAngleAndAxis(angle, axis)` for an axis of any length other than zero is the rotation vector
of the rotation by `angle` about the direction of `axis`; for a zero axis it is zero. -/
theorem c70_angle_axis (θ : ℝ) (w : V3) :
    (w = 0 → fromAngleAndAxis θ w = 0) ∧
    (w ≠ 0 → ∃ u : V3, sqLen u = 1 ∧ (∃ c : ℝ, 0 < c ∧ w = c • u) ∧ fromAngleAndAxis θ w = θ • u ∧
      NormedSpace.exp (hat (fromAngleAndAxis θ w)) = rotAbout θ u) := by
  constructor
  · rintro rfl
    simp [fromAngleAndAxis, vNormalize, vSqNorm]
  · intro hw
    have hpos : 0 < vSqNorm w := by
      have h0 : 0 ≤ vSqNorm w := by
        simp only [vSqNorm, dotProduct]
        exact Finset.sum_nonneg fun i _ => mul_self_nonneg (w i)
      refine lt_of_le_of_ne h0 fun h => hw ?_
      have hs : ∑ i, w i * w i = 0 := h.symm
      funext i
      exact mul_self_eq_zero.1 ((Finset.sum_eq_zero_iff_of_nonneg
        fun i _ => mul_self_nonneg (w i)).1 hs i (Finset.mem_univ i))
    have hn : 0 < vNorm w := Real.sqrt_pos.2 hpos
    have hsq : vNorm w * vNorm w = vSqNorm w := Real.mul_self_sqrt hpos.le
    have e : vNormalize w = fun i => w i / vNorm w := if_pos hpos
    refine ⟨fun i => w i / vNorm w, ?_, ⟨vNorm w, hn, ?_⟩, ?_, ?_⟩
    · have : vSqNorm w = w 0 * w 0 + w 1 * w 1 + w 2 * w 2 := by
        simp [vSqNorm, dotProduct, Fin.sum_univ_three]
      rw [sqLen_eq]
      simp only [normSq]
      field_simp
      nlinarith [hsq, this]
    · funext i
      simp only [Pi.smul_apply, smul_eq_mul]
      field_simp
    · simp only [fromAngleAndAxis, e]
    · simp only [fromAngleAndAxis, e, rotAbout, hat_smul']

/-! ## Examples -/

/-- A column object. -/
def colObj (v : V3) : MatObj := ⟨3, 1, fun i _ => if h : i < 3 then v ⟨i, h⟩ else 0⟩
/-- A row object. -/
def rowObj (v : V3) : MatObj := ⟨1, 3, fun _ j => if h : j < 3 then v ⟨j, h⟩ else 0⟩

theorem colObj_isCol (s : Through) (v : V3) : IsCol (.mat s (colObj v)) v :=
  ⟨rfl, rfl, fun i => by simp [colObj]⟩

theorem rowObj_isRow (s : Through) (v : V3) : IsRow (.mat s (rowObj v)) v :=
  ⟨rfl, rfl, fun i => by simp [rowObj]⟩

/-- A quarter turn about the third axis. -/
noncomputable def quarterTurn : AngleAxis := ⟨Real.pi / 2, ![0, 0, 1]⟩

theorem quarterTurn_isRot (s : Through) :
    IsRot (.rot s (.aa quarterTurn)) (rotAbout (Real.pi / 2) ![0, 0, 1]) :=
  ⟨by simp [ValidRot, quarterTurn, sqLen], rfl⟩

/-- A quaternion rotation from an angle-axis. -/
example : ∃ q, Builds (.rot .quat) [.rot .cls (.aa quarterTurn)] (.made q) ∧ ValidRot .quat q ∧
    rotDen .quat q = rotAbout (Real.pi / 2) ![0, 0, 1] := c70_rotation .quat (quarterTurn_isRot _)

/-- Both rigid classes from an angle-axis by value and a column. -/
example (k : RigK) : ∃ x,
    Builds (.rigid k) [.rot .cls (.aa quarterTurn), .mat .cls (colObj ![1, 2, 3])] (.made x) ∧
    ValidRigid k x ∧ rigidDen k x = ⟨rotAbout (Real.pi / 2) ![0, 0, 1], ![1, 2, 3]⟩ := by
  refine c70_rigid k (quarterTurn_isRot _) (.inl (colObj_isCol _ _)) ?_ ?_
  · cases k
    · simp [Circular]
    · rintro ⟨-, h, -⟩; cases h
  · cases k
    · rintro ⟨-, h⟩; exact absurd h.1 (by decide)
    · simp [Overrun]

/-- The compact class from references to the base classes: the constructor delegates to itself. -/
example : Endless (.rigid .compact)
    [.rot .base (.aa quarterTurn), .mat .base (colObj ![1, 2, 3])] :=
  (c70_endless _ _).2 ⟨trivial, rfl, rfl, .inl ⟨rfl, rfl⟩⟩

/-- The matrix class is not affected. -/
example : ∃ x, Builds (.rigid .mat)
    [.rot .base (.aa quarterTurn), .mat .base (colObj ![1, 2, 3])] (.made x) :=
  (c70_made _ _).2 ⟨⟨.inl trivial, .inl ⟨rfl, rfl⟩⟩, by simp [Circular], fun h =>
    absurd h.2.1 (by decide)⟩

/-- A row is a good translation, but neither half of a twist. -/
example : Builds .trans [.mat .cls (rowObj ![1, 2, 3])] (.made ![1, 2, 3]) ∧
    Builds .twist [.mat .cls (colObj ![1, 2, 3]), .mat .cls (rowObj ![1, 2, 3])] .undefined :=
  ⟨(c70_vector (.inr (rowObj_isRow _ _))).2.1,
    (c70_undefined _ _).2 ⟨.inl ⟨rfl, rfl⟩, .inr ⟨rfl, rfl⟩, .inr ⟨rfl, rfl⟩⟩⟩

/-- A twist from two columns. -/
example : Builds .twist [.mat .cls (colObj ![1, 2, 3]), .mat .base (colObj ![4, 5, 6])]
    (.made (Sum.elim ![1, 2, 3] ![4, 5, 6])) :=
  c70_twist_columns (colObj_isCol _ _) (colObj_isCol _ _)

/-- A quaternion rotation from a four-vector does not compile. -/
example : Builds (.rot .quat) [.mat .cls ⟨4, 1, fun _ _ => 1⟩] .noMatch ∨
    Builds (.rot .quat) [.mat .cls ⟨4, 1, fun _ _ => 1⟩] .rejected :=
  (c70_otherwise _ _).1 (by simp [Documented, RotArg, IsRotObj, SizeIs])

/-- A quarter turn about an axis of length two. -/
example : fromAngleAndAxis (Real.pi / 2) ![0, 0, 2] ≠ 0 := by
  obtain ⟨u, hu, -, e, -⟩ := (c70_angle_axis (Real.pi / 2) ![0, 0, 2]).2 (fun h => by
    have := congrFun h 2; simp at this)
  rw [e]
  intro h
  rcases smul_eq_zero.1 h with h | h
  · exact absurd h (by positivity)
  · rw [h] at hu; simp [sqLen] at hu

end WG
