import Verif.Props.Evaluation

/-!
# C33, C34: automatic conversions
-/

namespace WG
open Matrix Spec

section search
variable {A B C : Type} (f : A → B → Option C) (stayL : A) (stayR : B) (viasL : List A)
  (viasR : List B)

theorem findSome_split {A C : Type} (g : A → Option C) (pre post : List A) (a : A) (c : C)
    (h : ∀ x ∈ pre, g x = none) (ha : g a = some c) : (pre ++ a :: post).findSome? g = some c := by
  rw [List.findSome?_append, List.findSome?_eq_none_iff.mpr h]
  simp [ha]

/-- **C33.** No conversion is inserted when none is needed. -/
theorem c33_none_needed {c : C} (h : f stayL stayR = some c) :
    firstConv2 f stayL stayR viasL viasR = some c := by
  unfold firstConv2
  simp [h]

/-- **C33.** Otherwise the first workable conversion of the right operand alone is used. -/
theorem c33_right_first {c : C} (h0 : f stayL stayR = none) (pre post : List B) (r : B)
    (hr : viasR = pre ++ r :: post) (hpre : ∀ x ∈ pre, f stayL x = none)
    (hc : f stayL r = some c) : firstConv2 f stayL stayR viasL viasR = some c := by
  unfold firstConv2
  rw [List.findSome?_append, List.findSome?_append]
  have : (((stayL, stayR) :: viasR.map (stayL, ·)).findSome? fun p => f p.1 p.2) = some c := by
    rw [List.findSome?_cons, h0]
    simp only
    rw [hr, List.map_append, List.map_cons]
    exact findSome_split _ _ _ _ _ (by simpa using hpre) hc
  rw [this]
  rfl

theorem right_none (h0 : f stayL stayR = none) (hR : ∀ x ∈ viasR, f stayL x = none) :
    (((stayL, stayR) :: viasR.map (stayL, ·)).findSome? fun p => f p.1 p.2) = none := by
  rw [List.findSome?_cons, h0]
  simpa using hR

/-- **C33.** If no conversion of the right operand alone works, the first workable conversion of the
left operand alone is used. -/
theorem c33_left_second {c : C} (h0 : f stayL stayR = none) (hR : ∀ x ∈ viasR, f stayL x = none)
    (pre post : List A) (l : A) (hl : viasL = pre ++ l :: post)
    (hpre : ∀ x ∈ pre, f x stayR = none) (hc : f l stayR = some c) :
    firstConv2 f stayL stayR viasL viasR = some c := by
  unfold firstConv2
  rw [List.findSome?_append, List.findSome?_append, right_none f stayL stayR viasR h0 hR]
  have : ((viasL.map (·, stayR)).findSome? fun p => f p.1 p.2) = some c := by
    rw [hl, List.map_append, List.map_cons]
    exact findSome_split _ _ _ _ _ (by simpa using hpre) hc
  rw [this]
  rfl

/-- **C33.** If no single conversion works, both operands are converted, left list first. -/
theorem c33_both_last {c : C} (h0 : f stayL stayR = none) (hR : ∀ x ∈ viasR, f stayL x = none)
    (hL : ∀ x ∈ viasL, f x stayR = none)
    (preL postL : List A) (l : A) (hl : viasL = preL ++ l :: postL)
    (preR postR : List B) (r : B) (hr : viasR = preR ++ r :: postR)
    (hpreL : ∀ x ∈ preL, ∀ y ∈ viasR, f x y = none) (hpreR : ∀ y ∈ preR, f l y = none)
    (hc : f l r = some c) : firstConv2 f stayL stayR viasL viasR = some c := by
  unfold firstConv2
  have e2 : ((viasL.map (·, stayR)).findSome? fun p => f p.1 p.2) = none := by
    simpa using hL
  rw [List.findSome?_append, List.findSome?_append, right_none f stayL stayR viasR h0 hR, e2,
    Option.none_or, Option.none_or]
  rw [hl, List.flatMap_append, List.flatMap_cons, List.findSome?_append, List.findSome?_append]
  have e3 : ((preL.flatMap fun l => viasR.map (l, ·)).findSome? fun p => f p.1 p.2) = none := by
    rw [List.findSome?_eq_none_iff]
    intro p hp
    obtain ⟨x, hx, hp⟩ := List.mem_flatMap.mp hp
    obtain ⟨y, hy, rfl⟩ := List.mem_map.mp hp
    exact hpreL x hx y hy
  have e4 : ((viasR.map (l, ·)).findSome? fun p => f p.1 p.2) = some c := by
    rw [hr, List.map_append, List.map_cons]
    exact findSome_split _ _ _ _ _ (by simpa using hpreR) hc
  rw [e3, e4]
  rfl

/-- **C33.** The operation is rejected exactly when no choice of at most one conversion per operand
makes it directly evaluable. -/
theorem c33_rejected_iff :
    firstConv2 f stayL stayR viasL viasR = none ↔
      ∀ l ∈ stayL :: viasL, ∀ r ∈ stayR :: viasR, f l r = none := by
  unfold firstConv2
  rw [List.findSome?_eq_none_iff]
  constructor
  · intro h l hl r hr
    rcases List.mem_cons.mp hl with rfl | hl <;> rcases List.mem_cons.mp hr with rfl | hr
    · exact h (_, _) (by simp)
    · exact h (_, r) (by simp [hr])
    · exact h (l, _) (by simp [hl])
    · exact h (l, r) (by simp [hl, hr])
  · rintro h ⟨l, r⟩ hp
    simp only [List.cons_append, List.mem_cons, Prod.mk.injEq, List.mem_append, List.mem_map,
      List.mem_flatMap] at hp
    rcases hp with ⟨rfl, rfl⟩ | (⟨x, hx, rfl, rfl⟩ | ⟨x, hx, rfl, rfl⟩) | ⟨x, hx, y, hy, rfl, rfl⟩
    · exact h _ (by simp) _ (by simp)
    · exact h _ (by simp) _ (by simp [hx])
    · exact h _ (by simp [hx]) _ (by simp)
    · exact h _ (by simp [hx]) _ (by simp [hy])

end search

section unary
variable {A C : Type} (f : A → Option C) (stay : A) (vias : List A)

/-- **C33 (unary).** No conversion when none is needed; otherwise the first listed that works;
rejected exactly when none works. -/
theorem c33_unary :
    (∀ c, f stay = some c → firstConv1 f stay vias = some c) ∧
    (∀ pre a post c, f stay = none → vias = pre ++ a :: post → (∀ x ∈ pre, f x = none) →
      f a = some c → firstConv1 f stay vias = some c) ∧
    (firstConv1 f stay vias = none ↔ ∀ a ∈ stay :: vias, f a = none) := by
  refine ⟨fun c h => by simp [firstConv1, h], ?_, ?_⟩
  · rintro pre a post c h0 rfl hpre ha
    unfold firstConv1
    rw [List.findSome?_cons, h0]
    exact findSome_split _ _ _ _ _ hpre ha
  · unfold firstConv1
    exact List.findSome?_eq_none_iff

end unary

theorem sides_ty (a : Ty) : (sides a).map Side.ty = convTo a := by
  rcases a with k | _ | k | k <;> first | rfl | (cases k <;> rfl)

/-- **C33 (the library's tables).** A binary operator node compiles exactly when it is directly
evaluable on some choice of the operands' own classes and the classes they list in `ConvertTo`. -/
theorem c33_library_accepts {ε : ℝ} (t : Tag2) (x y : Tree ε) :
    (elab2 t x y).isSome ↔
      ∃ a ∈ x.1 :: convTo x.1, ∃ b ∈ y.1 :: convTo y.1, (direct2 t a b).isSome := by
  have h := c33_rejected_iff (fun (s : Side x.1) (u : Side y.1) =>
    (direct2 t s.ty u.ty).map fun r =>
      (⟨r.1, .bin 0 r.2 (s.apply x.2) (u.apply y.2)⟩ : Tree ε)) .stay .stay (sides x.1) (sides y.1)
  have hx : ∀ a, a ∈ x.1 :: convTo x.1 ↔ ∃ s ∈ Side.stay :: sides x.1, s.ty = a := by
    intro a
    rw [← sides_ty]
    simp [Side.ty, eq_comm]
  have hy : ∀ a, a ∈ y.1 :: convTo y.1 ↔ ∃ s ∈ Side.stay :: sides y.1, s.ty = a := by
    intro a
    rw [← sides_ty]
    simp [Side.ty, eq_comm]
  rw [← not_iff_not, Option.not_isSome_iff_eq_none]
  refine h.trans ?_
  constructor
  · rintro h ⟨a, ha, b, hb, hab⟩
    obtain ⟨s, hs, rfl⟩ := (hx a).mp ha
    obtain ⟨u, hu, rfl⟩ := (hy b).mp hb
    have := h s hs u hu
    rw [Option.map_eq_none_iff] at this
    rw [this] at hab
    cases hab
  · intro h s hs u hu
    rw [Option.map_eq_none_iff, ← Option.not_isSome_iff_eq_none]
    intro hab
    exact h ⟨_, (hx _).mpr ⟨s, hs, rfl⟩, _, (hy _).mpr ⟨u, hu, rfl⟩, hab⟩

/-- Non-vacuity of C33: composing an angle-axis rotation with a quaternion converts the left
operand to a quaternion; two angle-axis rotations are both converted to matrices; a quaternion
times a matrix converts the quaternion. -/
example (ε : ℝ) (p : Expr (geoLib ε) (.rot .aa)) (q : Expr (geoLib ε) (.rot .quat))
    (r : Expr (geoLib ε) (.rot .mat)) :
    elab2 .compose ⟨_, p⟩ ⟨_, q⟩ =
      some ⟨.rot .quat, Expr.bin (L := geoLib ε) 0 .composeQ (Expr.un (L := geoLib ε) 0 (.convRot .aa .quat) p) q⟩ ∧
    elab2 .compose ⟨_, p⟩ ⟨_, p⟩ =
      some ⟨.rot .mat, Expr.bin (L := geoLib ε) 0 .composeM (Expr.un (L := geoLib ε) 0 (.convRot .aa .mat) p)
        (Expr.un (L := geoLib ε) 0 (.convRot .aa .mat) p)⟩ ∧
    elab2 .compose ⟨_, q⟩ ⟨_, r⟩ =
      some ⟨.rot .mat, Expr.bin (L := geoLib ε) 0 .composeM (Expr.un (L := geoLib ε) 0 (.convRot .quat .mat) q) r⟩ :=
  ⟨rfl, rfl, rfl⟩

/-- Non-vacuity of C33: multiplying two translations is rejected. -/
example (ε : ℝ) (p : Expr (geoLib ε) (.vec .trans)) : elab2 .compose ⟨_, p⟩ ⟨_, p⟩ = none := rfl

/-- **C34.** Converting a valid rotation to any class succeeds and represents the same rotation. -/
theorem c34_conversion_preserves (a b : RotK) (x : a.Val) (h : ValidRot a x) :
    ∃ y, convRot a b x = some y ∧ ValidRot b y ∧ rotDen b y = rotDen a x :=
  convRot_sound a b x h

/-- **C34.** Rigid transforms likewise. -/
theorem c34_rigid_conversion_preserves (a b : RigK) (x : a.Val) (h : ValidRigid a x) :
    ∃ y, convRigid a b x = some y ∧ ValidRigid b y ∧ rigidDen b y = rigidDen a x :=
  convRigid_sound a b x h

/-- **C34.** Matrix to quaternion (all four branches) or angle-axis and back returns the same
matrix. -/
theorem c34_matrix_round_trip (b : RotK) (R : M3) (h : IsRotation R) :
    ∃ y, convRot .mat b R = some y ∧ convRot b .mat y = some R := by
  obtain ⟨y, e, hv, hd⟩ := convRot_sound .mat b R h
  obtain ⟨z, e', hv', hd'⟩ := convRot_sound b .mat y hv
  refine ⟨y, e, ?_⟩
  rw [e']
  exact congrArg some (hd'.trans hd)

/-- **C34.** Quaternion to matrix and back returns the quaternion up to sign. -/
theorem c34_quaternion_round_trip (q : Quat) (h : ValidRot .quat q) :
    ∃ p : Quat, Quat.ofMatrix q.toMatrix = some p ∧
      (p = q ∨ p = ⟨-q.w, -q.x, -q.y, -q.z⟩) := by
  replace h := (validRot_quat q).mp h
  obtain ⟨p, e, hu, hm⟩ := ofMatrix_spec (Quat.toMatrix_isRotation h)
  refine ⟨p, e, ?_⟩
  -- the quaternion `p conj(q)` has the identity matrix
  have hr : (p.mul q.conj).toMatrix = 1 := by
    rw [Quat.toMatrix_mul hu (Quat.conj_isUnit h), Quat.toMatrix_conj, hm]
    exact (Quat.toMatrix_isRotation h).1
  have hn : (p.mul q.conj).IsUnit := Quat.mul_isUnit hu (Quat.conj_isUnit h)
  have back : (p.mul q.conj).mul q = p := by
    rw [Quat.mul_assoc, Quat.conj_mul h, Quat.mul_one]
  generalize p.mul q.conj = r at hr hn back
  have d0 := congrFun (congrFun hr 0) 0
  have d1 := congrFun (congrFun hr 1) 1
  have d2 := congrFun (congrFun hr 2) 2
  simp [Quat.toMatrix] at d0 d1 d2
  have hx : r.x = 0 := by nlinarith [sq_nonneg r.x, sq_nonneg r.y, sq_nonneg r.z]
  have hy : r.y = 0 := by nlinarith [sq_nonneg r.x, sq_nonneg r.y, sq_nonneg r.z]
  have hz : r.z = 0 := by nlinarith [sq_nonneg r.x, sq_nonneg r.y, sq_nonneg r.z]
  have hw : r.w * r.w = 1 := by
    unfold Quat.IsUnit at hn
    rw [hx, hy, hz] at hn
    linarith
  rcases mul_self_eq_one_iff.mp hw with hw | hw
  · left
    rw [← back]
    ext <;> simp [Quat.mul, hw, hx, hy, hz]
  · right
    rw [← back]
    ext <;> simp [Quat.mul, hw, hx, hy, hz]

/-- Non-vacuity of C34: a half-turn about the x axis, where the trace branch is not taken. -/
example : ∃ y, convRot .mat .quat !![1, 0, 0; 0, -1, 0; 0, 0, -1] = some y ∧
    convRot .quat .mat y = some !![1, 0, 0; 0, -1, 0; 0, 0, -1] :=
  c34_matrix_round_trip .quat _ ⟨by mat3 [], by simp [Matrix.det_fin_three]⟩

/-- Each theorem on the conversion search at a table on which it has something to do. -/
example := c33_none_needed (f := fun (a b : ℕ) => if a = b then some a else none) (stayL := 1)
  (stayR := 1) (viasL := [2]) (viasR := [3]) rfl

example := c33_right_first (f := fun (a b : ℕ) => if a = b then some a else none) (stayL := 1)
  (stayR := 2) (viasL := [2]) (viasR := [3, 1, 4]) rfl [3] [4] 1 rfl (by simp) rfl

example := c33_left_second (f := fun (a b : ℕ) => if a = b then some a else none) (stayL := 1)
  (stayR := 2) (viasL := [5, 2]) (viasR := [3, 4]) rfl (by simp) [5] [] 2 rfl (by simp) rfl

example := c33_both_last (f := fun (a b : ℕ) => if a = b then some a else none) (stayL := 1)
  (stayR := 2) (viasL := [5, 6]) (viasR := [7, 6]) rfl (by simp) (by simp) [5] [] 6 rfl [7] [] 6 rfl
  (by simp) (by simp) rfl

/-- A 3-4-5 rotation about the z axis through every class. -/
example (b : RotK) := c34_conversion_preserves .quat b (⟨3 / 5, 0, 0, 4 / 5⟩ : Quat) ((validRot_quat _).mpr (by norm_num [Quat.IsUnit]))

example := c34_quaternion_round_trip ⟨3 / 5, 0, 0, 4 / 5⟩ ((validRot_quat _).mpr (by norm_num [Quat.IsUnit]))

end WG
