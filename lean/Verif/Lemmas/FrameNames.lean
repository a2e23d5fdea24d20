import Verif.Lemmas.Frames

/-! Labels name what the operations compute. -/

namespace WG
open Matrix Spec

variable {ε : ℝ} {s : Memory} {P : Arrangement}

/-- The vector kinds named by three frames (helper). -/
def IsNamed (P : Arrangement) : (k : VK) → (a b c : ℕ) → (k.Idx → ℝ) → Prop
  | .scalar, _, _, _, _ => True
  | .trans, a, b, c, x => x = P.vector a b c
  | .relrot, a, b, c, x => x = P.angularVelocity a b c
  | .twist, a, b, c, x => x = Sum.elim (P.angularVelocity a b c) (P.velocity a b c)

theorem express_add (P : Arrangement) (a : ℕ) (v w : V3) :
    P.express a (v + w) = P.express a v + P.express a w := mulVec_add _ _ _

theorem express_neg (P : Arrangement) (a : ℕ) (v : V3) : P.express a (-v) = -P.express a v :=
  mulVec_neg _ _

theorem vector_add (P : Arrangement) (a b c d : ℕ) :
    P.vector a b c + P.vector a c d = P.vector a b d := by
  unfold Arrangement.vector
  rw [← express_add]; congr 1; abel

theorem angularVelocity_add (P : Arrangement) (a b c d : ℕ) :
    P.angularVelocity a b c + P.angularVelocity a c d = P.angularVelocity a b d := by
  unfold Arrangement.angularVelocity
  rw [← express_add]; congr 1; abel

theorem velocity_add (P : Arrangement) (a b c d : ℕ) :
    P.velocity a b c + P.velocity a c d = P.velocity a b d := by
  unfold Arrangement.velocity
  rw [← express_add]; congr 1; abel

theorem vector_neg (P : Arrangement) (a b c : ℕ) : -P.vector a b c = P.vector a c b := by
  unfold Arrangement.vector
  rw [← express_neg]; congr 1; abel

theorem angularVelocity_neg (P : Arrangement) (a b c : ℕ) :
    -P.angularVelocity a b c = P.angularVelocity a c b := by
  unfold Arrangement.angularVelocity
  rw [← express_neg]; congr 1; abel

theorem velocity_neg (P : Arrangement) (a b c : ℕ) : -P.velocity a b c = P.velocity a c b := by
  unfold Arrangement.velocity
  rw [← express_neg]; congr 1; abel

theorem IsNamed.add {k : VK} {a b c d : ℕ} {x y : k.Idx → ℝ} (h : IsNamed P k a b c x)
    (h' : IsNamed P k a c d y) : IsNamed P k a b d (x + y) := by
  cases k
  · trivial
  · cases h; cases h'; exact vector_add ..
  · cases h; cases h'; exact angularVelocity_add ..
  · cases h; cases h'
    funext i
    rcases i with i | i
    · exact congrFun (angularVelocity_add P a b c d) i
    · exact congrFun (velocity_add P a b c d) i

theorem IsNamed.neg {k : VK} {a b c : ℕ} {x : k.Idx → ℝ} (h : IsNamed P k a b c x) :
    IsNamed P k a c b (-x) := by
  cases k
  · trivial
  · cases h; exact vector_neg ..
  · cases h; exact angularVelocity_neg ..
  · cases h
    funext i
    rcases i with i | i
    · exact congrFun (angularVelocity_neg P a b c) i
    · exact congrFun (velocity_neg P a b c) i

theorem names_vec {f : Labels} {k : VK} {x : k.Idx → ℝ} (h : Names P f (.vec k x)) :
    f = .three none none none ∨
      ∃ a b c, f = .three (some a) (some b) (some c) ∧ IsNamed P k a b c x := by
  rcases f with ⟨l, r⟩ | ⟨l, m, r⟩
  · rcases l with _ | a <;> rcases r with _ | b <;> cases k <;> exact (show False from h).elim
  · rcases l with _ | a <;> rcases m with _ | b <;> rcases r with _ | c
    · exact .inl rfl
    all_goals first
      | exact (show False from h).elim
      | (cases k <;> exact .inr ⟨a, b, c, rfl, h⟩)

theorem names_vec_mk {k : VK} {a b c : ℕ} {x : k.Idx → ℝ} (h : IsNamed P k a b c x) :
    Names P (.three (some a) (some b) (some c)) (.vec k x) := by
  cases k <;> exact h

theorem names_vec_bare {k : VK} {x : k.Idx → ℝ} : Names P (.three none none none) (.vec k x) := by
  cases k <;> trivial

theorem names_point {f : Labels} {p : V3} (h : Names P f (.point p)) :
    f = .two none none ∨ ∃ a b, f = .two (some a) (some b) ∧ p = P.vector a a b := by
  rcases f with ⟨l, r⟩ | ⟨l, m, r⟩
  · rcases l with _ | a <;> rcases r with _ | b
    · exact .inl rfl
    · exact (show False from h).elim
    · exact (show False from h).elim
    · exact .inr ⟨a, b, rfl, h⟩
  · rcases l with _ | a <;> rcases m with _ | b <;> rcases r with _ | c <;> exact h.elim

theorem names_rot {f : Labels} {R : M3} (h : Names P f (.rot R)) :
    f = .two none none ∨ ∃ a b, f = .two (some a) (some b) ∧ R = P.rotation a b := by
  rcases f with ⟨l, r⟩ | ⟨l, m, r⟩
  · rcases l with _ | a <;> rcases r with _ | b
    · exact .inl rfl
    · exact (show False from h).elim
    · exact (show False from h).elim
    · exact .inr ⟨a, b, rfl, h⟩
  · rcases l with _ | a <;> rcases m with _ | b <;> rcases r with _ | c <;> exact h.elim

theorem names_motion {f : Labels} {T : Rigid} (h : Names P f (.motion T)) :
    f = .two none none ∨ ∃ a b, f = .two (some a) (some b) ∧ T = P.motion a b := by
  rcases f with ⟨l, r⟩ | ⟨l, m, r⟩
  · rcases l with _ | a <;> rcases r with _ | b
    · exact .inl rfl
    · exact (show False from h).elim
    · exact (show False from h).elim
    · exact .inr ⟨a, b, rfl, h⟩
  · rcases l with _ | a <;> rcases m with _ | b <;> rcases r with _ | c <;> exact h.elim

theorem proper' (P : Arrangement) (a : ℕ) : (P.pose a).R * (P.pose a).Rᵀ = 1 := (P.proper a).1
theorem proper_t (P : Arrangement) (a : ℕ) : (P.pose a).Rᵀ * (P.pose a).R = 1 :=
  mul_eq_one_comm.mp (P.proper a).1

theorem rotation_comp (P : Arrangement) (a b c : ℕ) :
    P.rotation a b * P.rotation b c = P.rotation a c := by
  unfold Arrangement.rotation
  rw [Matrix.mul_assoc, ← Matrix.mul_assoc (P.pose b).R, proper', Matrix.one_mul]

theorem rotation_self (P : Arrangement) (a : ℕ) : P.rotation a a = 1 := proper_t P a

theorem rotation_inv (P : Arrangement) (a b : ℕ) : (P.rotation a b)⁻¹ = P.rotation b a :=
  Matrix.inv_eq_right_inv (by rw [rotation_comp, rotation_self])

theorem rotation_express (P : Arrangement) (a b : ℕ) (v : V3) :
    P.rotation a b *ᵥ P.express b v = P.express a v := by
  unfold Arrangement.rotation Arrangement.express
  rw [mulVec_mulVec, Matrix.mul_assoc, proper', Matrix.mul_one]

theorem rotation_vector (P : Arrangement) (a b c d : ℕ) :
    P.rotation a b *ᵥ P.vector b c d = P.vector a c d := rotation_express ..

theorem motion_act (P : Arrangement) (a b c : ℕ) :
    (P.motion a b).act (P.vector b b c) = P.vector a a c := by
  unfold Rigid.act Arrangement.motion
  change P.rotation a b *ᵥ P.vector b b c + P.vector a a b = _
  rw [rotation_vector, add_comm, vector_add]

theorem motion_comp (P : Arrangement) (a b c : ℕ) :
    (P.motion a b).comp (P.motion b c) = P.motion a c :=
  Rigid.ext' (rotation_comp ..) (motion_act ..)

theorem vector_self (P : Arrangement) (a b : ℕ) : P.vector a b b = 0 := by
  unfold Arrangement.vector Arrangement.express
  rw [sub_self, mulVec_zero]

theorem vector_eq_zero (P : Arrangement) (a b c : ℕ) : P.vector a b c = 0 ↔ P.origin b = P.origin c := by
  refine ⟨fun h => ?_, fun h => ?_⟩
  · have := congrArg ((P.pose a).R *ᵥ ·) h
    unfold Arrangement.vector Arrangement.express at this
    simp only [mulVec_mulVec, mulVec_zero] at this
    rw [(P.proper a).1, one_mulVec] at this
    exact (sub_eq_zero.mp this).symm
  · unfold Arrangement.vector Arrangement.express
    rw [h, sub_self, mulVec_zero]

theorem motion_self (P : Arrangement) (a : ℕ) : P.motion a a = Rigid.id := by
  exact Rigid.ext' (rotation_self ..) (vector_self ..)

theorem comp_inv_unique {T S U : Rigid} (hT : IsRotation T.R) (h : T.comp S = Rigid.id)
    (h' : T.comp U = Rigid.id) : S = U := by
  have hm : T.Rᵀ * T.R = 1 := mul_eq_one_comm.mp hT.1
  have h1 : T.R * S.R = T.R * U.R :=
    (congrArg Rigid.R h).trans (congrArg Rigid.R h').symm
  have h2 : T.R *ᵥ S.t + T.t = T.R *ᵥ U.t + T.t :=
    (congrArg Rigid.t h).trans (congrArg Rigid.t h').symm
  refine Rigid.ext' ?_ ?_
  · have := congrArg (T.Rᵀ * ·) h1
    simpa only [← Matrix.mul_assoc, hm, Matrix.one_mul] using this
  · have := congrArg (T.Rᵀ *ᵥ ·) (add_right_cancel h2)
    simpa only [mulVec_mulVec, hm, one_mulVec] using this

theorem rotation_proper (P : Arrangement) (a b : ℕ) : IsRotation (P.rotation a b) := by
  unfold Arrangement.rotation
  refine ⟨?_, ?_⟩
  · rw [transpose_mul, transpose_transpose, Matrix.mul_assoc, ← Matrix.mul_assoc (P.pose b).R, proper',
      Matrix.one_mul, proper_t]
  · rw [det_mul, det_transpose, (P.proper a).2, (P.proper b).2, one_mul]

/-! ### Acceptance and kinds -/

theorem good_kind {t : Tree ε} {o : Obj} (h : Good s t o) : o.kindOk t.1 := by
  obtain ⟨τ, p⟩ := t
  obtain ⟨v, -, -, ho⟩ := h
  subst ho
  cases τ
  · rfl
  · rfl
  · exact ⟨_, rfl⟩
  · exact ⟨_, rfl⟩

theorem build_kind (hε : 0 < ε) {e : FExpr} {x : Tree ε} {f : Labels} {o : Obj}
    (hb : e.build ε = some (x, f)) (hm : Means ε s e.erase o) : o.kindOk x.1 := by
  obtain ⟨t, ht, hg⟩ := means_acc hε hm
  rw [build_erase e hb] at ht
  have := good_kind hg
  rw [← Option.some.inj ht] at this
  exact this

theorem wrap3_vec {k : VK} {l m r : Frame} {f : Labels} (h : wrap3 (.vec k) l m r = some f) :
    f = .three l m r := (Option.some.inj h).symm

theorem wrap3_point {l m r : Frame} {f : Labels} (h : wrap3 .point l m r = some f) :
    l = m ∧ f = .two l r := by
  unfold wrap3 at h
  simp only [Ty.three, Bool.false_eq_true, if_false] at h
  split_ifs at h with h1
  exact ⟨h1, (Option.some.inj h).symm⟩

theorem wrap2_two {τ : Ty} {l r : Frame} {f : Labels} (h : wrap2 τ l r = some f) : f = .two l r := by
  unfold wrap2 at h
  split_ifs at h
  exact (Option.some.inj h).symm

/-- Labels claiming nothing, of the shape of the object. -/
theorem names_unframed {f : Labels} {τ : Ty} {o : Obj} (hf : f.fits τ) (hu : Unframed f)
    (hk : o.kindOk τ) : Names P f o := by
  cases o with
  | vec k x =>
    cases hk
    rcases f with ⟨l, r⟩ | ⟨l, m, r⟩
    · cases hf
    · obtain ⟨rfl, rfl, rfl⟩ := hu; exact names_vec_bare
  | point p =>
    cases hk
    rcases f with ⟨l, r⟩ | ⟨l, m, r⟩
    · obtain ⟨rfl, rfl⟩ := hu; trivial
    · cases hf
  | rot R =>
    obtain ⟨k, rfl⟩ := hk
    rcases f with ⟨l, r⟩ | ⟨l, m, r⟩
    · obtain ⟨rfl, rfl⟩ := hu; trivial
    · cases hf
  | motion T =>
    obtain ⟨k, rfl⟩ := hk
    rcases f with ⟨l, r⟩ | ⟨l, m, r⟩
    · obtain ⟨rfl, rfl⟩ := hu; trivial
    · cases hf

theorem names_bare {τ : Ty} {o : Obj} (hk : o.kindOk τ) : Names P (bare τ) o := by
  cases o with
  | vec k x => cases hk; exact names_vec_bare
  | point p => cases hk; trivial
  | rot R => obtain ⟨k, rfl⟩ := hk; trivial
  | motion T => obtain ⟨k, rfl⟩ := hk; trivial

/-- The labels `f` name the sum of what `g` and `h` name (helper). -/
theorem names_sum {k : VK} {f g h : Labels} {x y : k.Idx → ℝ} (hx : Names P f (.vec k x))
    (hy : Names P g (.vec k y)) (hs : sumLabels (.vec k) f g = some h) :
    Names P h (.vec k (x + y)) := by
  unfold sumLabels at hs
  split_ifs at hs with h1 h2
  · cases wrap3_vec hs
    rcases names_vec hx with rfl | ⟨a, b, c, rfl, nx⟩ <;>
      rcases names_vec hy with rfl | ⟨a', b', c', rfl, ny⟩ <;>
      simp only [Labels.left, Labels.middle, Labels.right, reduceCtorEq, false_and,
        Option.some.injEq] at h1 h2 ⊢
    · exact names_vec_bare
    · obtain ⟨rfl, -⟩ := h1
      subst h2
      exact names_vec_mk (nx.add ny)
  · cases wrap3_vec hs
    rcases names_vec hx with rfl | ⟨a, b, c, rfl, nx⟩ <;>
      rcases names_vec hy with rfl | ⟨a', b', c', rfl, ny⟩ <;>
      simp only [Labels.left, Labels.middle, Labels.right, reduceCtorEq, false_and,
        Option.some.injEq, not_true_eq_false] at h1 h2 ⊢
    obtain ⟨rfl, h1⟩ := h1
    obtain rfl := h1.resolve_right h2
    rw [add_comm]
    exact names_vec_mk (ny.add nx)

theorem names_sub {k : VK} {f g h : Labels} {x y : k.Idx → ℝ} (hx : Names P f (.vec k x))
    (hy : Names P g (.vec k y)) (hs : subLabels (.vec k) f g = some h) :
    Names P h (.vec k (x - y)) := by
  unfold subLabels at hs
  split_ifs at hs with h1 h2
  · cases wrap3_vec hs
    rcases names_vec hx with rfl | ⟨a, b, c, rfl, nx⟩ <;>
      rcases names_vec hy with rfl | ⟨a', b', c', rfl, ny⟩ <;>
      simp only [Labels.left, Labels.middle, Labels.right, reduceCtorEq, false_and,
        Option.some.injEq] at h1 h2 ⊢
    · exact names_vec_bare
    · obtain ⟨rfl, -⟩ := h1
      subst h2
      rw [sub_eq_add_neg]
      exact names_vec_mk (nx.add ny.neg)
  · cases wrap3_vec hs
    rcases names_vec hx with rfl | ⟨a, b, c, rfl, nx⟩ <;>
      rcases names_vec hy with rfl | ⟨a', b', c', rfl, ny⟩ <;>
      simp only [Labels.left, Labels.middle, Labels.right, reduceCtorEq, false_and,
        Option.some.injEq, not_true_eq_false] at h1 h2 ⊢
    obtain ⟨rfl, h1⟩ := h1
    obtain rfl := h1.resolve_left h2
    rw [sub_eq_neg_add]
    exact names_vec_mk (ny.neg.add nx)

theorem names_addPV {f g h : Labels} {p v : V3} (hx : Names P f (.point p))
    (hy : Names P g (.vec .trans v)) (hs : sumLabels .point f g = some h) :
    Names P h (.point (p + v)) := by
  unfold sumLabels at hs
  rcases names_point hx with rfl | ⟨a, b, rfl, rfl⟩ <;>
    rcases names_vec hy with rfl | ⟨a', b', c', rfl, ny⟩ <;>
    simp only [Labels.left, Labels.middle, Labels.right, reduceCtorEq, false_and, or_self, and_self,
      if_true, if_false, Option.some.injEq] at hs
  · obtain ⟨-, rfl⟩ := wrap3_point hs; trivial
  · obtain rfl : v = P.vector a' b' c' := ny
    split_ifs at hs with h1 h2
    · obtain ⟨-, rfl⟩ := wrap3_point hs
      obtain ⟨rfl, -⟩ := h1
      subst h2
      exact vector_add ..
    · obtain ⟨h3, rfl⟩ := wrap3_point hs
      obtain ⟨rfl, h1⟩ := h1
      obtain rfl := h1.resolve_right h2
      cases h3
      change P.vector a a b + P.vector a a a = P.vector a a b
      rw [add_comm, vector_add]

theorem names_addVP {f g h : Labels} {p v : V3} (hx : Names P f (.vec .trans v))
    (hy : Names P g (.point p)) (hs : sumLabels .point f g = some h) :
    Names P h (.point (p + v)) := by
  unfold sumLabels at hs
  rcases names_vec hx with rfl | ⟨a', b', c', rfl, nx⟩ <;>
    rcases names_point hy with rfl | ⟨a, b, rfl, rfl⟩ <;>
    simp only [Labels.left, Labels.middle, Labels.right, reduceCtorEq, false_and, or_self, and_self,
      if_true, if_false, Option.some.injEq] at hs
  · obtain ⟨-, rfl⟩ := wrap3_point hs; trivial
  · obtain rfl : v = P.vector a' b' c' := nx
    split_ifs at hs with h1 h2
    · obtain ⟨h3, rfl⟩ := wrap3_point hs
      obtain ⟨rfl, -⟩ := h1
      subst h2
      cases h3
      change P.vector _ _ b + P.vector _ _ _ = P.vector _ _ b
      rw [add_comm, vector_add]
    · obtain ⟨-, rfl⟩ := wrap3_point hs
      obtain ⟨rfl, h1⟩ := h1
      obtain rfl := h1.resolve_right h2
      exact vector_add ..

theorem names_subPP {f g h : Labels} {p q : V3} (hx : Names P f (.point p))
    (hy : Names P g (.point q)) (hs : subLabels (.vec .trans) f g = some h) :
    Names P h (.vec .trans (p - q)) := by
  unfold subLabels at hs
  rcases names_point hx with rfl | ⟨a, b, rfl, rfl⟩ <;>
    rcases names_point hy with rfl | ⟨a', b', rfl, rfl⟩ <;>
    simp only [Labels.left, Labels.middle, Labels.right, reduceCtorEq, false_and, or_self, and_self,
      if_true, if_false, Option.some.injEq] at hs
  · cases wrap3_vec hs; trivial
  · split_ifs at hs with h1 h2
    · obtain ⟨rfl, -⟩ := h1
      subst h2
      cases wrap3_vec hs
      change P.vector a a b - P.vector a a b = P.vector a a a
      rw [sub_eq_add_neg, vector_neg, vector_add]
    · obtain ⟨rfl, h1⟩ := h1
      cases wrap3_vec hs
      change P.vector a a b - P.vector a a b' = P.vector a b' b
      rw [sub_eq_neg_add, vector_neg, vector_add]

theorem names_subPV {f g h : Labels} {p v : V3} (hx : Names P f (.point p))
    (hy : Names P g (.vec .trans v)) (hs : subLabels .point f g = some h) :
    Names P h (.point (p - v)) := by
  unfold subLabels at hs
  rcases names_point hx with rfl | ⟨a, b, rfl, rfl⟩ <;>
    rcases names_vec hy with rfl | ⟨a', b', c', rfl, ny⟩ <;>
    simp only [Labels.left, Labels.middle, Labels.right, reduceCtorEq, false_and, or_self, and_self,
      if_true, if_false, Option.some.injEq] at hs
  · obtain ⟨-, rfl⟩ := wrap3_point hs; trivial
  · obtain rfl : v = P.vector a' b' c' := ny
    split_ifs at hs with h1 h2
    · obtain ⟨-, rfl⟩ := wrap3_point hs
      obtain ⟨rfl, -⟩ := h1
      subst h2
      change P.vector a a b - P.vector a b' b = P.vector a a b'
      rw [sub_eq_add_neg, vector_neg, vector_add]
    · obtain ⟨h3, rfl⟩ := wrap3_point hs
      obtain ⟨rfl, h1⟩ := h1
      obtain rfl := h1.resolve_left h2
      cases h3
      change P.vector a a b - P.vector a a a = P.vector a a b
      rw [sub_eq_neg_add, vector_neg, vector_add]

end WG
