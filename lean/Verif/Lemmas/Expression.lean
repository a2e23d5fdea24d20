import Verif.Lemmas.Sound
import Verif.Lemmas.DynCompile
import Verif.Spec.Expression

namespace WG
open Matrix Spec

variable {ε : ℝ} {s : Memory}

/-- The tree evaluates to a valid value representing `o` (helper). -/
def Good (s : Memory) (t : Tree ε) (o : Obj) : Prop :=
  ∃ v, Expr.eval (L := geoLib ε) s t.2 = some v ∧ Valid t.1 v ∧ obj t.1 v = o

/-- The compiler accepts and the tree is `Good` (helper). -/
def Acc (s : Memory) (x : Option (Tree ε)) (o : Obj) : Prop := ∃ t, x = some t ∧ Good s t o

theorem Good.vec {t : Tree ε} {k : VK} {x : k.Idx → ℝ} (h : Good s t (.vec k x)) :
    ∃ p : Expr (geoLib ε) (.vec k), t = ⟨.vec k, p⟩ ∧ p.eval (L := geoLib ε) s = some x := by
  obtain ⟨τ, p⟩ := t
  obtain ⟨v, e, -, ho⟩ := h
  cases τ <;> simp only [obj, Obj.vec.injEq, reduceCtorEq] at ho
  obtain ⟨rfl, ho⟩ := ho
  cases ho
  exact ⟨p, rfl, e⟩

theorem Good.point {t : Tree ε} {x : V3} (h : Good s t (.point x)) :
    ∃ p : Expr (geoLib ε) .point, t = ⟨.point, p⟩ ∧ p.eval (L := geoLib ε) s = some x := by
  obtain ⟨τ, p⟩ := t
  obtain ⟨v, e, -, ho⟩ := h
  cases τ <;> simp only [obj, Obj.point.injEq, reduceCtorEq] at ho
  cases ho
  exact ⟨p, rfl, e⟩

theorem Good.rot {t : Tree ε} {R : M3} (h : Good s t (.rot R)) :
    ∃ (k : RotK) (p : Expr (geoLib ε) (.rot k)) (v : k.Val), t = ⟨.rot k, p⟩ ∧
      p.eval (L := geoLib ε) s = some v ∧ ValidRot k v ∧ rotDen k v = R := by
  obtain ⟨τ, p⟩ := t
  obtain ⟨v, e, hv, ho⟩ := h
  cases τ <;> simp only [obj, Obj.rot.injEq, reduceCtorEq] at ho
  exact ⟨_, p, v, rfl, e, hv, ho⟩

theorem Good.motion {t : Tree ε} {T : Rigid} (h : Good s t (.motion T)) :
    ∃ (k : RigK) (p : Expr (geoLib ε) (.rigid k)) (v : k.Val), t = ⟨.rigid k, p⟩ ∧
      p.eval (L := geoLib ε) s = some v ∧ ValidRigid k v ∧ rigidDen k v = T := by
  obtain ⟨τ, p⟩ := t
  obtain ⟨v, e, hv, ho⟩ := h
  cases τ <;> simp only [obj, Obj.motion.injEq, reduceCtorEq] at ho
  exact ⟨_, p, v, rfl, e, hv, ho⟩

theorem eval_un {a b : Ty} (n : ℕ) (op : Un a b) (p : Expr (geoLib ε) a) {x : a.Val}
    (h : p.eval (L := geoLib ε) s = some x) :
    (Expr.un (L := geoLib ε) n op p).eval (L := geoLib ε) s = evalUn ε op x := by
  change (p.eval (L := geoLib ε) s).bind _ = _
  rw [h]; rfl

theorem eval_bin {a b c : Ty} (n : ℕ) (op : Bin a b c) (p : Expr (geoLib ε) a)
    (q : Expr (geoLib ε) b) {x : a.Val} {y : b.Val} (h : p.eval (L := geoLib ε) s = some x)
    (h' : q.eval (L := geoLib ε) s = some y) :
    (Expr.bin (L := geoLib ε) n op p q).eval (L := geoLib ε) s = evalBin op x y := by
  change (p.eval (L := geoLib ε) s).bind (fun x => (q.eval (L := geoLib ε) s).bind _) = _
  rw [h, h']; rfl

/-- Build a `Good` tree from a unary operator. -/
theorem good_un {a b : Ty} {n : ℕ} (op : Un a b) {p : Expr (geoLib ε) a} {x : a.Val} {y : b.Val}
    (h : p.eval (L := geoLib ε) s = some x) (e : evalUn ε op x = some y) (hv : Valid b y) :
    Good s (⟨b, Expr.un (L := geoLib ε) n op p⟩ : Tree ε) (obj b y) :=
  ⟨y, (eval_un n op p h).trans e, hv, rfl⟩

theorem good_bin {a b c : Ty} {n : ℕ} (op : Bin a b c) {p : Expr (geoLib ε) a}
    {q : Expr (geoLib ε) b} {x : a.Val} {y : b.Val} {z : c.Val}
    (h : p.eval (L := geoLib ε) s = some x) (h' : q.eval (L := geoLib ε) s = some y)
    (e : evalBin op x y = some z) (hv : Valid c z) :
    Good s (⟨c, Expr.bin (L := geoLib ε) n op p q⟩ : Tree ε) (obj c z) :=
  ⟨z, (eval_bin n op p q h h').trans e, hv, rfl⟩

theorem good_leaf_rot {k : RotK} {p : Expr (geoLib ε) (.rot k)} {v : k.Val}
    (e : p.eval (L := geoLib ε) s = some v) (hv : ValidRot k v) :
    Good s (⟨.rot k, p⟩ : Tree ε) (.rot (rotDen k v)) := ⟨v, e, hv, rfl⟩

theorem good_conv {a : RotK} (b : RotK) {p : Expr (geoLib ε) (.rot a)} {R : M3}
    (h : Good s (⟨.rot a, p⟩ : Tree ε) (.rot R)) :
    Good s (⟨.rot b, Expr.un (L := geoLib ε) 0 (.convRot a b) p⟩ : Tree ε) (.rot R) := by
  obtain ⟨v, e, hv, ho⟩ := h
  obtain ⟨y, hy, hvy, hd⟩ := convRot_sound a b v hv
  refine ⟨y, (eval_un 0 (.convRot a b) p e).trans hy, hvy, ?_⟩
  rw [← ho]
  exact congrArg Obj.rot hd

theorem good_composeQ {p q : Expr (geoLib ε) (.rot .quat)} {R S : M3}
    (h : Good s (⟨.rot .quat, p⟩ : Tree ε) (.rot R))
    (h' : Good s (⟨.rot .quat, q⟩ : Tree ε) (.rot S)) :
    Good s (⟨.rot .quat, Expr.bin (L := geoLib ε) 0 .composeQ p q⟩ : Tree ε) (.rot (R * S)) := by
  obtain ⟨v, e, hv, ho⟩ := h
  obtain ⟨w, e', hw, ho'⟩ := h'
  obtain ⟨z, hz, hvz, hm⟩ := bin_sound .composeQ v w hv hw trivial
  refine ⟨z, (eval_bin 0 .composeQ p q e e').trans hz, hvz, ?_⟩
  cases ho; cases ho'
  exact congrArg Obj.rot hm

theorem good_composeM {p q : Expr (geoLib ε) (.rot .mat)} {R S : M3}
    (h : Good s (⟨.rot .mat, p⟩ : Tree ε) (.rot R))
    (h' : Good s (⟨.rot .mat, q⟩ : Tree ε) (.rot S)) :
    Good s (⟨.rot .mat, Expr.bin (L := geoLib ε) 0 .composeM p q⟩ : Tree ε) (.rot (R * S)) := by
  obtain ⟨v, e, hv, ho⟩ := h
  obtain ⟨w, e', hw, ho'⟩ := h'
  obtain ⟨z, hz, hvz, hm⟩ := bin_sound .composeM v w hv hw trivial
  refine ⟨z, (eval_bin 0 .composeM p q e e').trans hz, hvz, ?_⟩
  cases ho; cases ho'
  exact congrArg Obj.rot hm

theorem good_flipQ {p q : Expr (geoLib ε) (.rot .quat)} {R S : M3}
    (h : Good s (⟨.rot .quat, p⟩ : Tree ε) (.rot R))
    (h' : Good s (⟨.rot .quat, q⟩ : Tree ε) (.rot S)) :
    Good s (⟨.rot .quat, Expr.bin (L := geoLib ε) 0 .flipQ p q⟩ : Tree ε) (.rot (S * R)) := by
  obtain ⟨v, e, hv, ho⟩ := h
  obtain ⟨w, e', hw, ho'⟩ := h'
  obtain ⟨z, hz, hvz, hm⟩ := bin_sound .flipQ v w hv hw trivial
  refine ⟨z, (eval_bin 0 .flipQ p q e e').trans hz, hvz, ?_⟩
  cases ho; cases ho'
  exact congrArg Obj.rot hm

theorem good_flipM {p q : Expr (geoLib ε) (.rot .mat)} {R S : M3}
    (h : Good s (⟨.rot .mat, p⟩ : Tree ε) (.rot R))
    (h' : Good s (⟨.rot .mat, q⟩ : Tree ε) (.rot S)) :
    Good s (⟨.rot .mat, Expr.bin (L := geoLib ε) 0 .flipM p q⟩ : Tree ε) (.rot (S * R)) := by
  obtain ⟨v, e, hv, ho⟩ := h
  obtain ⟨w, e', hw, ho'⟩ := h'
  obtain ⟨z, hz, hvz, hm⟩ := bin_sound .flipM v w hv hw trivial
  refine ⟨z, (eval_bin 0 .flipM p q e e').trans hz, hvz, ?_⟩
  cases ho; cases ho'
  exact congrArg Obj.rot hm

/-- Product of two rotations in any pair of classes. -/
theorem acc_compose {t u : Tree ε} {R S : M3} (h : Good s t (.rot R)) (h' : Good s u (.rot S)) :
    Acc s (elab2 .compose t u) (.rot (R * S)) := by
  obtain ⟨k, p, v, rfl, e, hv, hd⟩ := h.rot
  obtain ⟨l, q, w, rfl, e', hw, hd'⟩ := h'.rot
  cases k <;> cases l
  · exact ⟨_, rfl, good_composeQ h h'⟩
  · exact ⟨_, rfl, good_composeM (good_conv .mat h) h'⟩
  · exact ⟨_, rfl, good_composeQ h (good_conv .quat h')⟩
  · exact ⟨_, rfl, good_composeM h (good_conv .mat h')⟩
  · exact ⟨_, rfl, good_composeM h h'⟩
  · exact ⟨_, rfl, good_composeM h (good_conv .mat h')⟩
  · exact ⟨_, rfl, good_composeQ (good_conv .quat h) h'⟩
  · exact ⟨_, rfl, good_composeM (good_conv .mat h) h'⟩
  · exact ⟨_, rfl, good_composeM (good_conv .mat h) (good_conv .mat h')⟩

/-- Flipped product of two rotations in any pair of classes. -/
theorem acc_flip {t u : Tree ε} {R S : M3} (h : Good s t (.rot R)) (h' : Good s u (.rot S)) :
    Acc s (elab2 .composeFlipped t u) (.rot (S * R)) := by
  obtain ⟨k, p, v, rfl, e, hv, hd⟩ := h.rot
  obtain ⟨l, q, w, rfl, e', hw, hd'⟩ := h'.rot
  cases k <;> cases l
  · exact ⟨_, rfl, good_flipQ h h'⟩
  · exact ⟨_, rfl, good_flipM (good_conv .mat h) h'⟩
  · exact ⟨_, rfl, good_flipQ h (good_conv .quat h')⟩
  · exact ⟨_, rfl, good_flipM h (good_conv .mat h')⟩
  · exact ⟨_, rfl, good_flipM h h'⟩
  · exact ⟨_, rfl, good_flipM h (good_conv .mat h')⟩
  · exact ⟨_, rfl, good_flipQ (good_conv .quat h) h'⟩
  · exact ⟨_, rfl, good_flipM (good_conv .mat h) h'⟩
  · exact ⟨_, rfl, good_flipM (good_conv .mat h) (good_conv .mat h')⟩

theorem good_rotateQ {p : Expr (geoLib ε) (.rot .quat)} {q : Expr (geoLib ε) (.vec .trans)} {R : M3}
    {x : V3} (h : Good s (⟨.rot .quat, p⟩ : Tree ε) (.rot R))
    (h' : q.eval (L := geoLib ε) s = some x) :
    Good s (⟨.vec .trans, Expr.bin (L := geoLib ε) 0 .rotateQ p q⟩ : Tree ε)
      (.vec .trans (R *ᵥ x)) := by
  obtain ⟨v, e, hv, ho⟩ := h
  obtain ⟨z, hz, hvz, hm⟩ := bin_sound .rotateQ v x hv trivial trivial
  refine ⟨z, (eval_bin 0 .rotateQ p q e h').trans hz, hvz, ?_⟩
  cases ho
  exact congrArg (Obj.vec .trans) hm

theorem good_rotateM {p : Expr (geoLib ε) (.rot .mat)} {q : Expr (geoLib ε) (.vec .trans)} {R : M3}
    {x : V3} (h : Good s (⟨.rot .mat, p⟩ : Tree ε) (.rot R))
    (h' : q.eval (L := geoLib ε) s = some x) :
    Good s (⟨.vec .trans, Expr.bin (L := geoLib ε) 0 .rotateM p q⟩ : Tree ε)
      (.vec .trans (R *ᵥ x)) := by
  obtain ⟨v, e, hv, ho⟩ := h
  obtain ⟨z, hz, hvz, hm⟩ := bin_sound .rotateM v x hv trivial trivial
  refine ⟨z, (eval_bin 0 .rotateM p q e h').trans hz, hvz, ?_⟩
  cases ho
  exact congrArg (Obj.vec .trans) hm

theorem acc_rotate {t u : Tree ε} {R : M3} {x : V3} (h : Good s t (.rot R))
    (h' : Good s u (.vec .trans x)) : Acc s (elab2 .rotate t u) (.vec .trans (R *ᵥ x)) := by
  obtain ⟨k, p, v, rfl, e, hv, hd⟩ := h.rot
  obtain ⟨q, rfl, e'⟩ := h'.vec
  cases k
  · exact ⟨_, rfl, good_rotateQ h e'⟩
  · exact ⟨_, rfl, good_rotateM h e'⟩
  · exact ⟨_, rfl, good_rotateM (good_conv .mat h) e'⟩

theorem acc_invRot {t : Tree ε} {R : M3} (h : Good s t (.rot R)) :
    Acc s (elab1 .inverse t) (.rot R⁻¹) := by
  obtain ⟨k, p, v, rfl, e, hv, hd⟩ := h.rot
  obtain ⟨h1, h2⟩ := invRot_sound k v hv
  have hR : R⁻¹ = Rᵀ := by
    have hr := rotDen_rotation hv
    rw [hd] at hr
    exact Matrix.inv_eq_right_inv hr.1
  refine ⟨⟨.rot k, Expr.un (L := geoLib ε) 0 (.invRot k) p⟩, by cases k <;> rfl,
    invRot k v, eval_un 0 (.invRot k) p e, h1, ?_⟩
  rw [hR, ← hd, ← h2]; rfl

theorem lt_pi_of_sqLen {φ : V3} (h : sqLen φ < Real.pi ^ 2) : √(normSq φ) < Real.pi := by
  rw [sqLen_eq] at h
  exact (Real.sqrt_lt' Real.pi_pos).mpr h

theorem logMat_exp (hε : 0 < ε) {φ : V3} (hπ : sqLen φ < Real.pi ^ 2) (h : φ = 0 ∨ ε < sqLen φ) :
    logMat ε (NormedSpace.exp (hat φ)) = some φ := by
  rw [← rodr_exp]
  rcases h with rfl | h
  · rw [rodr_zero, logMat_one hε]
  · refine logMat_rodr ?_ (lt_pi_of_sqLen hπ) (by rwa [sqLen_eq] at h)
    rintro rfl
    simp [sqLen] at h; linarith

theorem acc_logRot (hε : 0 < ε) {t : Tree ε} {φ : V3}
    (h : Good s t (.rot (NormedSpace.exp (hat φ)))) (hπ : sqLen φ < Real.pi ^ 2)
    (hr : φ = 0 ∨ ε < sqLen φ) : Acc s (elab1 .logMap t) (.vec .relrot φ) := by
  obtain ⟨k, p, v, rfl, e, hv, hd⟩ := h.rot
  have key : ∀ q : Expr (geoLib ε) (.rot .mat),
      Good s (⟨.rot .mat, q⟩ : Tree ε) (.rot (NormedSpace.exp (hat φ))) →
      Good s (⟨.vec .relrot, Expr.un (L := geoLib ε) 0 .logRot q⟩ : Tree ε) (.vec .relrot φ) := by
    intro q hq
    obtain ⟨w, e', hw, ho⟩ := hq
    cases ho
    exact ⟨φ, (eval_un 0 .logRot q e').trans (logMat_exp hε hπ hr), trivial, rfl⟩
  cases k
  · exact ⟨_, rfl, key _ (good_conv .mat h)⟩
  · exact ⟨_, rfl, key _ h⟩
  · exact ⟨_, rfl, key _ (good_conv .mat h)⟩

theorem acc_expRot (hε : 0 < ε) {t : Tree ε} {φ : V3} (h : Good s t (.vec .relrot φ))
    (hr : φ = 0 ∨ ε < sqLen φ ^ 2) :
    Acc s (elab1 .expMap t) (.rot (NormedSpace.exp (hat φ))) := by
  obtain ⟨p, rfl, e⟩ := h.vec
  obtain ⟨q, hq, hvq, hm⟩ := un_sound hε .expRel φ trivial hr
  refine ⟨_, rfl, q, (eval_un 0 .expRel p e).trans hq, hvq, ?_⟩
  exact congrArg Obj.rot hm

theorem vmat_zero : vmat 0 = 1 := by
  unfold vmat
  simp [crossMatrix_zero]

theorem motion_exp_iff (T : Rigid) (x : Twist) :
    T.hom = NormedSpace.exp (twistMat x) ↔ T.R = rodr x.rot ∧ T.t = vmat x.rot *ᵥ x.trans := by
  have hb : NormedSpace.exp (blk (crossMatrix x.rot) x.trans) =
      mk4 (rodr x.rot) (vmat x.rot *ᵥ x.trans) := by
    by_cases h : x.rot = 0
    · rw [h, crossMatrix_zero, exp_blk_zero, rodr_zero, vmat_zero, one_mulVec]
    · exact exp_blk h _
  rw [hom_eq_exp_iff, hb]
  constructor
  · intro e
    have h1 := congrArg rotBlock e
    have h2 := congrArg transBlock e
    simp only [rotBlock_mk4, transBlock_mk4] at h1 h2
    exact ⟨h1, h2⟩
  · rintro ⟨h1, h2⟩
    rw [h1, h2]

theorem Rigid.ext' {S T : Rigid} (h : S.R = T.R) (h' : S.t = T.t) : S = T := by
  cases S; cases T; cases h; cases h'; rfl

theorem acc_expMotion (hε : 0 < ε) {t : Tree ε} {ξ : Twist} {T : Rigid} (h : Good s t (.vec .twist ξ))
    (hT : T.hom = NormedSpace.exp (twistMat ξ)) (hr : angular ξ = 0 ∨ ε < sqLen (angular ξ)) :
    Acc s (elab1 .expMap t) (.motion T) := by
  obtain ⟨p, rfl, e⟩ := h.vec
  obtain ⟨m, hm, hvm, hu⟩ := un_sound hε .expTwist ξ trivial hr
  refine ⟨_, rfl, m, (eval_un 0 .expTwist p e).trans hm, hvm, ?_⟩
  have h1 := (motion_exp_iff _ _).mp hT
  have h2 := (motion_exp_iff (rigidDen .mat m) ξ).mp hu
  exact congrArg Obj.motion (Rigid.ext' (h2.1.trans h1.1.symm) (h2.2.trans h1.2.symm))

theorem logRigid_motion (hε : 0 < ε) {T : Rigid} {ξ : Twist}
    (hT : T.hom = NormedSpace.exp (twistMat ξ)) (hπ : sqLen (angular ξ) < Real.pi ^ 2)
    (hr : angular ξ = 0 ∨ ε < sqLen (angular ξ)) : logRigid ε T.R T.t = some ξ := by
  obtain ⟨h1, h2⟩ := (motion_exp_iff _ _).mp hT
  rw [h1, h2]
  rcases hr with h0 | h
  · have h0' : ξ.rot = 0 := h0
    rw [h0', rodr_zero, vmat_zero, one_mulVec]
    unfold logRigid logTrans
    rw [logMat_one hε]
    simp only [Option.bind_eq_bind, Option.bind_some]
    rw [if_neg (by simp [normSq]; exact hε.le)]
    simp only [crossMatrix_zero, smul_zero, sub_zero, one_mulVec, Option.bind_some]
    rw [← h0', Twist.mk_eta]
  · exact logRigid_exp hε (by rwa [sqLen_eq] at h) (lt_pi_of_sqLen hπ)

theorem acc_logMotion (hε : 0 < ε) {t : Tree ε} {T : Rigid} {ξ : Twist} (h : Good s t (.motion T))
    (hT : T.hom = NormedSpace.exp (twistMat ξ)) (hπ : sqLen (angular ξ) < Real.pi ^ 2)
    (hr : angular ξ = 0 ∨ ε < sqLen (angular ξ)) : Acc s (elab1 .logMap t) (.vec .twist ξ) := by
  obtain ⟨k, p, v, rfl, e, hv, hd⟩ := h.motion
  have hl := logRigid_motion hε hT hπ hr
  rw [← hd, rigidDen_eq k v hv] at hl
  exact ⟨⟨.vec .twist, Expr.un (L := geoLib ε) 0 (.logRigid k) p⟩, rfl, ξ,
    (eval_un 0 (.logRigid k) p e).trans hl, trivial, rfl⟩

theorem acc_invMotion {t : Tree ε} {T S : Rigid} (h : Good s t (.motion T))
    (hS : T.comp S = Rigid.id) : Acc s (elab1 .inverse t) (.motion S) := by
  obtain ⟨k, p, v, rfl, e, hv, hd⟩ := h.motion
  obtain ⟨h1, h2⟩ := invRigid_sound k v hv
  refine ⟨⟨.rigid k, Expr.un (L := geoLib ε) 0 (.invRigid k) p⟩, rfl, invRigid k v,
    eval_un 0 (.invRigid k) p e, h1, congrArg Obj.motion ?_⟩
  rw [h2, hd]
  have hr : IsRotation T.R := by
    have := validRigid_rotation k v hv
    rw [rigidDen_eq k v hv] at hd
    rw [← hd]; exact this
  have e1 : T.R * S.R = 1 := congrArg Rigid.R hS
  have e2 : T.R *ᵥ S.t + T.t = 0 := congrArg Rigid.t hS
  have e3 := Spec.IsRotation.transpose_mul_self hr
  refine Rigid.ext' ?_ ?_
  · change T.Rᵀ = S.R
    calc T.Rᵀ = T.Rᵀ * (T.R * S.R) := by rw [e1, mul_one]
      _ = S.R := by rw [← mul_assoc, e3, one_mul]
  · change -(T.Rᵀ *ᵥ T.t) = S.t
    have e4 : T.t = -(T.R *ᵥ S.t) := (neg_eq_of_add_eq_zero_right e2).symm
    rw [e4, mulVec_neg, neg_neg, mulVec_mulVec, e3, one_mulVec]

theorem acc_mulMotion {t u : Tree ε} {T S : Rigid} (h : Good s t (.motion T))
    (h' : Good s u (.motion S)) : Acc s (elab2 .compose t u) (.motion (T.comp S)) := by
  obtain ⟨k, p, v, rfl, e, hv, hd⟩ := h.motion
  obtain ⟨l, q, w, rfl, e', hw, hd'⟩ := h'.motion
  obtain ⟨z, hz, hvz, hm⟩ := composeRigid_sound k l v w hv hw
  refine ⟨⟨.rigid l, Expr.bin (L := geoLib ε) 0 (.composeRigid k l) p q⟩, rfl, z,
    (eval_bin 0 (.composeRigid k l) p q e e').trans hz, hvz, congrArg Obj.motion ?_⟩
  rw [hm, hd, hd']

theorem acc_flipMotion {t u : Tree ε} {T S : Rigid} (h : Good s t (.motion T))
    (h' : Good s u (.motion S)) : Acc s (elab2 .composeFlipped t u) (.motion (S.comp T)) := by
  obtain ⟨k, p, v, rfl, e, hv, hd⟩ := h.motion
  obtain ⟨l, q, w, rfl, e', hw, hd'⟩ := h'.motion
  obtain ⟨z, hz, hvz, hm⟩ := composeRigid_sound l k w v hw hv
  refine ⟨⟨.rigid k, Expr.bin (L := geoLib ε) 0 (.flipRigid k l) p q⟩, rfl, z,
    (eval_bin 0 (.flipRigid k l) p q e e').trans hz, hvz, congrArg Obj.motion ?_⟩
  rw [hm, hd, hd']

theorem acc_act {t u : Tree ε} {T : Rigid} {x : V3} (h : Good s t (.motion T))
    (h' : Good s u (.vec .trans x)) : Acc s (elab2 .transform t u) (.vec .trans (T.act x)) := by
  obtain ⟨k, p, v, rfl, e, hv, hd⟩ := h.motion
  obtain ⟨q, rfl, e'⟩ := h'.vec
  obtain ⟨z, hz, hvz, hm⟩ := bin_sound (.transform k) v x hv trivial trivial
  refine ⟨⟨.vec .trans, Expr.bin (L := geoLib ε) 0 (.transform k) p q⟩, rfl, z,
    (eval_bin 0 (.transform k) p q e e').trans hz, hvz, congrArg (Obj.vec .trans) ?_⟩
  rw [← hd]; exact hm

theorem acc_rotation (hε : 0 < ε) {t : Tree ε} {T : Rigid} (h : Good s t (.motion T)) :
    Acc s (elab1 .rotation t) (.rot T.R) := by
  obtain ⟨k, p, v, rfl, e, hv, hd⟩ := h.motion
  obtain ⟨z, hz, hvz, hm⟩ := un_sound hε (.getRot k) v hv trivial
  refine ⟨⟨.rot k.rotK, Expr.un (L := geoLib ε) 0 (.getRot k) p⟩, rfl, z,
    (eval_un 0 (.getRot k) p e).trans hz, hvz, congrArg Obj.rot ?_⟩
  rw [← hd]; exact hm

theorem acc_translation (hε : 0 < ε) {t : Tree ε} {T : Rigid} (h : Good s t (.motion T)) :
    Acc s (elab1 .translation t) (.vec .trans T.t) := by
  obtain ⟨k, p, v, rfl, e, hv, hd⟩ := h.motion
  obtain ⟨z, hz, hvz, hm⟩ := un_sound hε (.getTrans k) v hv trivial
  refine ⟨⟨.vec .trans, Expr.un (L := geoLib ε) 0 (.getTrans k) p⟩, rfl, z,
    (eval_un 0 (.getTrans k) p e).trans hz, hvz, congrArg (Obj.vec .trans) ?_⟩
  rw [← hd]; exact hm

theorem acc_rotationRot {t : Tree ε} {R : M3} (h : Good s t (.rot R)) :
    Acc s (elabUn .rotation t) (.rot R) := by
  obtain ⟨k, p, v, rfl, e, hv, hd⟩ := h.rot
  exact ⟨_, rfl, h⟩

theorem acc_translationRot (hε : 0 < ε) {t : Tree ε} {R : M3} (h : Good s t (.rot R)) :
    Acc s (elab1 .translation t) (.vec .trans 0) := by
  obtain ⟨k, p, v, rfl, e, hv, hd⟩ := h.rot
  obtain ⟨z, hz, hvz, hm⟩ := un_sound hε (.zeroTrans k) v hv trivial
  exact ⟨⟨.vec .trans, Expr.un (L := geoLib ε) 0 (.zeroTrans k) p⟩, rfl, z,
    (eval_un 0 (.zeroTrans k) p e).trans hz, hvz, congrArg (Obj.vec .trans) hm⟩

theorem acc_to {t : Tree ε} {o : Obj} {τ : Ty} (h : Good s t o) (hk : o.kindOk τ) :
    Acc s (elabTo τ t) o := by
  by_cases ht : t.1 = τ
  · subst ht
    exact ⟨t, by simp [elabTo], h⟩
  · have hel : elabTo τ t = (conv1 t.1 τ).map fun op => ⟨τ, .un 0 op t.2⟩ := by
      unfold elabTo; rw [dif_neg ht]
    rw [hel]
    cases o with
    | vec k x =>
      obtain ⟨p, rfl, e⟩ := h.vec
      exact absurd hk.symm ht
    | point x =>
      obtain ⟨p, rfl, e⟩ := h.point
      exact absurd hk.symm ht
    | rot R =>
      obtain ⟨k, p, v, rfl, e, hv, hd⟩ := h.rot
      obtain ⟨l, rfl⟩ := hk
      exact ⟨_, rfl, good_conv l h⟩
    | motion T =>
      obtain ⟨k, p, v, rfl, e, hv, hd⟩ := h.motion
      obtain ⟨l, rfl⟩ := hk
      obtain ⟨y, hy, hvy, hd'⟩ := convRigid_sound k l v hv
      exact ⟨_, rfl, y, (eval_un 0 (.convRigid k l) p e).trans hy, hvy,
        congrArg Obj.motion (hd'.trans hd)⟩

theorem Acc.bind1 {x : Option (Tree ε)} {o o' : Obj} {f : Tree ε → Option (Tree ε)} (h : Acc s x o)
    (hf : ∀ t, Good s t o → Acc s (f t) o') : Acc s (x.bind f) o' := by
  obtain ⟨t, rfl, ht⟩ := h
  exact hf t ht

theorem Acc.bind2 {x y : Option (Tree ε)} {o o' o'' : Obj} {f : Tree ε → Tree ε → Option (Tree ε)}
    (h : Acc s x o) (h' : Acc s y o') (hf : ∀ t u, Good s t o → Good s u o' → Acc s (f t u) o'') :
    Acc s (x.bind fun t => y.bind fun u => f t u) o'' := by
  obtain ⟨t, rfl, ht⟩ := h
  obtain ⟨u, rfl, hu⟩ := h'
  exact hf t u ht hu

/-- Helper for vector-valued binary operators. -/
theorem acc_bin {a b c : Ty} {x : Option (Tree ε)} {p : Expr (geoLib ε) a} {q : Expr (geoLib ε) b}
    (op : Bin a b c) (hx : x = some ⟨c, Expr.bin (L := geoLib ε) 0 op p q⟩)
    {v : a.Val} {w : b.Val} {z : c.Val} {o : Obj} (h : p.eval (L := geoLib ε) s = some v)
    (h' : q.eval (L := geoLib ε) s = some w) (e : evalBin op v w = some z) (hv : Valid c z)
    (ho : obj c z = o) : Acc s x o :=
  ⟨_, hx, z, (eval_bin 0 op p q h h').trans e, hv, ho⟩

theorem acc_un {a b : Ty} {x : Option (Tree ε)} {p : Expr (geoLib ε) a}
    (op : Un a b) (hx : x = some ⟨b, Expr.un (L := geoLib ε) 0 op p⟩)
    {v : a.Val} {z : b.Val} {o : Obj} (h : p.eval (L := geoLib ε) s = some v)
    (e : evalUn ε op v = some z) (hv : Valid b z)
    (ho : obj b z = o) : Acc s x o :=
  ⟨_, hx, z, (eval_un 0 op p h).trans e, hv, ho⟩

theorem vec_scalar_ext {x y : Fin 1 → ℝ} (h : x 0 = y 0) : x = y := by
  funext i
  rw [Subsingleton.elim i 0]; exact h

theorem elab1_sqNorm {k : VK} (hk : k ≠ .scalar) (p : Expr (geoLib ε) (.vec k)) :
    elab1 .sqNorm (⟨.vec k, p⟩ : Tree ε) = some ⟨.vec .scalar, .un 0 (.sqNorm k) p⟩ := by
  cases k <;> first | rfl | exact absurd rfl hk

theorem elab1_norm {k : VK} (hk : k ≠ .scalar) (p : Expr (geoLib ε) (.vec k)) :
    elab1 .norm (⟨.vec k, p⟩ : Tree ε) = some ⟨.vec .scalar, .un 0 (.norm k) p⟩ := by
  cases k <;> first | rfl | exact absurd rfl hk

theorem elab1_normalize {k : VK} (hk : k ≠ .scalar) (p : Expr (geoLib ε) (.vec k)) :
    elab1 .normalize (⟨.vec k, p⟩ : Tree ε) = some ⟨.vec k, .un 0 (.normalize k) p⟩ := by
  cases k <;> first | rfl | exact absurd rfl hk

theorem elab2_dot {k : VK} (hk : k ≠ .scalar) (p q : Expr (geoLib ε) (.vec k)) :
    elab2 .dot (⟨.vec k, p⟩ : Tree ε) ⟨.vec k, q⟩ = some ⟨.vec .scalar, .bin 0 (.dot k) p q⟩ := by
  cases k <;> first | rfl | exact absurd rfl hk

theorem means_acc (hε : 0 < ε) {e : SExpr} {o : Obj} (h : Means ε s e o) : Acc s (e.elab ε) o := by
  induction h with
  | leaf a c τ hv => exact ⟨_, rfl, s a τ, rfl, hv, rfl⟩
  | dynamic a hw _ ih =>
    obtain ⟨t, ht, v, hv⟩ := ih
    exact ⟨⟨t.1, .proxy a t.2⟩, elab_dynamic_of ht hw, v, hv⟩
  | evalTo τ _ hk ih => exact ih.bind1 fun t ht => acc_to ht hk
  | neg _ ih =>
    refine ih.bind1 fun t ht => ?_
    obtain ⟨p, rfl, e⟩ := ht.vec
    exact acc_un (.minus _) rfl e rfl trivial rfl
  | squaredNorm _ hk ih =>
    refine ih.bind1 fun t ht => ?_
    obtain ⟨p, rfl, e⟩ := ht.vec
    exact acc_un (.sqNorm _) (elab1_sqNorm hk _) e rfl trivial rfl
  | norm _ hk ih =>
    refine ih.bind1 fun t ht => ?_
    obtain ⟨p, rfl, e⟩ := ht.vec
    exact acc_un (.norm _) (elab1_norm hk _) e rfl trivial rfl
  | @normalized e k x _ hk ih =>
    refine ih.bind1 fun t ht => ?_
    obtain ⟨p, rfl, e⟩ := ht.vec
    refine acc_un (.normalize _) (elab1_normalize hk _) e rfl trivial ?_
    refine congrArg (Obj.vec k) ?_
    unfold vNormalize vSqNorm
    split_ifs with h0
    · funext i
      simp [vNorm, vSqNorm, div_eq_inv_mul]
    · have h0' : x = 0 := dot_self_eq_zero.mp (le_antisymm (not_lt.mp h0) (dot_self_nonneg x))
      rw [h0', smul_zero]
  | @acos e x _ h1 h2 ih =>
    refine ih.bind1 fun t ht => ?_
    obtain ⟨p, rfl, e⟩ := ht.vec
    refine acc_un .acos rfl e (z := fun _ => Real.arccos (x 0)) ?_ trivial rfl
    change (sACos (x 0)).map sc = _
    unfold sACos racos
    rw [if_pos ⟨h1, h2⟩]; rfl
  | @addVec _ _ k _ _ _ _ ih ih' =>
    refine ih.bind2 ih' fun t u ht hu => ?_
    obtain ⟨p, rfl, e⟩ := ht.vec
    obtain ⟨q, rfl, e'⟩ := hu.vec
    cases k <;> exact acc_bin (.sum _) rfl e e' rfl trivial rfl
  | @subVec _ _ k _ _ _ _ ih ih' =>
    refine ih.bind2 ih' fun t u ht hu => ?_
    obtain ⟨p, rfl, e⟩ := ht.vec
    obtain ⟨q, rfl, e'⟩ := hu.vec
    cases k <;> exact acc_bin (.sub _) rfl e e' rfl trivial rfl
  | @mulScalarVec _ _ k x y _ _ ih ih' =>
    refine ih.bind2 ih' fun t u ht hu => ?_
    obtain ⟨p, rfl, e⟩ := ht.vec
    obtain ⟨q, rfl, e'⟩ := hu.vec
    cases k
    · refine acc_bin .product rfl e e' rfl trivial (congrArg (Obj.vec _) ?_)
      exact vec_scalar_ext rfl
    all_goals exact acc_bin (.scale _) rfl e e' rfl trivial rfl
  | @mulVecScalar _ _ k x y _ _ ih ih' =>
    refine ih.bind2 ih' fun t u ht hu => ?_
    obtain ⟨p, rfl, e⟩ := ht.vec
    obtain ⟨q, rfl, e'⟩ := hu.vec
    cases k
    · refine acc_bin .product rfl e e' rfl trivial (congrArg (Obj.vec _) ?_)
      exact vec_scalar_ext (mul_comm _ _)
    all_goals
      refine acc_bin (.scaleR _) rfl e e' rfl trivial (congrArg (Obj.vec _) ?_)
      funext i
      exact mul_comm _ _
  | @divVec _ _ k x y _ _ h0 ih ih' =>
    refine ih.bind2 ih' fun t u ht hu => ?_
    obtain ⟨p, rfl, e⟩ := ht.vec
    obtain ⟨q, rfl, e'⟩ := hu.vec
    cases k
    · refine acc_bin .divide rfl e e' (z := (y 0)⁻¹ • x) ?_ trivial rfl
      change (sDivide (x 0) (y 0)).map sc = _
      unfold sDivide rdiv
      rw [if_neg h0]
      refine congrArg some (vec_scalar_ext ?_)
      exact div_eq_inv_mul _ _
    all_goals
      refine acc_bin (.scaleDiv _) rfl e e' (z := (y 0)⁻¹ • x) ?_ trivial rfl
      change vScaleDiv x (y 0) = _
      unfold vScaleDiv
      rw [if_neg h0]
      refine congrArg some ?_
      funext i
      exact div_eq_inv_mul _ _
  | @dot _ _ k _ _ _ _ hk ih ih' =>
    refine ih.bind2 ih' fun t u ht hu => ?_
    obtain ⟨p, rfl, e⟩ := ht.vec
    obtain ⟨q, rfl, e'⟩ := hu.vec
    exact acc_bin (.dot _) (elab2_dot hk _ _) e e' rfl trivial rfl
  | addPointVec _ _ ih ih' =>
    refine ih.bind2 ih' fun t u ht hu => ?_
    obtain ⟨p, rfl, e⟩ := ht.point
    obtain ⟨q, rfl, e'⟩ := hu.vec
    exact acc_bin .sumPV rfl e e' rfl trivial rfl
  | addVecPoint _ _ ih ih' =>
    refine ih.bind2 ih' fun t u ht hu => ?_
    obtain ⟨p, rfl, e⟩ := ht.vec
    obtain ⟨q, rfl, e'⟩ := hu.point
    exact acc_bin .sumVP rfl e e' rfl trivial (congrArg Obj.point (add_comm _ _))
  | subPoint _ _ ih ih' =>
    refine ih.bind2 ih' fun t u ht hu => ?_
    obtain ⟨p, rfl, e⟩ := ht.point
    obtain ⟨q, rfl, e'⟩ := hu.point
    exact acc_bin .subPP rfl e e' rfl trivial rfl
  | subPointVec _ _ ih ih' =>
    refine ih.bind2 ih' fun t u ht hu => ?_
    obtain ⟨p, rfl, e⟩ := ht.point
    obtain ⟨q, rfl, e'⟩ := hu.vec
    exact acc_bin .subPV rfl e e' rfl trivial rfl
  | inverseRot _ ih => exact ih.bind1 fun t ht => acc_invRot ht
  | mulRot _ _ ih ih' =>
    refine ih.bind2 ih' fun t u ht hu => ?_
    have := acc_compose ht hu
    obtain ⟨k, p, v, rfl, -⟩ := ht.rot
    obtain ⟨l, q, w, rfl, -⟩ := hu.rot
    exact this
  | rotate _ _ ih ih' =>
    refine ih.bind2 ih' fun t u ht hu => ?_
    have := acc_rotate ht hu
    obtain ⟨k, p, v, rfl, -⟩ := ht.rot
    obtain ⟨q, rfl, e'⟩ := hu.vec
    exact this
  | expRot _ hr ih => exact ih.bind1 fun t ht => acc_expRot hε ht hr
  | logRot _ hπ hr ih => exact ih.bind1 fun t ht => acc_logRot hε ht hπ hr
  | boxPlusRot _ _ hr ih ih' =>
    refine ih.bind2 ih' fun t u ht hu => ?_
    have := (acc_expRot hε hu hr).bind1 (f := elab2 .composeFlipped t) fun w hw => acc_flip ht hw
    obtain ⟨k, p, v, rfl, -⟩ := ht.rot
    obtain ⟨q, rfl, e'⟩ := hu.vec
    exact this
  | @boxMinusRot _ _ R S φ _ _ hR hπ hr ih ih' =>
    refine ih.bind2 ih' fun t u ht hu => ?_
    have hS : IsRotation S := by
      obtain ⟨l, q, w, -, -, hw, rfl⟩ := hu.rot
      exact rotDen_rotation hw
    have h1 : R * S⁻¹ = NormedSpace.exp (hat φ) := by
      rw [hR, mul_assoc, Matrix.inv_eq_right_inv hS.1, hS.1, mul_one]
    have := ((acc_invRot hu).bind1 (f := elab2 .compose t) fun w hw => acc_compose ht hw).bind1
      (f := elab1 .logMap) fun w hw => acc_logRot hε (h1 ▸ hw) hπ hr
    obtain ⟨k, p, v, rfl, -⟩ := ht.rot
    obtain ⟨l, q, w, rfl, -⟩ := hu.rot
    exact this
  | inverseMotion _ hS ih => exact ih.bind1 fun t ht => acc_invMotion ht hS
  | mulMotion _ _ ih ih' =>
    refine ih.bind2 ih' fun t u ht hu => ?_
    have := acc_mulMotion ht hu
    obtain ⟨k, p, v, rfl, -⟩ := ht.motion
    obtain ⟨l, q, w, rfl, -⟩ := hu.motion
    exact this
  | act _ _ ih ih' =>
    refine ih.bind2 ih' fun t u ht hu => ?_
    have := acc_act ht hu
    obtain ⟨k, p, v, rfl, -⟩ := ht.motion
    obtain ⟨q, rfl, e'⟩ := hu.vec
    exact this
  | rotationRot _ ih => exact ih.bind1 fun t ht => acc_rotationRot ht
  | translationRot _ ih => exact ih.bind1 fun t ht => acc_translationRot hε ht
  | rotation _ ih =>
    refine ih.bind1 fun t ht => ?_
    have := acc_rotation hε ht
    obtain ⟨k, p, v, rfl, -⟩ := ht.motion
    exact this
  | translation _ ih => exact ih.bind1 fun t ht => acc_translation hε ht
  | expMotion _ hT hr ih => exact ih.bind1 fun t ht => acc_expMotion hε ht hT hr
  | logMotion _ hT hπ hr ih => exact ih.bind1 fun t ht => acc_logMotion hε ht hT hπ hr
  | boxPlusMotion _ _ hD hr ih ih' =>
    refine ih.bind2 ih' fun t u ht hu => ?_
    have := (acc_expMotion hε hu hD hr).bind1 (f := elab2 .composeFlipped t)
      fun w hw => acc_flipMotion ht hw
    obtain ⟨k, p, v, rfl, -⟩ := ht.motion
    obtain ⟨q, rfl, e'⟩ := hu.vec
    exact this
  | @boxMinusMotion _ _ T S ξ D _ _ hT hD hπ hr ih ih' =>
    refine ih.bind2 ih' fun t u ht hu => ?_
    have hS : IsRotation S.R := by
      obtain ⟨l, q, w, -, -, hw, rfl⟩ := hu.motion
      have := validRigid_rotation l w hw
      rwa [rigidDen_eq l w hw]
    let S' : Rigid := ⟨S.Rᵀ, -(S.Rᵀ *ᵥ S.t)⟩
    have h0 : S.comp S' = Rigid.id := by
      refine Rigid.ext' hS.1 ?_
      change S.R *ᵥ -(S.Rᵀ *ᵥ S.t) + S.t = 0
      rw [mulVec_neg, mulVec_mulVec, hS.1, one_mulVec, neg_add_cancel]
    have h1 : T.comp S' = D := by
      rw [hT]
      refine Rigid.ext' ?_ ?_
      · change D.R * S.R * S.Rᵀ = D.R
        rw [mul_assoc, hS.1, mul_one]
      · change (D.R * S.R) *ᵥ -(S.Rᵀ *ᵥ S.t) + (D.R *ᵥ S.t + D.t) = D.t
        rw [mulVec_neg, mulVec_mulVec, mul_assoc, hS.1, mul_one, ← add_assoc, neg_add_cancel,
          zero_add]
    have := ((acc_invMotion hu h0).bind1 (f := elab2 .compose t)
      fun w hw => acc_mulMotion ht hw).bind1
      (f := elab1 .logMap) fun w hw => acc_logMotion hε (h1 ▸ hw) hD hπ hr
    obtain ⟨k, p, v, rfl, -⟩ := ht.motion
    obtain ⟨l, q, w, rfl, -⟩ := hu.motion
    exact this

end WG
