import Verif.Lemmas.Expression
import Verif.Lemmas.Jac
import Verif.Spec.Regular
import Verif.Spec.Written

/-! The tree built for a user expression that has a meaning is at a regular point, and contains
exactly the objects the user wrote. -/

namespace WG
open Matrix Spec

variable {ε : ℝ} {s : Memory}

/-- A choice the search for conversions can make for an operand. -/
def SideOk {a : Ty} (w : Side a) : Prop := w = .stay ∨ w ∈ sides a

theorem elab1_form {t : Tag1} {x y : Tree ε} (h : elab1 t x = some y) :
    ∃ (w : Side x.1) (r : (b : Ty) × Un w.ty b), SideOk w ∧ direct1 t w.ty = some r ∧
      y = ⟨r.1, Expr.un (L := geoLib ε) 0 r.2 (w.apply x.2)⟩ := by
  unfold elab1 firstConv1 at h
  obtain ⟨w, hw, hr⟩ := List.exists_of_findSome?_eq_some h
  obtain ⟨r, h1, h2⟩ := Option.map_eq_some_iff.mp hr
  exact ⟨w, r, List.mem_cons.mp hw, h1, h2.symm⟩

theorem elab2_form {t : Tag2} {x y z : Tree ε} (h : elab2 t x y = some z) :
    ∃ (w : Side x.1) (u : Side y.1) (r : (c : Ty) × Bin w.ty u.ty c), SideOk w ∧ SideOk u ∧
      direct2 t w.ty u.ty = some r ∧
      z = ⟨r.1, Expr.bin (L := geoLib ε) 0 r.2 (w.apply x.2) (u.apply y.2)⟩ := by
  unfold elab2 firstConv2 at h
  obtain ⟨⟨w, u⟩, hw, hr⟩ := List.exists_of_findSome?_eq_some h
  obtain ⟨r, h1, h2⟩ := Option.map_eq_some_iff.mp hr
  have : SideOk w ∧ SideOk u := by
    simp only [List.cons_append, List.mem_cons, List.mem_append, List.mem_map, Prod.mk.injEq,
      List.mem_flatMap] at hw
    unfold SideOk
    rcases hw with ⟨h, h'⟩ | (⟨a, ha, h, h'⟩ | ⟨a, ha, h, h'⟩) | ⟨a, ha, b, hb, h, h'⟩
    · exact ⟨.inl h, .inl h'⟩
    · exact ⟨.inl h.symm, .inr (h' ▸ ha)⟩
    · exact ⟨.inr (h ▸ ha), .inl h'.symm⟩
    · exact ⟨.inr (h ▸ ha), .inr (h' ▸ hb)⟩
  exact ⟨w, u, r, this.1, this.2, h1, h2.symm⟩

theorem side_conv {a : Ty} {w : Side a} (h : SideOk w) :
    w = .stay ∨ ∃ b op, w = .via b op ∧ conv1 a b = some op := by
  rcases h with h | h
  · exact .inl h
  · right
    unfold sides at h
    obtain ⟨b, -, hb⟩ := List.mem_filterMap.mp h
    obtain ⟨op, h1, h2⟩ := Option.map_eq_some_iff.mp hb
    exact ⟨b, op, h2.symm, h1⟩

theorem conv_regular {a b : Ty} {op : Un a b} (h : conv1 a b = some op) (x : Den a) :
    RegularUn ε op x := by
  unfold conv1 at h
  split at h <;> cases h <;> trivial

theorem side_objects {a : Ty} {w : Side a} (x : Expr (geoLib ε) a) : objects (w.apply x) = objects x := by
  cases w <;> rfl

theorem side_regular {a : Ty} {w : Side a} (h : SideOk w) {x : Expr (geoLib ε) a}
    (hx : RegularAt ε s x) : RegularAt ε s (w.apply x) := by
  rcases side_conv h with rfl | ⟨b, op, rfl, ho⟩
  · exact hx
  · exact ⟨hx, fun v _ => conv_regular ho _⟩

theorem direct1_regular {t : Tag1} {a : Ty} {r : (b : Ty) × Un a b} (h : direct1 t a = some r)
    (ht : t ≠ .acos ∧ t ≠ .expMap ∧ t ≠ .logMap) (x : Den a) : RegularUn ε r.2 x := by
  unfold direct1 at h
  split at h <;> first | (cases h; trivial) | (cases h; done) | exact absurd rfl ht.1 | exact absurd rfl ht.2.1 |
    exact absurd rfl ht.2.2

theorem direct2_regular {t : Tag2} {a b : Ty} {r : (c : Ty) × Bin a b c} (h : direct2 t a b = some r)
    (ht : t ≠ .scaleDiv ∧ t ≠ .divide) (x : Den a) (y : Den b) : RegularBin r.2 x y := by
  unfold direct2 at h
  split at h <;> first | (cases h; trivial) | (cases h; done) | exact absurd rfl ht.1 | exact absurd rfl ht.2

theorem reg1 {t : Tag1} {x y : Tree ε} (h : elab1 t x = some y) (hx : RegularAt ε s x.2)
    (ht : t ≠ .acos ∧ t ≠ .expMap ∧ t ≠ .logMap) : RegularAt ε s y.2 := by
  obtain ⟨w, r, hw, hr, rfl⟩ := elab1_form h
  exact ⟨side_regular hw hx, fun v _ => direct1_regular hr ht _⟩

theorem reg2 {t : Tag2} {x y z : Tree ε} (h : elab2 t x y = some z) (hx : RegularAt ε s x.2)
    (hy : RegularAt ε s y.2) (ht : t ≠ .scaleDiv ∧ t ≠ .divide) : RegularAt ε s z.2 := by
  obtain ⟨w, u, r, hw, hu, hr, rfl⟩ := elab2_form h
  exact ⟨side_regular hw hx, side_regular hu hy, fun v v' _ _ => direct2_regular hr ht _ _⟩

theorem angle_exp_regular {φ : V3} (hπ : sqLen φ < Real.pi ^ 2) (hr : φ = 0 ∨ ε < sqLen φ) :
    rodr φ = 1 ∨ (ε < angle (rodr φ) ^ 2 ∧ angle (rodr φ) ≠ Real.pi) := by
  by_cases h : φ = 0
  · left; rw [h, rodr_zero]
  · right
    have hp := lt_pi_of_sqLen hπ
    rw [rotOfAngle, arccos_cosAngle_rodr h hp.le, Real.sq_sqrt (normSq_nonneg _)]
    refine ⟨?_, hp.ne⟩
    rcases hr with h' | h'
    · exact absurd h' h
    · rwa [sqLen_eq] at h'

theorem val_eq {τ : Ty} {p : Expr (geoLib ε) τ} {v w : τ.Val}
    (e : p.eval (L := geoLib ε) s = some v) (h : value (L := geoLib ε) s p = some w) : w = v := by
  have e' : (ETree.mk (L := geoLib ε) s p).val = some v := e
  exact Option.some.inj (h.symm.trans ((mk_val (L := geoLib ε) s p).symm.trans e'))

/-- A converted operand has the same meaning. -/
theorem side_rot {k : RotK} {w : Side (.rot k)} (hw : SideOk w) {p : Expr (geoLib ε) (.rot k)} {R : M3}
    (h : Good s (⟨.rot k, p⟩ : Tree ε) (.rot R)) : Good s (⟨w.ty, w.apply p⟩ : Tree ε) (.rot R) := by
  rcases side_conv hw with rfl | ⟨b, op, rfl, ho⟩
  · exact h
  · cases b with
    | rot b' =>
      have : op = Un.convRot k b' := (Option.some.inj ho).symm
      subst this
      exact good_conv b' h
    | vec _ => cases ho
    | point => cases ho
    | rigid _ => cases ho

theorem reg_logRot_aux {τ : Ty} {q : Expr (geoLib ε) τ} {φ : V3} {r : (b : Ty) × Un τ b}
    (hd : direct1 .logMap τ = some r) (hg : Good s (⟨τ, q⟩ : Tree ε) (.rot (NormedSpace.exp (hat φ))))
    (hπ : sqLen φ < Real.pi ^ 2) (hr : φ = 0 ∨ ε < sqLen φ) (u : τ.Val)
    (hu : value (L := geoLib ε) s q = some u) : RegularUn ε r.2 (den τ u) := by
  obtain ⟨k, q', v, he, e, hv, hR⟩ := hg.rot
  cases he
  cases k with
  | mat =>
    cases hd
    obtain rfl := val_eq e hu
    have hR' : u = rodr φ := by rw [rodr_exp]; exact hR
    change u = 1 ∨ (ε < angle u ^ 2 ∧ angle u ≠ Real.pi)
    rw [hR']
    exact angle_exp_regular hπ hr
  | quat => cases hd
  | aa => cases hd

theorem reg_logRot {x y : Tree ε} {φ : V3} (h : elab1 .logMap x = some y) (hx : RegularAt ε s x.2)
    (hg : Good s x (.rot (NormedSpace.exp (hat φ)))) (hπ : sqLen φ < Real.pi ^ 2)
    (hr : φ = 0 ∨ ε < sqLen φ) : RegularAt ε s y.2 := by
  obtain ⟨k, p, v, rfl, -⟩ := hg.rot
  obtain ⟨w, r, hw, hd, rfl⟩ := elab1_form h
  exact ⟨side_regular hw hx, reg_logRot_aux hd (side_rot hw hg) hπ hr⟩

theorem reg_logMotion {x y : Tree ε} {T : Rigid} {ξ : Twist} (h : elab1 .logMap x = some y)
    (hx : RegularAt ε s x.2) (hg : Good s x (.motion T)) (hT : T.hom = NormedSpace.exp (twistMat ξ))
    (hπ : sqLen (angular ξ) < Real.pi ^ 2) (hr : angular ξ = 0 ∨ ε < sqLen (angular ξ)) :
    RegularAt ε s y.2 := by
  obtain ⟨k, p, v, rfl, e, hv, hd⟩ := hg.motion
  have : elab1 .logMap (⟨.rigid k, p⟩ : Tree ε) =
      some ⟨_, Expr.un (L := geoLib ε) 0 (.logRigid k) p⟩ := rfl
  rw [this] at h
  cases h
  refine ⟨hx, fun u hu => ?_⟩
  obtain rfl := val_eq e hu
  change (rigidDen k u).R = 1 ∨ (ε < angle (rigidDen k u).R ^ 2 ∧ angle (rigidDen k u).R ≠ Real.pi)
  rw [hd, ((motion_exp_iff _ _).mp hT).1]
  exact angle_exp_regular hπ hr

theorem reg_expRot {x y : Tree ε} {φ : V3} (h : elab1 .expMap x = some y) (hx : RegularAt ε s x.2)
    (hg : Good s x (.vec .relrot φ)) (hr : φ = 0 ∨ ε < sqLen φ ^ 2) : RegularAt ε s y.2 := by
  obtain ⟨p, rfl, e⟩ := hg.vec
  have : elab1 .expMap (⟨.vec .relrot, p⟩ : Tree ε) =
      some ⟨_, Expr.un (L := geoLib ε) 0 .expRel p⟩ := rfl
  rw [this] at h
  cases h
  refine ⟨hx, fun u hu => ?_⟩
  obtain rfl := val_eq e hu
  exact hr

theorem reg_expMotion {x y : Tree ε} {ξ : Twist} (h : elab1 .expMap x = some y)
    (hx : RegularAt ε s x.2) (hg : Good s x (.vec .twist ξ))
    (hr : angular ξ = 0 ∨ ε < sqLen (angular ξ)) : RegularAt ε s y.2 := by
  obtain ⟨p, rfl, e⟩ := hg.vec
  have : elab1 .expMap (⟨.vec .twist, p⟩ : Tree ε) =
      some ⟨_, Expr.un (L := geoLib ε) 0 .expTwist p⟩ := rfl
  rw [this] at h
  cases h
  refine ⟨hx, fun u hu => ?_⟩
  obtain rfl := val_eq e hu
  exact hr

theorem good_of {e : SExpr} {x : Tree ε} {o : Obj} (h : Acc s (e.elab ε) o) (hx : e.elab ε = some x) :
    Good s x o := by
  obtain ⟨t, ht, hg⟩ := h
  rw [hx] at ht
  cases ht
  exact hg

theorem acc_good {y : Option (Tree ε)} {x : Tree ε} {o : Obj} (h : Acc s y o) (hx : y = some x) :
    Good s x o := by
  obtain ⟨t, ht, hg⟩ := h
  rw [hx] at ht
  cases ht
  exact hg

theorem means_regular (hε : 0 < ε) {e : SExpr} {o : Obj} (h : Means ε s e o) :
    ∀ {x : Tree ε}, e.elab ε = some x → RegularAt ε s x.2 := by
  induction h with
  | leaf a c τ hv => intro x hx; cases hx; exact hv
  | dynamic a hw hm ih =>
    intro x hx
    obtain ⟨y, hy, rfl⟩ := elab_dynamic hx
    have := ih hy
    exact this
  | evalTo τ hm hk ih =>
    intro x hx
    obtain ⟨y, hy, hx⟩ := Option.bind_eq_some_iff.mp hx
    change elabTo τ y = some x at hx
    unfold elabTo at hx
    split_ifs at hx with hτ
    · subst hτ
      cases hx
      exact ih hy
    · obtain ⟨op, ho, rfl⟩ := Option.map_eq_some_iff.mp hx
      exact ⟨ih hy, fun v _ => conv_regular ho _⟩
  | neg hm ih =>
    intro x hx
    obtain ⟨y, hy, hx⟩ := Option.bind_eq_some_iff.mp hx
    exact reg1 (t := .minus) hx (ih hy) (by simp)
  | squaredNorm hm hk ih =>
    intro x hx
    obtain ⟨y, hy, hx⟩ := Option.bind_eq_some_iff.mp hx
    exact reg1 (t := .sqNorm) hx (ih hy) (by simp)
  | norm hm hk ih =>
    intro x hx
    obtain ⟨y, hy, hx⟩ := Option.bind_eq_some_iff.mp hx
    exact reg1 (t := .norm) hx (ih hy) (by simp)
  | normalized hm hk ih =>
    intro x hx
    obtain ⟨y, hy, hx⟩ := Option.bind_eq_some_iff.mp hx
    exact reg1 (t := .normalize) hx (ih hy) (by simp)
  | acos hm h1 h2 ih =>
    intro x hx
    obtain ⟨y, hy, hx⟩ := Option.bind_eq_some_iff.mp hx
    have hg := good_of (means_acc hε hm) hy
    have hreg := ih hy
    obtain ⟨p, rfl, e⟩ := hg.vec
    have : elab1 .acos (⟨.vec .scalar, p⟩ : Tree ε) =
        some ⟨_, Expr.un (L := geoLib ε) 0 .acos p⟩ := rfl
    change elab1 .acos _ = _ at hx
    rw [this] at hx
    cases hx
    refine ⟨hreg, fun u hu => ?_⟩
    obtain rfl := val_eq e hu
    exact ⟨h1, h2⟩
  | inverseRot hm ih =>
    intro x hx
    obtain ⟨y, hy, hx⟩ := Option.bind_eq_some_iff.mp hx
    exact reg1 (t := .inverse) hx (ih hy) (by simp)
  | inverseMotion hm hS ih =>
    intro x hx
    obtain ⟨y, hy, hx⟩ := Option.bind_eq_some_iff.mp hx
    exact reg1 (t := .inverse) hx (ih hy) (by simp)
  | rotation hm ih =>
    intro x hx
    obtain ⟨y, hy, hx⟩ := Option.bind_eq_some_iff.mp hx
    obtain ⟨k, p, v, rfl, -⟩ := (good_of (means_acc hε hm) hy).motion
    exact reg1 (t := .rotation) (x := ⟨.rigid k, p⟩) hx (ih hy) (by simp)
  | rotationRot hm ih =>
    intro x hx
    obtain ⟨y, hy, hx⟩ := Option.bind_eq_some_iff.mp hx
    obtain ⟨k, p, v, rfl, -⟩ := (good_of (means_acc hε hm) hy).rot
    cases hx
    exact ih hy
  | translationRot hm ih =>
    intro x hx
    obtain ⟨y, hy, hx⟩ := Option.bind_eq_some_iff.mp hx
    exact reg1 (t := .translation) hx (ih hy) (by simp)
  | translation hm ih =>
    intro x hx
    obtain ⟨y, hy, hx⟩ := Option.bind_eq_some_iff.mp hx
    exact reg1 (t := .translation) hx (ih hy) (by simp)
  | expRot hm hr ih =>
    intro x hx
    obtain ⟨y, hy, hx⟩ := Option.bind_eq_some_iff.mp hx
    exact reg_expRot hx (ih hy) (good_of (means_acc hε hm) hy) hr
  | logRot hm hπ hr ih =>
    intro x hx
    obtain ⟨y, hy, hx⟩ := Option.bind_eq_some_iff.mp hx
    exact reg_logRot hx (ih hy) (good_of (means_acc hε hm) hy) hπ hr
  | expMotion hm hT hr ih =>
    intro x hx
    obtain ⟨y, hy, hx⟩ := Option.bind_eq_some_iff.mp hx
    exact reg_expMotion hx (ih hy) (good_of (means_acc hε hm) hy) hr
  | logMotion hm hT hπ hr ih =>
    intro x hx
    obtain ⟨y, hy, hx⟩ := Option.bind_eq_some_iff.mp hx
    exact reg_logMotion hx (ih hy) (good_of (means_acc hε hm) hy) hT hπ hr
  | @addVec _ _ k _ _ hm hm' ih ih' =>
    intro x hx
    obtain ⟨y, hy, hx⟩ := Option.bind_eq_some_iff.mp hx
    obtain ⟨z, hz, hx⟩ := Option.bind_eq_some_iff.mp hx
    have h1 := ih hy
    have h2 := ih' hz
    obtain ⟨p, rfl, e⟩ := (good_of (means_acc hε hm) hy).vec
    obtain ⟨q, rfl, e'⟩ := (good_of (means_acc hε hm') hz).vec
    exact reg2 (t := .sum) hx h1 h2 (by simp)
  | @subVec _ _ k _ _ hm hm' ih ih' =>
    intro x hx
    obtain ⟨y, hy, hx⟩ := Option.bind_eq_some_iff.mp hx
    obtain ⟨z, hz, hx⟩ := Option.bind_eq_some_iff.mp hx
    have h1 := ih hy
    have h2 := ih' hz
    obtain ⟨p, rfl, e⟩ := (good_of (means_acc hε hm) hy).vec
    obtain ⟨q, rfl, e'⟩ := (good_of (means_acc hε hm') hz).vec
    exact reg2 (t := .subtract) hx h1 h2 (by simp)
  | @mulScalarVec _ _ k _ _ hm hm' ih ih' =>
    intro x hx
    obtain ⟨y, hy, hx⟩ := Option.bind_eq_some_iff.mp hx
    obtain ⟨z, hz, hx⟩ := Option.bind_eq_some_iff.mp hx
    have h1 := ih hy
    have h2 := ih' hz
    obtain ⟨p, rfl, e⟩ := (good_of (means_acc hε hm) hy).vec
    obtain ⟨q, rfl, e'⟩ := (good_of (means_acc hε hm') hz).vec
    cases k
    · exact reg2 (t := .product) hx h1 h2 (by simp)
    all_goals exact reg2 (t := .scale) hx h1 h2 (by simp)
  | @mulVecScalar _ _ k _ _ hm hm' ih ih' =>
    intro x hx
    obtain ⟨y, hy, hx⟩ := Option.bind_eq_some_iff.mp hx
    obtain ⟨z, hz, hx⟩ := Option.bind_eq_some_iff.mp hx
    have h1 := ih hy
    have h2 := ih' hz
    obtain ⟨p, rfl, e⟩ := (good_of (means_acc hε hm) hy).vec
    obtain ⟨q, rfl, e'⟩ := (good_of (means_acc hε hm') hz).vec
    cases k
    · exact reg2 (t := .product) hx h1 h2 (by simp)
    all_goals exact reg2 (t := .scaleR) hx h1 h2 (by simp)
  | @divVec _ _ k _ v hm hm' h0 ih ih' =>
    intro x hx
    obtain ⟨y, hy, hx⟩ := Option.bind_eq_some_iff.mp hx
    obtain ⟨z, hz, hx⟩ := Option.bind_eq_some_iff.mp hx
    have h1 := ih hy
    have h2 := ih' hz
    obtain ⟨p, rfl, e⟩ := (good_of (means_acc hε hm) hy).vec
    obtain ⟨q, rfl, e'⟩ := (good_of (means_acc hε hm') hz).vec
    have key : ∀ w, value (L := geoLib ε) s q = some w → w (0 : Fin 1) ≠ 0 := by
      intro w hw
      obtain rfl := val_eq e' hw
      exact h0
    cases k <;>
    · cases hx
      exact ⟨h1, h2, fun _ w _ hw => key w hw⟩
  | @dot _ _ k _ _ hm hm' hk ih ih' =>
    intro x hx
    obtain ⟨y, hy, hx⟩ := Option.bind_eq_some_iff.mp hx
    obtain ⟨z, hz, hx⟩ := Option.bind_eq_some_iff.mp hx
    have h1 := ih hy
    have h2 := ih' hz
    obtain ⟨p, rfl, e⟩ := (good_of (means_acc hε hm) hy).vec
    obtain ⟨q, rfl, e'⟩ := (good_of (means_acc hε hm') hz).vec
    exact reg2 (t := .dot) hx h1 h2 (by simp)
  | addPointVec hm hm' ih ih' =>
    intro x hx
    obtain ⟨y, hy, hx⟩ := Option.bind_eq_some_iff.mp hx
    obtain ⟨z, hz, hx⟩ := Option.bind_eq_some_iff.mp hx
    have h1 := ih hy
    have h2 := ih' hz
    obtain ⟨p, rfl, e⟩ := (good_of (means_acc hε hm) hy).point
    obtain ⟨q, rfl, e'⟩ := (good_of (means_acc hε hm') hz).vec
    exact reg2 (t := .sum) hx h1 h2 (by simp)
  | addVecPoint hm hm' ih ih' =>
    intro x hx
    obtain ⟨y, hy, hx⟩ := Option.bind_eq_some_iff.mp hx
    obtain ⟨z, hz, hx⟩ := Option.bind_eq_some_iff.mp hx
    have h1 := ih hy
    have h2 := ih' hz
    obtain ⟨p, rfl, e⟩ := (good_of (means_acc hε hm) hy).vec
    obtain ⟨q, rfl, e'⟩ := (good_of (means_acc hε hm') hz).point
    exact reg2 (t := .sum) hx h1 h2 (by simp)
  | subPoint hm hm' ih ih' =>
    intro x hx
    obtain ⟨y, hy, hx⟩ := Option.bind_eq_some_iff.mp hx
    obtain ⟨z, hz, hx⟩ := Option.bind_eq_some_iff.mp hx
    have h1 := ih hy
    have h2 := ih' hz
    obtain ⟨p, rfl, e⟩ := (good_of (means_acc hε hm) hy).point
    obtain ⟨q, rfl, e'⟩ := (good_of (means_acc hε hm') hz).point
    exact reg2 (t := .subtract) hx h1 h2 (by simp)
  | subPointVec hm hm' ih ih' =>
    intro x hx
    obtain ⟨y, hy, hx⟩ := Option.bind_eq_some_iff.mp hx
    obtain ⟨z, hz, hx⟩ := Option.bind_eq_some_iff.mp hx
    have h1 := ih hy
    have h2 := ih' hz
    obtain ⟨p, rfl, e⟩ := (good_of (means_acc hε hm) hy).point
    obtain ⟨q, rfl, e'⟩ := (good_of (means_acc hε hm') hz).vec
    exact reg2 (t := .subtract) hx h1 h2 (by simp)
  | mulRot hm hm' ih ih' =>
    intro x hx
    obtain ⟨y, hy, hx⟩ := Option.bind_eq_some_iff.mp hx
    obtain ⟨z, hz, hx⟩ := Option.bind_eq_some_iff.mp hx
    have h1 := ih hy
    have h2 := ih' hz
    obtain ⟨k, p, v, rfl, -⟩ := (good_of (means_acc hε hm) hy).rot
    obtain ⟨l, q, w, rfl, -⟩ := (good_of (means_acc hε hm') hz).rot
    exact reg2 (t := .compose) hx h1 h2 (by simp)
  | rotate hm hm' ih ih' =>
    intro x hx
    obtain ⟨y, hy, hx⟩ := Option.bind_eq_some_iff.mp hx
    obtain ⟨z, hz, hx⟩ := Option.bind_eq_some_iff.mp hx
    have h1 := ih hy
    have h2 := ih' hz
    obtain ⟨k, p, v, rfl, -⟩ := (good_of (means_acc hε hm) hy).rot
    obtain ⟨q, rfl, e'⟩ := (good_of (means_acc hε hm') hz).vec
    exact reg2 (t := .rotate) hx h1 h2 (by simp)
  | mulMotion hm hm' ih ih' =>
    intro x hx
    obtain ⟨y, hy, hx⟩ := Option.bind_eq_some_iff.mp hx
    obtain ⟨z, hz, hx⟩ := Option.bind_eq_some_iff.mp hx
    have h1 := ih hy
    have h2 := ih' hz
    obtain ⟨k, p, v, rfl, -⟩ := (good_of (means_acc hε hm) hy).motion
    obtain ⟨l, q, w, rfl, -⟩ := (good_of (means_acc hε hm') hz).motion
    exact reg2 (t := .compose) hx h1 h2 (by simp)
  | act hm hm' ih ih' =>
    intro x hx
    obtain ⟨y, hy, hx⟩ := Option.bind_eq_some_iff.mp hx
    obtain ⟨z, hz, hx⟩ := Option.bind_eq_some_iff.mp hx
    have h1 := ih hy
    have h2 := ih' hz
    obtain ⟨k, p, v, rfl, -⟩ := (good_of (means_acc hε hm) hy).motion
    obtain ⟨q, rfl, e'⟩ := (good_of (means_acc hε hm') hz).vec
    exact reg2 (t := .transform) hx h1 h2 (by simp)
  | boxPlusRot hm hm' hr ih ih' =>
    intro x hx
    obtain ⟨y, hy, hx⟩ := Option.bind_eq_some_iff.mp hx
    obtain ⟨z, hz, hx⟩ := Option.bind_eq_some_iff.mp hx
    have h1 := ih hy
    have h2 := ih' hz
    have hg := good_of (means_acc hε hm') hz
    obtain ⟨k, p, v, rfl, -⟩ := (good_of (means_acc hε hm) hy).rot
    obtain ⟨q, rfl, e'⟩ := hg.vec
    change (elab1 .expMap (⟨.vec .relrot, q⟩ : Tree ε)).bind (elab2 .composeFlipped ⟨.rot k, p⟩) = _ at hx
    obtain ⟨w, hw, hx⟩ := Option.bind_eq_some_iff.mp hx
    exact reg2 (t := .composeFlipped) hx h1 (reg_expRot hw h2 hg hr) (by simp)
  | boxPlusMotion hm hm' hD hr ih ih' =>
    intro x hx
    obtain ⟨y, hy, hx⟩ := Option.bind_eq_some_iff.mp hx
    obtain ⟨z, hz, hx⟩ := Option.bind_eq_some_iff.mp hx
    have h1 := ih hy
    have h2 := ih' hz
    have hg := good_of (means_acc hε hm') hz
    obtain ⟨k, p, v, rfl, -⟩ := (good_of (means_acc hε hm) hy).motion
    obtain ⟨q, rfl, e'⟩ := hg.vec
    change (elab1 .expMap (⟨.vec .twist, q⟩ : Tree ε)).bind (elab2 .composeFlipped ⟨.rigid k, p⟩) = _ at hx
    obtain ⟨w, hw, hx⟩ := Option.bind_eq_some_iff.mp hx
    exact reg2 (t := .composeFlipped) hx h1 (reg_expMotion hw h2 hg hr) (by simp)
  | @boxMinusRot _ _ R S φ hm hm' hR hπ hr ih ih' =>
    intro x hx
    obtain ⟨y, hy, hx⟩ := Option.bind_eq_some_iff.mp hx
    obtain ⟨z, hz, hx⟩ := Option.bind_eq_some_iff.mp hx
    have h1 := ih hy
    have h2 := ih' hz
    have hg := good_of (means_acc hε hm) hy
    have hg' := good_of (means_acc hε hm') hz
    have hS : IsRotation S := by
      obtain ⟨l, q, w, -, -, hw, rfl⟩ := hg'.rot
      exact rotDen_rotation hw
    have h3 : R * S⁻¹ = NormedSpace.exp (hat φ) := by
      rw [hR, mul_assoc, Matrix.inv_eq_right_inv hS.1, hS.1, mul_one]
    have c1 := acc_invRot hg'
    have c2 : ∀ w, Good s w (.rot S⁻¹) → Acc s (elab2 .compose y w) (.rot (R * S⁻¹)) :=
      fun w hw => acc_compose hg hw
    obtain ⟨k, p, v, rfl, -⟩ := hg.rot
    obtain ⟨l, q, w, rfl, -⟩ := hg'.rot
    change ((elab1 .inverse _).bind _).bind _ = _ at hx
    obtain ⟨m, hm1, hx⟩ := Option.bind_eq_some_iff.mp hx
    obtain ⟨n, hn, hm1⟩ := Option.bind_eq_some_iff.mp hm1
    exact reg_logRot hx (reg2 (t := .compose) hm1 h1 (reg1 (t := .inverse) hn h2 (by simp)) (by simp))
      (h3 ▸ acc_good (c2 n (acc_good c1 hn)) hm1) hπ hr
  | @boxMinusMotion _ _ T S ξ D hm hm' hT hD hπ hr ih ih' =>
    intro x hx
    obtain ⟨y, hy, hx⟩ := Option.bind_eq_some_iff.mp hx
    obtain ⟨z, hz, hx⟩ := Option.bind_eq_some_iff.mp hx
    have h1 := ih hy
    have h2 := ih' hz
    have hg := good_of (means_acc hε hm) hy
    have hg' := good_of (means_acc hε hm') hz
    have hS : IsRotation S.R := by
      obtain ⟨l, q, w, -, -, hw, rfl⟩ := hg'.motion
      have := validRigid_rotation l w hw
      rwa [rigidDen_eq l w hw]
    let S' : Rigid := ⟨S.Rᵀ, -(S.Rᵀ *ᵥ S.t)⟩
    have h0 : S.comp S' = Rigid.id := by
      refine Rigid.ext' hS.1 ?_
      change S.R *ᵥ -(S.Rᵀ *ᵥ S.t) + S.t = 0
      rw [mulVec_neg, mulVec_mulVec, hS.1, one_mulVec, neg_add_cancel]
    have h3 : T.comp S' = D := by
      rw [hT]
      refine Rigid.ext' ?_ ?_
      · change D.R * S.R * S.Rᵀ = D.R
        rw [mul_assoc, hS.1, mul_one]
      · change (D.R * S.R) *ᵥ -(S.Rᵀ *ᵥ S.t) + (D.R *ᵥ S.t + D.t) = D.t
        rw [mulVec_neg, mulVec_mulVec, mul_assoc, hS.1, mul_one, ← add_assoc, neg_add_cancel,
          zero_add]
    have c1 := acc_invMotion hg' h0
    have c2 : ∀ w, Good s w (.motion S') → Acc s (elab2 .compose y w) (.motion (T.comp S')) :=
      fun w hw => acc_mulMotion hg hw
    obtain ⟨k, p, v, rfl, -⟩ := hg.motion
    obtain ⟨l, q, w, rfl, -⟩ := hg'.motion
    change ((elab1 .inverse (⟨.rigid l, q⟩ : Tree ε)).bind (elab2 .compose ⟨.rigid k, p⟩)).bind
      (elab1 .logMap) = _ at hx
    obtain ⟨m, hm1, hx⟩ := Option.bind_eq_some_iff.mp hx
    obtain ⟨n, hn, hm1⟩ := Option.bind_eq_some_iff.mp hm1
    exact reg_logMotion hx
      (reg2 (t := .compose) hm1 h1 (reg1 (t := .inverse) hn h2 (by simp)) (by simp))
      (h3 ▸ acc_good (c2 n (acc_good c1 hn)) hm1) hD hπ hr

/-! ### What the built tree contains -/

/-- Same objects, at least as few proxies, operation nodes at address 0 (helper). -/
structure Same (x y : Tree ε) : Prop where
  obj : objects y.2 = objects x.2
  np : x.2.noProxy → y.2.noProxy
  adr : ∀ a ∈ nodeAddrs y.2, a = 0 ∨ a ∈ nodeAddrs x.2

structure Same2 (x y z : Tree ε) : Prop where
  obj : objects z.2 = objects x.2 ++ objects y.2
  np : x.2.noProxy → y.2.noProxy → z.2.noProxy
  adr : ∀ a ∈ nodeAddrs z.2, a = 0 ∨ a ∈ nodeAddrs x.2 ∨ a ∈ nodeAddrs y.2

theorem side_same {a : Ty} (w : Side a) (x : Expr (geoLib ε) a) :
    Same (⟨a, x⟩ : Tree ε) ⟨w.ty, w.apply x⟩ := by
  cases w with
  | stay => exact ⟨rfl, id, fun _ h => .inr h⟩
  | via b op => exact ⟨rfl, id, fun a h => by
      change a ∈ (0 :: nodeAddrs x) at h
      exact List.mem_cons.mp h⟩

theorem elab1_same {t : Tag1} {x y : Tree ε} (h : elab1 t x = some y) : Same x y := by
  obtain ⟨w, r, -, -, rfl⟩ := elab1_form h
  obtain ⟨h1, h2, h3⟩ := side_same w x.2
  refine ⟨h1, h2, fun a ha => ?_⟩
  change a ∈ (0 :: nodeAddrs (w.apply x.2)) at ha
  rcases List.mem_cons.mp ha with h | h
  · exact .inl h
  · exact h3 a h

theorem elab2_same {t : Tag2} {x y z : Tree ε} (h : elab2 t x y = some z) : Same2 x y z := by
  obtain ⟨w, u, r, -, -, -, rfl⟩ := elab2_form h
  obtain ⟨h1, h2, h3⟩ := side_same w x.2
  obtain ⟨k1, k2, k3⟩ := side_same u y.2
  refine ⟨?_, fun p q => ?_, fun a ha => ?_⟩
  · exact congrArg₂ (· ++ ·) h1 k1
  · have e1 := h2 p
    have e2 := k2 q
    exact Bool.and_eq_true_iff.mpr ⟨e1, e2⟩
  · change a ∈ (0 :: (nodeAddrs (w.apply x.2) ++ nodeAddrs (u.apply y.2))) at ha
    rcases List.mem_cons.mp ha with h | h
    · exact .inl h
    · rcases List.mem_append.mp h with h | h
      · rcases h3 a h with h | h
        exacts [.inl h, .inr (.inl h)]
      · rcases k3 a h with h | h
        exacts [.inl h, .inr (.inr h)]

theorem Same.trans {x y z : Tree ε} (h : Same x y) (h' : Same y z) : Same x z :=
  ⟨h'.obj.trans h.obj, h'.np ∘ h.np, fun a ha => (h'.adr a ha).elim .inl (h.adr a)⟩

theorem Same2.after {x y z w : Tree ε} (h : Same2 x y z) (h' : Same z w) : Same2 x y w :=
  ⟨h'.obj.trans h.obj, fun p q => h'.np (h.np p q), fun a ha => (h'.adr a ha).elim .inl (h.adr a)⟩

theorem Same2.before {x y y' z : Tree ε} (h : Same2 x y' z) (h' : Same y y') : Same2 x y z :=
  ⟨h.obj.trans (by rw [h'.obj]), fun p q => h.np p (h'.np q), fun a ha => by
    rcases h.adr a ha with h | h | h
    · exact .inl h
    · exact .inr (.inl h)
    · exact (h'.adr a h).elim .inl fun k => .inr (.inr k)⟩

theorem elabTo_same {τ : Ty} {x y : Tree ε} (h : elabTo τ x = some y) : Same x y := by
  unfold elabTo at h
  split_ifs at h with hτ
  · subst hτ
    cases h
    exact ⟨rfl, id, fun _ h => .inr h⟩
  · obtain ⟨op, ho, rfl⟩ := Option.map_eq_some_iff.mp h
    refine ⟨rfl, id, fun a h => ?_⟩
    change a ∈ (0 :: nodeAddrs x.2) at h
    exact List.mem_cons.mp h

theorem elabUn_same {op : UOp} {x y : Tree ε} (h : elabUn op x = some y) : Same x y := by
  cases op <;> first
    | exact elab1_same h
    | exact elabTo_same h
    | (unfold elabUn at h
       dsimp only at h
       split_ifs at h
       · cases h; exact ⟨rfl, id, fun _ h => .inr h⟩
       · exact elab1_same h)

theorem elabBin_same {op : BOp} {x y z : Tree ε} (h : elabBin op x y = some z) : Same2 x y z := by
  unfold elabBin at h
  split at h
  all_goals first
    | exact elab2_same h
    | (obtain ⟨w, hw, h⟩ := Option.bind_eq_some_iff.mp h
       exact (elab2_same h).before (elab1_same hw))
    | (obtain ⟨w, hw, h⟩ := Option.bind_eq_some_iff.mp h
       obtain ⟨u, hu, hw⟩ := Option.bind_eq_some_iff.mp hw
       exact ((elab2_same hw).before (elab1_same hu)).after (elab1_same h))
    | (cases h; done)

theorem elab_written : ∀ (e : SExpr) {x : Tree ε}, e.elab ε = some x →
    objects x.2 = written ε e ∧ (NoDynamic e → x.2.noProxy) ∧
      ∀ a ∈ nodeAddrs x.2, a = 0 ∨ a ∈ dynamicNodes e
  | .leaf a c τ, x, h => by
    cases h
    exact ⟨rfl, fun _ => rfl, fun a h => by cases h⟩
  | .un op e, x, h => by
    obtain ⟨y, hy, h⟩ := Option.bind_eq_some_iff.mp h
    obtain ⟨h1, h2, h3⟩ := elab_written e hy
    have k := elabUn_same h
    exact ⟨k.obj.trans h1, fun p => k.np (h2 p), fun a ha => (k.adr a ha).elim .inl (h3 a)⟩
  | .bin op l r, x, h => by
    obtain ⟨y, hy, h⟩ := Option.bind_eq_some_iff.mp h
    obtain ⟨z, hz, h⟩ := Option.bind_eq_some_iff.mp h
    obtain ⟨h1, h2, h3⟩ := elab_written l hy
    obtain ⟨k1, k2, k3⟩ := elab_written r hz
    have k := elabBin_same h
    refine ⟨k.obj.trans (by rw [h1, k1]; rfl), fun p => k.np (h2 p.1) (k2 p.2), fun a ha => ?_⟩
    rcases k.adr a ha with h | h | h
    · exact .inl h
    · exact (h3 a h).imp id fun m => List.mem_append_left _ m
    · exact (k3 a h).imp id fun m => List.mem_append_right _ m
  | .dynamic b e, x, h => by
    obtain ⟨y, hy, rfl⟩ := elab_dynamic h
    obtain ⟨h1, h2, h3⟩ := elab_written e hy
    refine ⟨h1, fun p => p.elim, fun a ha => ?_⟩
    change a ∈ b :: nodeAddrs y.2 at ha
    rcases List.mem_cons.mp ha with h | h
    · exact .inr (h ▸ List.mem_cons_self)
    · exact (h3 a h).imp id fun m => List.mem_cons_of_mem _ m

/-! ### Nonsingular arguments -/

theorem side_nonsingular {a : Ty} {w : Side a} (h : SideOk w) {x : Expr (geoLib ε) a}
    (hx : NonsingularAt ε s x) : NonsingularAt ε s (w.apply x) := by
  rcases side_conv h with rfl | ⟨b, op, rfl, ho⟩
  · exact hx
  · refine ⟨hx, fun v _ => ?_⟩
    unfold conv1 at ho
    split at ho <;> cases ho <;> trivial

theorem direct1_nonsingular {t : Tag1} {a : Ty} {r : (b : Ty) × Un a b} (h : direct1 t a = some r)
    (ht : t = .inverse ∨ t = .rotation) (x : Den a) : AwayFromSingular r.2 x := by
  unfold direct1 at h
  split at h <;> first | (cases h; trivial) | (cases h; done) | (simp at ht; done)

theorem nons1 {t : Tag1} {x y : Tree ε} (h : elab1 t x = some y) (hx : NonsingularAt ε s x.2)
    (ht : t = .inverse ∨ t = .rotation) : NonsingularAt ε s y.2 := by
  obtain ⟨w, r, hw, hr, rfl⟩ := elab1_form h
  exact ⟨side_nonsingular hw hx, fun v _ => direct1_nonsingular hr ht _⟩

theorem nons_translation {x y : Tree ε} {T : Rigid} (h : elab1 .translation x = some y)
    (hx : NonsingularAt ε s x.2) (hg : Good s x (.motion T)) : NonsingularAt ε s y.2 := by
  obtain ⟨k, p, v, rfl, -⟩ := hg.motion
  cases h
  exact ⟨hx, fun u hu => trivial⟩

theorem nons2 {t : Tag2} {x y z : Tree ε} (h : elab2 t x y = some z) (hx : NonsingularAt ε s x.2)
    (hy : NonsingularAt ε s y.2) : NonsingularAt ε s z.2 := by
  obtain ⟨w, u, r, hw, hu, hr, rfl⟩ := elab2_form h
  exact ⟨side_nonsingular hw hx, side_nonsingular hu hy⟩

theorem nons_logRot_aux {τ : Ty} {q : Expr (geoLib ε) τ} {R : M3} {r : (b : Ty) × Un τ b}
    (hd : direct1 .logMap τ = some r) (hg : Good s (⟨τ, q⟩ : Tree ε) (.rot R)) (hR : R ≠ 1) (u : τ.Val)
    (hu : value (L := geoLib ε) s q = some u) : AwayFromSingular r.2 (den τ u) := by
  obtain ⟨k, q', v, he, e, hv, hR'⟩ := hg.rot
  cases he
  cases k with
  | mat =>
    cases hd
    obtain rfl := val_eq e hu
    change u ≠ 1
    exact fun h => hR (hR'.symm.trans h)
  | quat => cases hd
  | aa => cases hd

theorem nons_logRot {x y : Tree ε} {R : M3} (h : elab1 .logMap x = some y)
    (hx : NonsingularAt ε s x.2) (hg : Good s x (.rot R)) (hR : R ≠ 1) : NonsingularAt ε s y.2 := by
  obtain ⟨k, p, v, rfl, -⟩ := hg.rot
  obtain ⟨w, r, hw, hd, rfl⟩ := elab1_form h
  exact ⟨side_nonsingular hw hx, nons_logRot_aux hd (side_rot hw hg) hR⟩

theorem nons_logMotion {x y : Tree ε} {T : Rigid} (h : elab1 .logMap x = some y)
    (hx : NonsingularAt ε s x.2) (hg : Good s x (.motion T)) (hT : T.R ≠ 1) :
    NonsingularAt ε s y.2 := by
  obtain ⟨k, p, v, rfl, e, hv, hd⟩ := hg.motion
  cases h
  refine ⟨hx, fun u hu => ?_⟩
  obtain rfl := val_eq e hu
  change (rigidDen k u).R ≠ 1
  rwa [hd]

end WG
