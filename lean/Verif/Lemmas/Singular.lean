import Verif.Props.DerivativeUser
import Verif.Spec.Singular

/-! # Finite Jacobians and singular points -/

namespace WG
open Matrix Spec

variable {ε : ℝ} {s : Memory} {T : Target (geoLib ε)}

/-- Some unary node above an occurrence of `T` is at a singular argument (on trees). -/
def Sing (s : Store (geoLib ε)) (T : Target (geoLib ε)) : {τ : Ty} → Expr (geoLib ε) τ → Prop
  | _, .leaf _ _ _ => False
  | _, .un _ (op : Un _ _) e => Sing s T e ∨ T ∈ objects e ∧
      ∃ x, value s e = some x ∧ ¬AwayFromSingular op (den _ x)
  | _, .bin _ _ l r => Sing s T l ∨ Sing s T r
  | _, .proxy _ e => Sing s T e

theorem sing_mem : {τ : Ty} → (e : Expr (geoLib ε) τ) → Sing s T e → T ∈ objects e
  | _, .leaf _ _ _, h => h.elim
  | _, .un _ _ e, h => h.elim (sing_mem e) fun h => h.1
  | _, .bin _ _ l r, h => h.elim (fun h => List.mem_append_left _ (sing_mem l h))
      fun h => List.mem_append_right _ (sing_mem r h)
  | _, .proxy _ e, h => sing_mem e h

private theorem vNorm_zero' {n : Type} [Fintype n] (v : n → ℝ) (h : v = 0) : vNorm v = 0 := by
  subst h
  simp [vNorm, vSqNorm]

/-- At a singular argument the local Jacobian is not finite. -/
theorem unary_not_finite (hε : 0 < ε) {a b : Ty} (op : Un a b) (v : a.Val) (hv : Valid a v)
    (hs : ¬AwayFromSingular op (den a v)) {y : b.Val}
    (hy : evalUn ε op v = some y) : jacUn ε op y v = none := by
  cases op with
  | norm k =>
    have hs' : v = (0 : k.Idx → ℝ) := not_not.mp hs
    have e1 : y = sc (vNorm (n := k.Idx) v) := (Option.some.inj hy).symm
    refine if_pos ?_
    rw [e1]
    exact vNorm_zero' (n := k.Idx) v hs'
  | normalize k =>
    have hs' : v = (0 : k.Idx → ℝ) := not_not.mp hs
    exact if_pos (vNorm_zero' (n := k.Idx) v hs')
  | acos =>
    have hs' : ¬(v (0 : Fin 1) ≠ 1 ∧ v (0 : Fin 1) ≠ -1) := hs
    have h : v (0 : Fin 1) * v (0 : Fin 1) = 1 := by
      by_cases h1 : v (0 : Fin 1) = 1
      · rw [h1]; norm_num
      · have : v (0 : Fin 1) = -1 := by
          by_contra h2; exact hs' ⟨h1, h2⟩
        rw [this]; norm_num
    change acosJac (v (0 : Fin 1)) = none
    simp [acosJac, rsqrt, h, rdiv]
  | expTwist =>
    have hs' : Twist.rot v = 0 := not_not.mp hs
    change expTwistJac ε (rotBlock y) v = none
    unfold expTwistJac
    rw [hs', eadeB_zero]
    cases expRelJac ε (rotBlock y) 0 <;> rfl
  | logRot =>
    have hs' : v = (1 : M3) := not_not.mp hs
    subst hs'
    have h : logMat ε 1 = some y := hy
    rw [logMat_one hε] at h
    obtain rfl := Option.some.inj h
    exact logRotJac_zero
  | logRigid k =>
    have hs' : (rigidDen k v).R = 1 := not_not.mp hs
    rw [rigidDen_eq k v hv] at hs'
    have h1 : k.rotMatrix v = 1 := hs'
    change logRigid ε (k.rotMatrix v) (k.trans v) = some y at hy
    unfold logRigid at hy
    rw [h1, logMat_one hε] at hy
    simp only [Option.bind_eq_bind, Option.bind_some] at hy
    change logRigidJac y = none
    cases hu : logTrans ε 0 (k.trans v) with
    | none => rw [hu] at hy; simp at hy
    | some w =>
      rw [hu] at hy
      cases hy
      unfold logRigidJac
      have : (Twist.mk 0 w).rot = 0 := rfl
      rw [this, logRotJac_zero]; rfl
  | zeroTrans k => rfl
  | _ => exact absurd trivial hs

/-- An object that occurs has a finite Jacobian exactly when no node above it is singular. -/
theorem total_iff (hε : 0 < ε) (hε1 : ε ≤ 1) (s : Store (geoLib ε)) (T : Target (geoLib ε)) :
    {τ : Ty} → (e : Expr (geoLib ε) τ) → RegularAt ε s e → T ∈ objects e →
    ((∃ J, total (occurrences s T e) = some J) ↔ ¬Sing s T e)
  | _, .leaf a c τ, _, ht => by
    have : T = ⟨a, c, τ⟩ := by simpa [objects] using ht
    subst this
    refine ⟨fun _ h => h, fun _ => ⟨1, ?_⟩⟩
    unfold occurrences
    rw [dif_pos rfl]
    exact @add_zero (OMat _ _) _ _
  | _, .un a op e, hr, ht => by
    obtain ⟨hr, hr'⟩ := hr
    have ih := total_iff hε hε1 s T e hr ht
    obtain ⟨v, -, hv, -, hval, -⟩ := value_den hε (s' := s) e hr
      (fun o ho => ⟨regular_leaves e hr o ho, rfl⟩)
    obtain ⟨y, hy, -⟩ := un_sound hε op v hval (hr' v hv)
    have hne : occurrences s T e ≠ [] := fun h => (occ_nil_iff s T e).mp h ht
    have hs : slopeU s op e = jacUn ε op y v := by
      unfold slopeU
      rw [hv]
      change (evalUn ε op v).bind (fun y => jacUn ε op y v) = _
      rw [hy]; rfl
    have ht' : total (occurrences s T (.un a op e)) =
        OMat.mul (jacUn ε op y v) (total (occurrences s T e)) := by
      change total ((occurrences s T e).map (OMat.mul (slopeU s op e))) = _
      rw [total_map_mul _ _ hne, hs]
    rw [ht']
    constructor
    · rintro ⟨J, hJ⟩ (h | ⟨-, x, hx, h⟩)
      · refine ih.mp ?_ h
        cases hk : total (occurrences s T e) with
        | none => rw [hk] at hJ; cases hj : jacUn ε op y v <;> rw [hj] at hJ <;> cases hJ
        | some K => exact ⟨K, rfl⟩
      · cases hv.symm.trans hx
        rw [unary_not_finite hε op v hval h hy] at hJ
        cases hJ
    · intro h
      have h1 : ¬Sing s T e := fun k => h (.inl k)
      have h2 : AwayFromSingular op (den _ v) := by
        by_contra k
        exact h (.inr ⟨ht, v, hv, k⟩)
      obtain ⟨K, hK⟩ := c15_unary_finite hε hε1 op v hval (hr' v hv) h2 hy
      obtain ⟨J, hJ⟩ := ih.mpr h1
      exact ⟨K * J, by rw [hK, hJ]; rfl⟩
  | _, .bin a op l r, hr, ht => by
    obtain ⟨hl, hr, hr'⟩ := hr
    have il := total_iff hε hε1 s T l hl
    have ir := total_iff hε hε1 s T r hr
    obtain ⟨v, -, hv, -, hval, -⟩ := value_den hε (s' := s) l hl
      (fun o ho => ⟨regular_leaves l hl o ho, rfl⟩)
    obtain ⟨w, -, hw, -, hwal, -⟩ := value_den hε (s' := s) r hr
      (fun o ho => ⟨regular_leaves r hr o ho, rfl⟩)
    obtain ⟨z, hz, -⟩ := bin_sound op v w hval hwal (hr' v w hv hw)
    obtain ⟨JL, JR, hL, hR⟩ := bin_jac_some op hz
    have hsl : slopeL s op l r = some JL := by
      unfold slopeL
      rw [hv, hw]
      change (evalBin op v w).bind (fun z => jacL op z v w) = _
      rw [hz]; exact hL
    have hsr : slopeR s op l r = some JR := by
      unfold slopeR
      rw [hv, hw]
      change (evalBin op v w).bind (fun z => jacR op z v w) = _
      rw [hz]; exact hR
    have kl : (∃ A, total ((occurrences s T l).map (OMat.mul (slopeL s op l r))) = some A) ↔
        ¬Sing s T l := by
      by_cases h : T ∈ objects l
      · have hne : occurrences s T l ≠ [] := fun h' => (occ_nil_iff s T l).mp h' h
        rw [total_map_mul _ _ hne, ← il h, hsl]
        cases total (occurrences s T l) with
        | none => exact ⟨fun ⟨_, h⟩ => (by cases h), fun ⟨_, h⟩ => (by cases h)⟩
        | some K => exact ⟨fun _ => ⟨K, rfl⟩, fun _ => ⟨JL * K, rfl⟩⟩
      · rw [(occ_nil_iff s T l).mpr h]
        exact ⟨fun _ k => h (sing_mem l k), fun _ => ⟨0, rfl⟩⟩
    have kr : (∃ A, total ((occurrences s T r).map (OMat.mul (slopeR s op l r))) = some A) ↔
        ¬Sing s T r := by
      by_cases h : T ∈ objects r
      · have hne : occurrences s T r ≠ [] := fun h' => (occ_nil_iff s T r).mp h' h
        rw [total_map_mul _ _ hne, ← ir h, hsr]
        cases total (occurrences s T r) with
        | none => exact ⟨fun ⟨_, h⟩ => (by cases h), fun ⟨_, h⟩ => (by cases h)⟩
        | some K => exact ⟨fun _ => ⟨K, rfl⟩, fun _ => ⟨JR * K, rfl⟩⟩
      · rw [(occ_nil_iff s T r).mpr h]
        exact ⟨fun _ k => h (sing_mem r k), fun _ => ⟨0, rfl⟩⟩
    have ht' : total (occurrences s T (.bin a op l r)) =
        total ((occurrences s T l).map (OMat.mul (slopeL s op l r))) +
          total ((occurrences s T r).map (OMat.mul (slopeR s op l r))) := total_append _ _
    rw [ht']
    change _ ↔ ¬(Sing s T l ∨ Sing s T r)
    rw [not_or, ← kl, ← kr]
    cases total ((occurrences s T l).map (OMat.mul (slopeL s op l r))) <;>
      cases total ((occurrences s T r).map (OMat.mul (slopeR s op l r)))
    · exact ⟨fun ⟨_, h⟩ => (by cases h), fun ⟨⟨_, h⟩, _⟩ => (by cases h)⟩
    · exact ⟨fun ⟨_, h⟩ => (by cases h), fun ⟨⟨_, h⟩, _⟩ => (by cases h)⟩
    · exact ⟨fun ⟨_, h⟩ => (by cases h), fun ⟨_, ⟨_, h⟩⟩ => (by cases h)⟩
    · exact ⟨fun _ => ⟨⟨_, rfl⟩, ⟨_, rfl⟩⟩, fun _ => ⟨_, rfl⟩⟩
  | _, .proxy a e, hr, ht => total_iff hε hε1 s T e hr ht

/-! ## The built tree and the expression -/

theorem means_unique (hε : 0 < ε) {e : SExpr} {o o' : Obj} (h : Means ε s e o)
    (h' : Means ε s e o') : o = o' := by
  obtain ⟨x, hx, v, hv, -, rfl⟩ := means_acc hε h
  obtain ⟨x', hx', v', hv', -, rfl⟩ := means_acc hε h'
  cases hx.symm.trans hx'
  cases hv.symm.trans hv'
  rfl

theorem singularFor_un (hε : 0 < ε) {op : UOp} {e : SExpr} {o : Obj} (hm : Means ε s e o) :
    SingularFor ε s T (.un op e) ↔
      SingularFor ε s T e ∨ T ∈ written ε e ∧ SingularUn op o := by
  refine or_congr Iff.rfl (and_congr Iff.rfl ⟨fun ⟨o', h, h'⟩ => ?_, fun h => ⟨o, hm, h⟩⟩)
  rwa [means_unique hε hm h]

theorem singularFor_bin (hε : 0 < ε) {op : BOp} {l r : SExpr} {a b : Obj} (hm : Means ε s l a)
    (hm' : Means ε s r b) : SingularFor ε s T (.bin op l r) ↔
      SingularFor ε s T l ∨ SingularFor ε s T r ∨
        ((T ∈ written ε l ∨ T ∈ written ε r) ∧ SingularBin op a b ∨
          T ∈ written ε r ∧ SingularRight op a b) := by
  refine or_congr Iff.rfl (or_congr Iff.rfl ⟨fun ⟨a', b', h1, h2, h⟩ => ?_, fun h => ⟨a, b, hm, hm', h⟩⟩)
  rwa [means_unique hε hm h1, means_unique hε hm' h2]

theorem conv_away {a b : Ty} {op : Un a b} (h : conv1 a b = some op) (x : Den a) :
    AwayFromSingular op x := by
  unfold conv1 at h
  split at h <;> cases h <;> trivial

theorem sing_side {a : Ty} {w : Side a} (h : SideOk w) (x : Expr (geoLib ε) a) :
    Sing s T (w.apply x) ↔ Sing s T x := by
  rcases side_conv h with rfl | ⟨b, op, rfl, ho⟩
  · exact Iff.rfl
  · refine ⟨fun h => h.elim id fun ⟨_, v, _, h⟩ => (h (conv_away ho _)).elim, .inl⟩

/-- Operations that are differentiable everywhere. -/
def Smooth1 (t : Tag1) : Prop :=
  t = .minus ∨ t = .sqNorm ∨ t = .inverse ∨ t = .rotation

theorem direct1_away {t : Tag1} {a : Ty} {r : (b : Ty) × Un a b} (h : direct1 t a = some r)
    (ht : Smooth1 t) (x : Den a) : AwayFromSingular r.2 x := by
  unfold direct1 at h
  unfold Smooth1 at ht
  split at h <;> first | (cases h; trivial) | (cases h; done) | (simp at ht; done)

theorem sing1 {t : Tag1} {x y : Tree ε} (h : elab1 t x = some y) (ht : Smooth1 t) :
    Sing s T y.2 ↔ Sing s T x.2 := by
  obtain ⟨w, r, hw, hr, rfl⟩ := elab1_form h
  refine Iff.trans ⟨fun h => h.elim id fun ⟨_, v, _, h⟩ => (h (direct1_away hr ht _)).elim, .inl⟩
    (sing_side hw x.2)

theorem sing2 {t : Tag2} {x y z : Tree ε} (h : elab2 t x y = some z) :
    Sing s T z.2 ↔ Sing s T x.2 ∨ Sing s T y.2 := by
  obtain ⟨w, u, r, hw, hu, -, rfl⟩ := elab2_form h
  exact or_congr (sing_side hw x.2) (sing_side hu y.2)

theorem sing_un {a b : Ty} (n : ℕ) (op : Un a b) (p : Expr (geoLib ε) a) {v : a.Val}
    (e : p.eval (L := geoLib ε) s = some v) :
    Sing s T (.un (L := geoLib ε) n op p) ↔
      Sing s T p ∨ T ∈ objects p ∧ ¬AwayFromSingular op (den a v) := by
  have e' : value (L := geoLib ε) s p = some v := (mk_val (L := geoLib ε) s p).symm.trans e
  refine or_congr Iff.rfl (and_congr Iff.rfl ⟨fun ⟨x, hx, h⟩ => ?_, fun h => ⟨v, e', h⟩⟩)
  cases e'.symm.trans hx
  exact h

theorem sing_logRot_aux {τ : Ty} {q : Expr (geoLib ε) τ} {R : M3} {r : (b : Ty) × Un τ b}
    (hd : direct1 .logMap τ = some r) (hg : Good s (⟨τ, q⟩ : Tree ε) (.rot R)) :
    Sing s T (.un (L := geoLib ε) 0 r.2 q) ↔ Sing s T q ∨ T ∈ objects q ∧ R = 1 := by
  obtain ⟨k, q', v, he, e, hv, hR⟩ := hg.rot
  cases he
  cases k with
  | mat =>
    cases hd
    rw [sing_un 0 .logRot _ e]
    have : R = v := hR.symm
    subst this
    exact or_congr Iff.rfl (and_congr Iff.rfl not_not)
  | quat => cases hd
  | aa => cases hd

theorem sing_logRot {x y : Tree ε} {R : M3} (h : elab1 .logMap x = some y)
    (hg : Good s x (.rot R)) : Sing s T y.2 ↔ Sing s T x.2 ∨ T ∈ objects x.2 ∧ R = 1 := by
  obtain ⟨k, p, v, rfl, -⟩ := hg.rot
  obtain ⟨w, r, hw, hd, rfl⟩ := elab1_form h
  refine (sing_logRot_aux hd (side_rot hw hg)).trans ?_
  rw [sing_side hw p, side_objects]

theorem sing_logMotion {x y : Tree ε} {M : Rigid} (h : elab1 .logMap x = some y)
    (hg : Good s x (.motion M)) : Sing s T y.2 ↔ Sing s T x.2 ∨ T ∈ objects x.2 ∧ M.R = 1 := by
  obtain ⟨k, p, v, rfl, e, hv, rfl⟩ := hg.motion
  have : elab1 .logMap (⟨.rigid k, p⟩ : Tree ε) =
      some ⟨_, Expr.un (L := geoLib ε) 0 (.logRigid k) p⟩ := rfl
  rw [this] at h
  cases h
  exact (sing_un 0 (.logRigid k) p e).trans (or_congr Iff.rfl (and_congr Iff.rfl not_not))

theorem sing_expRot {x y : Tree ε} {φ : V3} (h : elab1 .expMap x = some y)
    (hg : Good s x (.vec .relrot φ)) : Sing s T y.2 ↔ Sing s T x.2 := by
  obtain ⟨p, rfl, e⟩ := hg.vec
  have : elab1 .expMap (⟨.vec .relrot, p⟩ : Tree ε) =
      some ⟨_, Expr.un (L := geoLib ε) 0 .expRel p⟩ := rfl
  rw [this] at h
  cases h
  refine (sing_un 0 .expRel p e).trans ⟨fun h => h.elim id fun h => (h.2 trivial).elim, .inl⟩

theorem sing_expMotion {x y : Tree ε} {ξ : Twist} (h : elab1 .expMap x = some y)
    (hg : Good s x (.vec .twist ξ)) :
    Sing s T y.2 ↔ Sing s T x.2 ∨ T ∈ objects x.2 ∧ angular ξ = 0 := by
  obtain ⟨p, rfl, e⟩ := hg.vec
  have : elab1 .expMap (⟨.vec .twist, p⟩ : Tree ε) =
      some ⟨_, Expr.un (L := geoLib ε) 0 .expTwist p⟩ := rfl
  rw [this] at h
  cases h
  exact (sing_un 0 .expTwist p e).trans (or_congr Iff.rfl (and_congr Iff.rfl not_not))

/-- The tree has a singular node above `T` exactly when the expression is singular for `T`. -/
theorem sing_means (hε : 0 < ε) {e : SExpr} {o : Obj} (h : Means ε s e o) :
    ∀ {x : Tree ε}, e.elab ε = some x → (Sing s T x.2 ↔ SingularFor ε s T e) := by
  have un_smooth : ∀ {t : Tag1} {op : UOp} {e : SExpr} {o : Obj} {x y : Tree ε}, Smooth1 t →
      Means ε s e o → ¬SingularUn op o → (Sing s T y.2 ↔ SingularFor ε s T e) →
      elab1 t y = some x → (Sing s T x.2 ↔ SingularFor ε s T (.un op e)) := by
    intro t op e o x y ht hm hs ih hx
    rw [singularFor_un hε hm, sing1 hx ht, ih]
    exact ⟨.inl, fun h => h.elim id fun h => (hs h.2).elim⟩
  have bin_smooth : ∀ {t : Tag2} {op : BOp} {l r : SExpr} {a b : Obj} {x y z : Tree ε},
      Means ε s l a → Means ε s r b → ¬SingularBin op a b → ¬SingularRight op a b →
      (Sing s T y.2 ↔ SingularFor ε s T l) → (Sing s T z.2 ↔ SingularFor ε s T r) →
      elab2 t y z = some x → (Sing s T x.2 ↔ SingularFor ε s T (.bin op l r)) := by
    intro t op l r a b x y z hm hm' hs hs' ih ih' hx
    rw [singularFor_bin hε hm hm', sing2 hx, ih, ih']
    constructor
    · rintro (h | h)
      · exact .inl h
      · exact .inr (.inl h)
    · rintro (h | h | h | h)
      · exact .inl h
      · exact .inr h
      · exact (hs h.2).elim
      · exact (hs' h.2).elim
  induction h with
  | leaf a c τ hv => intro x hx; cases hx; exact Iff.rfl
  | dynamic a _ hm ih =>
    intro x hx
    obtain ⟨y, hy, rfl⟩ := elab_dynamic hx
    have := ih hy
    exact this
  | evalTo τ hm hk ih =>
    intro x hx
    obtain ⟨y, hy, hx⟩ := Option.bind_eq_some_iff.mp hx
    rw [singularFor_un hε hm, ← ih hy]
    change elabTo τ y = some x at hx
    unfold elabTo at hx
    have h0 : ∀ o, ¬SingularUn (.to τ) o := by intro o; cases o <;> exact id
    refine Iff.trans ?_ ⟨.inl, fun h => h.elim id fun h => (h0 _ h.2).elim⟩
    split_ifs at hx with hτ
    · subst hτ
      cases hx
      exact Iff.rfl
    · obtain ⟨op, ho, rfl⟩ := Option.map_eq_some_iff.mp hx
      refine ⟨fun h => h.elim id fun ⟨_, v, _, h⟩ => (h (conv_away ho _)).elim, .inl⟩
  | neg hm ih =>
    intro x hx
    obtain ⟨y, hy, hx⟩ := Option.bind_eq_some_iff.mp hx
    exact un_smooth (t := .minus) (.inl rfl) hm id (ih hy) hx
  | squaredNorm hm hk ih =>
    intro x hx
    obtain ⟨y, hy, hx⟩ := Option.bind_eq_some_iff.mp hx
    exact un_smooth (t := .sqNorm) (by simp [Smooth1]) hm id (ih hy) hx
  | @norm _ k v hm hk ih =>
    intro x hx
    obtain ⟨y, hy, hx⟩ := Option.bind_eq_some_iff.mp hx
    have h1 := (elab_written _ hy).1
    have ih := ih hy
    obtain ⟨p, rfl, e⟩ := (good_of (means_acc hε hm) hy).vec
    cases (elab1_norm hk _).symm.trans hx
    rw [singularFor_un hε hm, ← ih, ← h1]
    exact (sing_un 0 (.norm k) p e).trans (or_congr Iff.rfl (and_congr Iff.rfl not_not))
  | @normalized _ k v hm hk ih =>
    intro x hx
    obtain ⟨y, hy, hx⟩ := Option.bind_eq_some_iff.mp hx
    have h1 := (elab_written _ hy).1
    have ih := ih hy
    obtain ⟨p, rfl, e⟩ := (good_of (means_acc hε hm) hy).vec
    cases (elab1_normalize hk _).symm.trans hx
    rw [singularFor_un hε hm, ← ih, ← h1]
    exact (sing_un 0 (.normalize k) p e).trans (or_congr Iff.rfl (and_congr Iff.rfl not_not))
  | @acos _ v hm hl hu ih =>
    intro x hx
    obtain ⟨y, hy, hx⟩ := Option.bind_eq_some_iff.mp hx
    have h1 := (elab_written _ hy).1
    have ih := ih hy
    obtain ⟨p, rfl, e⟩ := (good_of (means_acc hε hm) hy).vec
    cases hx
    rw [singularFor_un hε hm, ← ih, ← h1]
    refine (sing_un 0 .acos p e).trans (or_congr Iff.rfl (and_congr Iff.rfl ?_))
    change ¬(v (0 : Fin 1) ≠ 1 ∧ v (0 : Fin 1) ≠ -1) ↔ v (0 : Fin 1) = 1 ∨ v (0 : Fin 1) = -1
    tauto
  | inverseRot hm ih =>
    intro x hx
    obtain ⟨y, hy, hx⟩ := Option.bind_eq_some_iff.mp hx
    exact un_smooth (t := .inverse) (by simp [Smooth1]) hm id (ih hy) hx
  | inverseMotion hm hS ih =>
    intro x hx
    obtain ⟨y, hy, hx⟩ := Option.bind_eq_some_iff.mp hx
    exact un_smooth (t := .inverse) (by simp [Smooth1]) hm id (ih hy) hx
  | rotation hm ih =>
    intro x hx
    obtain ⟨y, hy, hx⟩ := Option.bind_eq_some_iff.mp hx
    have ih := ih hy
    obtain ⟨k, p, v, rfl, -⟩ := (good_of (means_acc hε hm) hy).motion
    exact un_smooth (t := .rotation) (by simp [Smooth1]) hm id ih hx
  | translation hm ih =>
    intro x hx
    obtain ⟨y, hy, hx⟩ := Option.bind_eq_some_iff.mp hx
    have ih := ih hy
    obtain ⟨k, p, v, rfl, e, -⟩ := (good_of (means_acc hε hm) hy).motion
    cases hx
    rw [singularFor_un hε hm, ← ih]
    refine (sing_un 0 (.getTrans k) p e).trans (or_congr Iff.rfl ?_)
    exact ⟨fun h => (h.2 trivial).elim, fun h => h.2.elim⟩
  | rotationRot hm ih =>
    intro x hx
    obtain ⟨y, hy, hx⟩ := Option.bind_eq_some_iff.mp hx
    have ih := ih hy
    obtain ⟨k, p, v, rfl, -⟩ := (good_of (means_acc hε hm) hy).rot
    cases hx
    rw [singularFor_un hε hm, ← ih]
    exact ⟨.inl, fun h => h.elim id fun h => h.2.elim⟩
  | translationRot hm ih =>
    intro x hx
    obtain ⟨y, hy, hx⟩ := Option.bind_eq_some_iff.mp hx
    have h1 := (elab_written _ hy).1
    have ih := ih hy
    obtain ⟨k, p, v, rfl, e, -⟩ := (good_of (means_acc hε hm) hy).rot
    cases hx
    rw [singularFor_un hε hm, ← ih, ← h1]
    refine (sing_un 0 (.zeroTrans k) p e).trans (or_congr Iff.rfl (and_congr Iff.rfl ?_))
    exact ⟨fun _ => trivial, fun _ => id⟩
  | expRot hm hr ih =>
    intro x hx
    obtain ⟨y, hy, hx⟩ := Option.bind_eq_some_iff.mp hx
    rw [singularFor_un hε hm, sing_expRot hx (good_of (means_acc hε hm) hy), ih hy]
    exact ⟨.inl, fun h => h.elim id fun h => h.2.elim⟩
  | logRot hm hπ hr ih =>
    intro x hx
    obtain ⟨y, hy, hx⟩ := Option.bind_eq_some_iff.mp hx
    rw [singularFor_un hε hm, sing_logRot hx (good_of (means_acc hε hm) hy), ih hy,
      (elab_written _ hy).1]
    exact Iff.rfl
  | expMotion hm hT hr ih =>
    intro x hx
    obtain ⟨y, hy, hx⟩ := Option.bind_eq_some_iff.mp hx
    rw [singularFor_un hε hm, sing_expMotion hx (good_of (means_acc hε hm) hy), ih hy,
      (elab_written _ hy).1]
    exact Iff.rfl
  | logMotion hm hT hπ hr ih =>
    intro x hx
    obtain ⟨y, hy, hx⟩ := Option.bind_eq_some_iff.mp hx
    rw [singularFor_un hε hm, sing_logMotion hx (good_of (means_acc hε hm) hy), ih hy,
      (elab_written _ hy).1]
    exact Iff.rfl
  | @addVec _ _ k _ _ hm hm' ih ih' =>
    intro x hx
    obtain ⟨y, hy, hx⟩ := Option.bind_eq_some_iff.mp hx
    obtain ⟨z, hz, hx⟩ := Option.bind_eq_some_iff.mp hx
    have h1 := ih hy
    have h2 := ih' hz
    obtain ⟨p, rfl, e⟩ := (good_of (means_acc hε hm) hy).vec
    obtain ⟨q, rfl, e'⟩ := (good_of (means_acc hε hm') hz).vec
    exact bin_smooth (t := .sum) hm hm' id (by cases k <;> exact id) h1 h2 hx
  | @subVec _ _ k _ _ hm hm' ih ih' =>
    intro x hx
    obtain ⟨y, hy, hx⟩ := Option.bind_eq_some_iff.mp hx
    obtain ⟨z, hz, hx⟩ := Option.bind_eq_some_iff.mp hx
    have h1 := ih hy
    have h2 := ih' hz
    obtain ⟨p, rfl, e⟩ := (good_of (means_acc hε hm) hy).vec
    obtain ⟨q, rfl, e'⟩ := (good_of (means_acc hε hm') hz).vec
    exact bin_smooth (t := .subtract) hm hm' id id h1 h2 hx
  | @mulScalarVec _ _ k _ _ hm hm' ih ih' =>
    intro x hx
    obtain ⟨y, hy, hx⟩ := Option.bind_eq_some_iff.mp hx
    obtain ⟨z, hz, hx⟩ := Option.bind_eq_some_iff.mp hx
    have h1 := ih hy
    have h2 := ih' hz
    obtain ⟨p, rfl, e⟩ := (good_of (means_acc hε hm) hy).vec
    obtain ⟨q, rfl, e'⟩ := (good_of (means_acc hε hm') hz).vec
    cases k
    · exact bin_smooth (t := .product) hm hm' id id h1 h2 hx
    all_goals exact bin_smooth (t := .scale) hm hm' id id h1 h2 hx
  | @mulVecScalar _ _ k _ _ hm hm' ih ih' =>
    intro x hx
    obtain ⟨y, hy, hx⟩ := Option.bind_eq_some_iff.mp hx
    obtain ⟨z, hz, hx⟩ := Option.bind_eq_some_iff.mp hx
    have h1 := ih hy
    have h2 := ih' hz
    obtain ⟨p, rfl, e⟩ := (good_of (means_acc hε hm) hy).vec
    obtain ⟨q, rfl, e'⟩ := (good_of (means_acc hε hm') hz).vec
    cases k
    · exact bin_smooth (t := .product) hm hm' id id h1 h2 hx
    all_goals exact bin_smooth (t := .scaleR) hm hm' id id h1 h2 hx
  | @divVec _ _ k _ v hm hm' h0 ih ih' =>
    intro x hx
    obtain ⟨y, hy, hx⟩ := Option.bind_eq_some_iff.mp hx
    obtain ⟨z, hz, hx⟩ := Option.bind_eq_some_iff.mp hx
    have h1 := ih hy
    have h2 := ih' hz
    obtain ⟨p, rfl, e⟩ := (good_of (means_acc hε hm) hy).vec
    obtain ⟨q, rfl, e'⟩ := (good_of (means_acc hε hm') hz).vec
    cases k
    · exact bin_smooth (t := .divide) hm hm' id id h1 h2 hx
    all_goals exact bin_smooth (t := .scaleDiv) hm hm' id id h1 h2 hx
  | @dot _ _ k _ _ hm hm' hk ih ih' =>
    intro x hx
    obtain ⟨y, hy, hx⟩ := Option.bind_eq_some_iff.mp hx
    obtain ⟨z, hz, hx⟩ := Option.bind_eq_some_iff.mp hx
    have h1 := ih hy
    have h2 := ih' hz
    obtain ⟨p, rfl, e⟩ := (good_of (means_acc hε hm) hy).vec
    obtain ⟨q, rfl, e'⟩ := (good_of (means_acc hε hm') hz).vec
    exact bin_smooth (t := .dot) hm hm' id id h1 h2 hx
  | addPointVec hm hm' ih ih' =>
    intro x hx
    obtain ⟨y, hy, hx⟩ := Option.bind_eq_some_iff.mp hx
    obtain ⟨z, hz, hx⟩ := Option.bind_eq_some_iff.mp hx
    have h1 := ih hy
    have h2 := ih' hz
    obtain ⟨p, rfl, e⟩ := (good_of (means_acc hε hm) hy).point
    obtain ⟨q, rfl, e'⟩ := (good_of (means_acc hε hm') hz).vec
    exact bin_smooth (t := .sum) hm hm' id id h1 h2 hx
  | addVecPoint hm hm' ih ih' =>
    intro x hx
    obtain ⟨y, hy, hx⟩ := Option.bind_eq_some_iff.mp hx
    obtain ⟨z, hz, hx⟩ := Option.bind_eq_some_iff.mp hx
    have h1 := ih hy
    have h2 := ih' hz
    obtain ⟨p, rfl, e⟩ := (good_of (means_acc hε hm) hy).vec
    obtain ⟨q, rfl, e'⟩ := (good_of (means_acc hε hm') hz).point
    exact bin_smooth (t := .sum) hm hm' id id h1 h2 hx
  | subPoint hm hm' ih ih' =>
    intro x hx
    obtain ⟨y, hy, hx⟩ := Option.bind_eq_some_iff.mp hx
    obtain ⟨z, hz, hx⟩ := Option.bind_eq_some_iff.mp hx
    have h1 := ih hy
    have h2 := ih' hz
    obtain ⟨p, rfl, e⟩ := (good_of (means_acc hε hm) hy).point
    obtain ⟨q, rfl, e'⟩ := (good_of (means_acc hε hm') hz).point
    exact bin_smooth (t := .subtract) hm hm' id id h1 h2 hx
  | subPointVec hm hm' ih ih' =>
    intro x hx
    obtain ⟨y, hy, hx⟩ := Option.bind_eq_some_iff.mp hx
    obtain ⟨z, hz, hx⟩ := Option.bind_eq_some_iff.mp hx
    have h1 := ih hy
    have h2 := ih' hz
    obtain ⟨p, rfl, e⟩ := (good_of (means_acc hε hm) hy).point
    obtain ⟨q, rfl, e'⟩ := (good_of (means_acc hε hm') hz).vec
    exact bin_smooth (t := .subtract) hm hm' id id h1 h2 hx
  | mulRot hm hm' ih ih' =>
    intro x hx
    obtain ⟨y, hy, hx⟩ := Option.bind_eq_some_iff.mp hx
    obtain ⟨z, hz, hx⟩ := Option.bind_eq_some_iff.mp hx
    have h1 := ih hy
    have h2 := ih' hz
    obtain ⟨k, p, v, rfl, -⟩ := (good_of (means_acc hε hm) hy).rot
    obtain ⟨l, q, w, rfl, -⟩ := (good_of (means_acc hε hm') hz).rot
    exact bin_smooth (t := .compose) hm hm' id id h1 h2 hx
  | rotate hm hm' ih ih' =>
    intro x hx
    obtain ⟨y, hy, hx⟩ := Option.bind_eq_some_iff.mp hx
    obtain ⟨z, hz, hx⟩ := Option.bind_eq_some_iff.mp hx
    have h1 := ih hy
    have h2 := ih' hz
    obtain ⟨k, p, v, rfl, -⟩ := (good_of (means_acc hε hm) hy).rot
    obtain ⟨q, rfl, e'⟩ := (good_of (means_acc hε hm') hz).vec
    exact bin_smooth (t := .rotate) hm hm' id id h1 h2 hx
  | mulMotion hm hm' ih ih' =>
    intro x hx
    obtain ⟨y, hy, hx⟩ := Option.bind_eq_some_iff.mp hx
    obtain ⟨z, hz, hx⟩ := Option.bind_eq_some_iff.mp hx
    have h1 := ih hy
    have h2 := ih' hz
    obtain ⟨k, p, v, rfl, -⟩ := (good_of (means_acc hε hm) hy).motion
    obtain ⟨l, q, w, rfl, -⟩ := (good_of (means_acc hε hm') hz).motion
    exact bin_smooth (t := .compose) hm hm' id id h1 h2 hx
  | act hm hm' ih ih' =>
    intro x hx
    obtain ⟨y, hy, hx⟩ := Option.bind_eq_some_iff.mp hx
    obtain ⟨z, hz, hx⟩ := Option.bind_eq_some_iff.mp hx
    have h1 := ih hy
    have h2 := ih' hz
    obtain ⟨k, p, v, rfl, -⟩ := (good_of (means_acc hε hm) hy).motion
    obtain ⟨q, rfl, e'⟩ := (good_of (means_acc hε hm') hz).vec
    exact bin_smooth (t := .transform) hm hm' id id h1 h2 hx
  | boxPlusRot hm hm' hr ih ih' =>
    intro x hx
    obtain ⟨y, hy, hx⟩ := Option.bind_eq_some_iff.mp hx
    obtain ⟨z, hz, hx⟩ := Option.bind_eq_some_iff.mp hx
    have h1 := ih hy
    have h2 := ih' hz
    have hg := good_of (means_acc hε hm') hz
    obtain ⟨k, p, v, rfl, -⟩ := (good_of (means_acc hε hm) hy).rot
    obtain ⟨q, rfl, e'⟩ := hg.vec
    change (elab1 .expMap (⟨.vec .relrot, q⟩ : Tree ε)).bind (elab2 .composeFlipped ⟨.rot k, p⟩) = _ at hx
    obtain ⟨w, hw, hx⟩ := Option.bind_eq_some_iff.mp hx
    exact bin_smooth (t := .composeFlipped) hm hm' id id h1 ((sing_expRot hw hg).trans h2) hx
  | boxPlusMotion hm hm' hD hr ih ih' =>
    intro x hx
    obtain ⟨y, hy, hx⟩ := Option.bind_eq_some_iff.mp hx
    obtain ⟨z, hz, hx⟩ := Option.bind_eq_some_iff.mp hx
    have h1 := ih hy
    have h2 := ih' hz
    have hw' := (elab_written _ hz).1
    have hg := good_of (means_acc hε hm') hz
    obtain ⟨k, p, v, rfl, -⟩ := (good_of (means_acc hε hm) hy).motion
    obtain ⟨q, rfl, e'⟩ := hg.vec
    change (elab1 .expMap (⟨.vec .twist, q⟩ : Tree ε)).bind (elab2 .composeFlipped ⟨.rigid k, p⟩) = _ at hx
    obtain ⟨w, hw, hx⟩ := Option.bind_eq_some_iff.mp hx
    rw [singularFor_bin hε hm hm', sing2 hx, sing_expMotion hw hg, h1, h2, hw']
    constructor
    · rintro (h | h | h)
      · exact .inl h
      · exact .inr (.inl h)
      · exact .inr (.inr (.inr h))
    · rintro (h | h | h | h)
      · exact .inl h
      · exact .inr (.inl h)
      · exact h.2.elim
      · exact .inr (.inr h)
  | @boxMinusRot _ _ R S φ hm hm' hR hπ hr ih ih' =>
    intro x hx
    obtain ⟨y, hy, hx⟩ := Option.bind_eq_some_iff.mp hx
    obtain ⟨z, hz, hx⟩ := Option.bind_eq_some_iff.mp hx
    have h1 := ih hy
    have h2 := ih' hz
    have w1 := (elab_written _ hy).1
    have w2 := (elab_written _ hz).1
    have hg := good_of (means_acc hε hm) hy
    have hg' := good_of (means_acc hε hm') hz
    have hS : IsRotation S := by
      obtain ⟨l, q, w, -, -, hw, rfl⟩ := hg'.rot
      exact rotDen_rotation hw
    have c1 := acc_invRot hg'
    have c2 : ∀ w, Good s w (.rot S⁻¹) → Acc s (elab2 .compose y w) (.rot (R * S⁻¹)) :=
      fun w hw => acc_compose hg hw
    have hx' : ((elab1 .inverse z).bind (elab2 .compose y)).bind (elab1 .logMap) = some x := by
      obtain ⟨k, p, v, rfl, -⟩ := hg.rot
      obtain ⟨l, q, w, rfl, -⟩ := hg'.rot
      exact hx
    obtain ⟨m, hm1, hx⟩ := Option.bind_eq_some_iff.mp hx'
    obtain ⟨n, hn, hm1⟩ := Option.bind_eq_some_iff.mp hm1
    have hs := (elab2_same hm1).before (elab1_same hn)
    have h3 : R * S⁻¹ = 1 ↔ R = S := by
      rw [Matrix.inv_eq_right_inv hS.1]
      constructor
      · intro h
        rw [← mul_one R, ← mul_eq_one_comm.mp hS.1, ← mul_assoc, h, one_mul]
      · rintro rfl; exact hS.1
    rw [singularFor_bin hε hm hm', sing_logRot hx (acc_good (c2 n (acc_good c1 hn)) hm1),
      sing2 hm1, sing1 (t := .inverse) hn (by simp [Smooth1]), h1, h2, hs.obj, w1, w2, h3,
      List.mem_append]
    constructor
    · rintro ((h | h) | h)
      · exact .inl h
      · exact .inr (.inl h)
      · exact .inr (.inr (.inl h))
    · rintro (h | h | h | h)
      · exact .inl (.inl h)
      · exact .inl (.inr h)
      · exact .inr h
      · exact h.2.elim
  | @boxMinusMotion _ _ M S ξ D hm hm' hT hD hπ hr ih ih' =>
    intro x hx
    obtain ⟨y, hy, hx⟩ := Option.bind_eq_some_iff.mp hx
    obtain ⟨z, hz, hx⟩ := Option.bind_eq_some_iff.mp hx
    have h1 := ih hy
    have h2 := ih' hz
    have w1 := (elab_written _ hy).1
    have w2 := (elab_written _ hz).1
    have hg := good_of (means_acc hε hm) hy
    have hg' := good_of (means_acc hε hm') hz
    have hS : IsRotation S.R := by
      obtain ⟨l, q, w, -, -, hw, rfl⟩ := hg'.motion
      have := validRigid_rotation l w hw
      rwa [rigidDen_eq l w hw]
    let S' : Rigid := ⟨S.Rᵀ, -(S.Rᵀ *ᵥ S.t)⟩
    have h0 : S.comp S' = Rigid.id := by
      refine Rigid.ext' hS.1 ?_
      change S.R *ᵥ -(S.Rᵀ *ᵥ S.t) + S.t = 0
      rw [mulVec_neg, mulVec_mulVec, hS.1, one_mulVec, neg_add_cancel]
    have c1 := acc_invMotion hg' h0
    have c2 : ∀ w, Good s w (.motion S') → Acc s (elab2 .compose y w) (.motion (M.comp S')) :=
      fun w hw => acc_mulMotion hg hw
    have hx' : ((elab1 .inverse z).bind (elab2 .compose y)).bind (elab1 .logMap) = some x := by
      obtain ⟨k, p, v, rfl, -⟩ := hg.motion
      obtain ⟨l, q, w, rfl, -⟩ := hg'.motion
      exact hx
    obtain ⟨m, hm1, hx⟩ := Option.bind_eq_some_iff.mp hx'
    obtain ⟨n, hn, hm1⟩ := Option.bind_eq_some_iff.mp hm1
    have hs := (elab2_same hm1).before (elab1_same hn)
    have h3 : (M.comp S').R = 1 ↔ M.R = S.R := by
      change M.R * S.Rᵀ = 1 ↔ _
      constructor
      · intro h
        rw [← mul_one M.R, ← mul_eq_one_comm.mp hS.1, ← mul_assoc, h, one_mul]
      · intro h; rw [h]; exact hS.1
    rw [singularFor_bin hε hm hm', sing_logMotion hx (acc_good (c2 n (acc_good c1 hn)) hm1),
      sing2 hm1, sing1 (t := .inverse) hn (by simp [Smooth1]), h1, h2, hs.obj, w1, w2, h3,
      List.mem_append]
    constructor
    · rintro ((h | h) | h)
      · exact .inl h
      · exact .inr (.inl h)
      · exact .inr (.inr (.inl h))
    · rintro (h | h | h | h)
      · exact .inl (.inl h)
      · exact .inl (.inr h)
      · exact .inr h
      · exact h.2.elim

end WG
