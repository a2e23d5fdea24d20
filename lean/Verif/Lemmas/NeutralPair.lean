import Verif.Lemmas.NeutralSame

/-! # Pairs of trees: with Identity and Zero, and with ordinary neutral objects -/

namespace WG
open Matrix Spec

variable {ε : ℝ} {s : Memory}

/-- A tree with Identity and Zero and a tree without that have the same value and, occurrence by
occurrence, the same products of local derivatives where both are finite.  If `q`, then the first is
finite where the second is, and an Identity or Zero does not depend on the target. -/
structure XPair (q : Prop) (s : Memory) (t : Target (xLib ε)) (t' : Target (geoLib ε))
    (h : Twin (XTy.leaf t.ty) t'.ty) (x : XTree ε) (x' : Tree ε) : Prop where
  tw : Twin x.1.leaf x'.1
  val : ∃ v v', value (xmem ε s) x.2 = some v ∧ value (L := geoLib ε) s x'.2 = some v' ∧
    Valid x.1.leaf (x.1.content v) ∧ Valid x'.1 v' ∧ obj x.1.leaf (x.1.content v) = obj x'.1 v'
  occ : List.Forall₂ (Agree q tw h) (occurrences (xmem ε s) t x.2)
    (occurrences (L := geoLib ε) s t' x'.2)
  wrap : q → x.1.wrapper = true → occurrences (xmem ε s) t x.2 = []

variable {t : Target (xLib ε)} {t' : Target (geoLib ε)} {h : Twin (XTy.leaf t.ty) t'.ty}
  {q : Prop}

theorem omat_one_mul {m n : Type} [Fintype m] [DecidableEq m] (A : OMat m n) :
    OMat.mul (some 1) A = A := by
  cases A with
  | none => rfl
  | some A => exact congrArg some (Matrix.one_mul A)

theorem slopeU_x {a b : XTy} {op : XUn a b} {e : Expr (xLib ε) a} {v : a.Val} {y : b.Val}
    (hv : value (xmem ε s) e = some v) (hy : evalXUn ε op v = some y) :
    slopeU (xmem ε s) op e = jacXUn ε op y v := by
  unfold slopeU
  rw [hv]
  change (evalXUn ε op v).bind _ = _
  rw [hy]; rfl

theorem slopeU_g {a b : Ty} {op : Un a b} {e : Expr (geoLib ε) a} {v : a.Val} {y : b.Val}
    (hv : value (L := geoLib ε) s e = some v) (hy : evalUn ε op v = some y) :
    slopeU (L := geoLib ε) s op e = jacUn ε op y v := by
  unfold slopeU
  rw [hv]
  change (evalUn ε op v).bind _ = _
  rw [hy]; rfl

theorem forall₂_map {A B A' B' : Type} {R : A → B → Prop} {R' : A' → B' → Prop} {f : A → A'}
    {g : B → B'} (hfg : ∀ a b, R a b → R' (f a) (g b)) :
    ∀ {l : List A} {l' : List B}, List.Forall₂ R l l' → List.Forall₂ R' (l.map f) (l'.map g)
  | _, _, .nil => .nil
  | _, _, .cons i j => .cons (hfg _ _ i) (forall₂_map hfg j)

theorem forall₂_append {A B : Type} {R : A → B → Prop} :
    ∀ {l m : List A} {l' m' : List B}, List.Forall₂ R l l' → List.Forall₂ R m m' →
      List.Forall₂ R (l ++ m) (l' ++ m')
  | _, _, _, _, .nil, j => j
  | _, _, _, _, .cons i k, j => .cons i (forall₂_append k j)

theorem reIdx_left_one {a b c : Ty} (tw0 : Twin b a) (tw : Twin a c) (J : OMat b.Idx a.Idx)
    (k : reIdx tw0 (Twin.refl a) J = some 1) : reIdx (tw0.trans tw) tw J = some 1 := by
  cases tw <;> cases tw0 <;> exact k

theorem reIdx_right_one {a b c : Ty} (tw0 : Twin b a) (tw : Twin c a) (J : OMat b.Idx a.Idx)
    (k : reIdx tw0 (Twin.refl a) J = some 1) :
    reIdx (tw.trans tw0.symm) tw (some (1 : Matrix c.Idx c.Idx ℝ)) = J := by
  rcases J with _ | J
  · cases k
  · cases tw <;> cases tw0 <;> exact k.symm

theorem forall₂_map_nil {A B A' B' : Type} {R : A → B → Prop} {R' : A' → B' → Prop} {f : A → A'}
    {g : B → B'} {l : List A} {l' : List B} (hl : l = []) (h : List.Forall₂ R l l') :
    List.Forall₂ R' (l.map f) (l'.map g) := by
  subst hl
  cases h
  exact .nil

theorem uform_wrapper {u : Tag1} {a b : XTy} {op : XUn a b} (f : UForm u a b op)
    (hb : b.wrapper = true) : a.wrapper = true := by
  cases f with
  | value => cases hb
  | _ => first | assumption | rfl

theorem bform_wrapper {u : Tag2} {a b c : XTy} {op : XBin a b c} (f : BForm u a b c op)
    (hc : c.wrapper = true) : a.wrapper = true ∧ b.wrapper = true := by
  cases f with
  | value => cases hc
  | dangling => cases hc
  | dotZ => cases hc
  | keepL hb => exact ⟨hc, hb⟩
  | keepR ha => exact ⟨ha, hc⟩

theorem bform_dead {u : Tag2} {a b c : XTy} {op : XBin a b c} (f : BForm u a b c op) :
    op.dead = false ∨ (u ≠ .compose ∧ u ≠ .composeFlipped) ∧ ∀ v w, evalXBin op v w = none := by
  cases f with
  | dangling op hu => exact .inr ⟨hu, fun _ _ => rfl⟩
  | _ => exact .inl rfl

/-- An operand that the search for conversions leaves an Identity or Zero is that operand. -/
theorem xside_wrapper {a : XTy} {w : XSide a} (hw : w.ty.wrapper = true) :
    a.wrapper = true ∧ w.ty = a := by
  cases w with
  | stay => exact ⟨hw, rfl⟩
  | via b op => cases hw

theorem xside_plain {a : XTy} {w : XSide a} (hw : a.wrapper = false) : w.ty.wrapper = false := by
  cases w with
  | stay => exact hw
  | via b op => rfl

theorem xside_occ_nil {a : XTy} {w : XSide a} {x : Expr (xLib ε) a}
    (h0 : occurrences (xmem ε s) t x = []) : occurrences (xmem ε s) t (w.apply x) = [] := by
  cases w with
  | stay => exact h0
  | via b op => exact congrArg (List.map _) h0

/-- No right Jacobian (or it does not compile) for operands `a` and `b`. -/
def LackR (u : Tag2) (a b : XTy) : Prop :=
  b.wrapper = false ∧ a.wrapper = true ∧ (u = .rotate ∨ u = .transform)

theorem plain_rigid {a : XTy} (h : a.wrapper = false) {k : RigK} (hk : a.leaf = .rigid k) :
    a = .plain (.rigid k) := by
  cases a with
  | plain τ => cases hk; rfl
  | _ => cases h

theorem id_rigid {a : XTy} (h : a.wrapper = true) {k : RigK} (hk : a.leaf = .rigid k) :
    a = .idRigid k := by
  cases a with
  | idRigid => cases hk; rfl
  | plain => cases h
  | _ => cases hk

/-- Composition of an Identity rigid transform and a rigid transform is ambiguous. -/
theorem ambiguousR (k l : RigK) : resolve2 (ovs2 .compose) (.idRigid k) (.plain (.rigid l)) = none := by
  cases k <;> cases l <;> rfl

theorem ambiguousL (k l : RigK) :
    resolve2 (ovs2 .composeFlipped) (.plain (.rigid k)) (.idRigid l) = none := by
  cases k <;> cases l <;> rfl

theorem hasR_of {u : Tag2} {a b : XTy} {w : XSide a} {w' : XSide b}
    {r : (c : XTy) × XBin w.ty w'.ty c} (f : BForm u w.ty w'.ty r.1 r.2)
    (hr : resolve2 (ovs2 u) w.ty w'.ty = some (some r)) (hb : b.wrapper = false)
    (hk : u = .compose → ∀ k, w.ty.leaf = .rigid k → ∃ l, w'.ty.leaf = .rigid l)
    (h0 : ¬LackR u a b) : r.2.hasR := by
  have hb' := xside_plain (w := w') hb
  have ha' := fun h => xside_wrapper (w := w) h
  obtain ⟨c, op⟩ := r
  dsimp only at f ⊢
  generalize w.ty = α at *
  generalize w'.ty = β at *
  cases f with
  | value => trivial
  | dangling => trivial
  | dotZ => trivial
  | keepL hb ht => rcases ht with rfl | rfl | rfl <;> trivial
  | keepR ha ht =>
    rcases ht with rfl | rfl | rfl | rfl | rfl
    · trivial
    · intro k hk'
      obtain ⟨l, hl⟩ := hk rfl k hk'
      obtain rfl := id_rigid ha hk'
      obtain rfl := plain_rigid hb' hl
      rw [ambiguousR] at hr
      cases hr
    · trivial
    · exact h0 ⟨hb, (ha' ha).1, .inl rfl⟩
    · exact h0 ⟨hb, (ha' ha).1, .inr rfl⟩

theorem hasL_of {u : Tag2} {a b : XTy} {w : XSide a} {w' : XSide b}
    {r : (c : XTy) × XBin w.ty w'.ty c} (f : BForm u w.ty w'.ty r.1 r.2)
    (hr : resolve2 (ovs2 u) w.ty w'.ty = some (some r)) (ha : a.wrapper = false)
    (hk : u = .composeFlipped → ∀ k, w'.ty.leaf = .rigid k → ∃ l, w.ty.leaf = .rigid l) :
    r.2.hasL := by
  have ha' := xside_plain (w := w) ha
  obtain ⟨c, op⟩ := r
  dsimp only at f ⊢
  generalize w.ty = α at *
  generalize w'.ty = β at *
  cases f with
  | value => trivial
  | dangling => trivial
  | dotZ => trivial
  | keepR ha ht => rcases ht with rfl | rfl | rfl | rfl | rfl <;> trivial
  | keepL hb ht =>
    rcases ht with rfl | rfl | rfl
    · trivial
    · trivial
    · intro k hk'
      obtain ⟨l, hl⟩ := hk rfl k hk'
      obtain rfl := id_rigid hb hk'
      obtain rfl := plain_rigid ha' hl
      rw [ambiguousL] at hr
      cases hr

/-- Compositions are of operands of the same kind. -/
theorem compose_rigid {u : Tag2} (hu : u = .compose ∨ u = .composeFlipped) {a b a' b' : Ty}
    (tw : Twin a a') (tu : Twin b b') {r} (hr : direct2 u a' b' = some r) :
    (∀ k, a = .rigid k → ∃ l, b = .rigid l) ∧ ∀ k, b = .rigid k → ∃ l, a = .rigid l := by
  constructor
  · rintro k rfl
    cases tw
    cases tu with
    | rigid l l' => exact ⟨_, rfl⟩
    | _ => rcases hu with rfl | rfl <;> cases hr
  · rintro k rfl
    cases tu
    cases tw with
    | rigid l l' => exact ⟨_, rfl⟩
    | vec l => rcases hu with rfl | rfl <;> cases l <;> cases hr
    | rot l l' => rcases hu with rfl | rfl <;> cases l' <;> cases hr
    | point => rcases hu with rfl | rfl <;> cases hr

/-- Conversions keep the value, and their derivative is the identity. -/
theorem convX_spec (hε : 0 < ε) {a : XTy} {b : Ty} {op : XUn a (.plain b)}
    (hc : convX a b = some op) : ∃ tw : Twin b a.leaf, ∀ v, Valid a.leaf (a.content v) →
      ∃ y : b.Val, evalXUn ε op v = some y ∧ Valid b y ∧ obj b y = obj a.leaf (a.content v) ∧
        reIdx tw (Twin.refl _) (jacXUn ε op y v) = some 1 := by
  unfold convX at hc
  split at hc
  · next τ =>
    obtain ⟨q, hq, rfl⟩ := Option.map_eq_some_iff.mp hc
    unfold conv1 at hq
    split at hq
    · next k k' =>
      cases hq
      refine ⟨.rot _ _, fun v hv => ?_⟩
      obtain ⟨y, k1, k2, k3⟩ := un_sound hε (Un.convRot k k') v hv trivial
      exact ⟨y, k1, k2, congrArg Obj.rot k3, rfl⟩
    · next k k' =>
      cases hq
      refine ⟨.rigid _ _, fun v hv => ?_⟩
      obtain ⟨y, k1, k2, k3⟩ := un_sound hε (Un.convRigid k k') v hv trivial
      exact ⟨y, k1, k2, congrArg Obj.motion k3, rfl⟩
    · cases hq
  · split_ifs at hc with _ hb
    subst hb
    cases hc
    refine ⟨.refl _, fun v hv => ⟨_, rfl, hv, rfl, ?_⟩⟩
    exact eq_of_heq (reIdx_heq _ _ _)

theorem XPair.convX (hε : 0 < ε) {a : XTy} {b : Ty} {op : XUn a (.plain b)}
    {x : Expr (xLib ε) a} {x' : Tree ε} (hc : convX a b = some op)
    (p : XPair q s t t' h ⟨a, x⟩ x') : XPair q s t t' h ⟨.plain b, .un (L := xLib ε) 0 op x⟩ x' := by
  obtain ⟨tw, ⟨v, v', h1, h2, h3, h4, h5⟩, occ, wrap⟩ := p
  obtain ⟨tw0, H⟩ := convX_spec hε hc
  obtain ⟨y, k1, k2, k3, k4⟩ := H v h3
  refine ⟨tw0.trans tw, ⟨y, v', ?_, h2, k2, h4, k3.trans h5⟩, ?_, fun _ hw => by cases hw⟩
  · change (value (xmem ε s) x).bind _ = _
    rw [h1]; exact k1
  · change List.Forall₂ _ ((occurrences (xmem ε s) t x).map (OMat.mul (slopeU _ op x))) _
    rw [slopeU_x h1 k1, ← List.map_id (occurrences (L := geoLib ε) s t' x'.2)]
    refine forall₂_map (fun A A' i => ?_) occ
    have hJ : Agree q (tw0.trans tw) tw (jacXUn ε op y v) (some (1 : Matrix x'.1.Idx x'.1.Idx ℝ)) := by
      exact .of_eq (reIdx_left_one tw0 tw _ k4)
    have := hJ.mul i
    rwa [omat_one_mul] at this

theorem XPair.side (hε : 0 < ε) {a : XTy} {w : XSide a} (hw : XSideOk w) {x : Expr (xLib ε) a}
    {x' : Tree ε} (p : XPair q s t t' h ⟨a, x⟩ x') : XPair q s t t' h ⟨w.ty, w.apply x⟩ x' := by
  rcases hw with rfl | ⟨b, op, rfl, ho⟩
  · exact p
  · exact p.convX hε ho

theorem XPair.conv (hε : 0 < ε) {x : XTree ε} {a b : Ty} {op : Un a b} {x' : Expr (geoLib ε) a}
    (hc : conv1 a b = some op) (p : XPair q s t t' h x ⟨a, x'⟩) :
    XPair q s t t' h x ⟨b, .un (L := geoLib ε) 0 op x'⟩ := by
  obtain ⟨tw, ⟨v, v', h1, h2, h3, h4, h5⟩, occ, wrap⟩ := p
  have H : ∃ tw0 : Twin b a, ∃ y : b.Val, evalUn ε op v' = some y ∧ Valid b y ∧
      obj b y = obj a v' ∧ reIdx tw0 (Twin.refl _) (jacUn ε op y v') = some 1 := by
    unfold conv1 at hc
    split at hc
    · next k k' =>
      cases hc
      obtain ⟨y, k1, k2, k3⟩ := un_sound hε (Un.convRot k k') v' h4 trivial
      exact ⟨.rot _ _, y, k1, k2, congrArg Obj.rot k3, rfl⟩
    · next k k' =>
      cases hc
      obtain ⟨y, k1, k2, k3⟩ := un_sound hε (Un.convRigid k k') v' h4 trivial
      exact ⟨.rigid _ _, y, k1, k2, congrArg Obj.motion k3, rfl⟩
    · cases hc
  obtain ⟨tw0, y, k1, k2, k3, k4⟩ := H
  refine ⟨tw.trans tw0.symm, ⟨v, y, h1, ?_, h3, k2, h5.trans k3.symm⟩, ?_, wrap⟩
  · change (value (L := geoLib ε) s x').bind _ = _
    rw [h2]; exact k1
  · change List.Forall₂ _ _
      ((occurrences (L := geoLib ε) s t' x').map (OMat.mul (slopeU (L := geoLib ε) s op x')))
    rw [slopeU_g h2 k1, ← List.map_id (occurrences (xmem ε s) t x.2)]
    refine forall₂_map (fun A A' i => ?_) occ
    have hJ : Agree q (tw.trans tw0.symm) tw (some (1 : Matrix x.1.leaf.Idx x.1.leaf.Idx ℝ))
        (jacUn ε op y v') := by
      exact .of_eq (reIdx_right_one tw0 tw _ k4)
    have := hJ.mul i
    rwa [omat_one_mul] at this

theorem XPair.side' (hε : 0 < ε) {x : XTree ε} {a : Ty} {w : Side a} (hw : SideOk w)
    {x' : Expr (geoLib ε) a} (p : XPair q s t t' h x ⟨a, x'⟩) :
    XPair q s t t' h x ⟨w.ty, w.apply x'⟩ := by
  rcases side_conv hw with rfl | ⟨b, op, rfl, ho⟩
  · exact p
  · exact p.conv hε ho

theorem xpair1 (hε : 0 < ε) {u : Tag1} {x y : XTree ε} {x' y' : Tree ε}
    (he : xelab1 u x = some y) (he' : elab1 u x' = some y') (hreg' : RegularAt ε s y'.2)
    (p : XPair q s t t' h x x') : XPair q s t t' h y y' := by
  obtain ⟨w, r, hw, hr, rfl⟩ := xelab1_form he
  obtain ⟨w', r', hw', hr', rfl⟩ := elab1_form he'
  obtain ⟨tw, ⟨v, v', h1, h2, h3, h4, h5⟩, occ, wrap⟩ := (p.side hε hw).side' hε hw'
  obtain ⟨z, z', tw', k1, l1, k2, l2, e1, e2⟩ := xun_twin hε hr tw hr' h3 h4 h5 (hreg'.2 v' h2)
  refine ⟨tw', ⟨z, z', ?_, ?_, k2, l2, e1⟩, ?_, fun h1 h2 => ?_⟩
  · change (value (xmem ε s) (w.apply x.2)).bind _ = _
    rw [h1]; exact k1
  · change (value (L := geoLib ε) s (w'.apply x'.2)).bind _ = _
    rw [h2]; exact l1
  · change List.Forall₂ _ ((occurrences (xmem ε s) t (w.apply x.2)).map (OMat.mul (slopeU _ r.2 _)))
      ((occurrences (L := geoLib ε) s t' (w'.apply x'.2)).map
        (OMat.mul (slopeU (L := geoLib ε) s r'.2 _)))
    rw [slopeU_x h1 k1, slopeU_g h2 l1]
    by_cases hq : q → w.ty.wrapper = false
    · exact forall₂_map (fun A A' i => (e2.mono hq).mul i) occ
    · have hq' : q ∧ w.ty.wrapper = true := by
        by_contra h0
        exact hq fun h => by simpa using fun h' => h0 ⟨h, h'⟩
      exact forall₂_map_nil (wrap hq'.1 hq'.2) occ
  · have hw : w.ty.wrapper = true := uform_wrapper hr h2
    change (occurrences (xmem ε s) t (w.apply x.2)).map _ = []
    rw [wrap h1 hw]; rfl

theorem xpair2 (hε : 0 < ε) {u : Tag2} {x y z : XTree ε} {x' y' z' : Tree ε}
    (he : xelab2 u x y = some z) (he' : elab2 u x' y' = some z') (hreg' : RegularAt ε s z'.2)
    (hs : u ≠ .compose ∧ u ≠ .composeFlipped →
      Twin z.1.leaf z'.1 ∧ ∃ v, value (xmem ε s) z.2 = some v)
    (hR : q → LackR u x.1 y.1 → occurrences (xmem ε s) t y.2 = [])
    (p : XPair q s t t' h x x') (p' : XPair q s t t' h y y') : XPair q s t t' h z z' := by
  obtain ⟨w, w2, r, hw, hw2, hr, hres, rfl⟩ := xelab2_form he
  obtain ⟨w', w2', r', hw', hw2', hr', rfl⟩ := elab2_form he'
  obtain ⟨tw, ⟨v, v', h1, h2, h3, h4, h5⟩, occ, wrap⟩ := (p.side hε hw).side' hε hw'
  obtain ⟨tu, ⟨f, f', g1, g2, g3, g4, g5⟩, occ', wrap'⟩ := (p'.side hε hw2).side' hε hw2'
  have hd : r.2.dead = false := by
    rcases bform_dead hr with h0 | ⟨hu, h0⟩
    · exact h0
    · obtain ⟨-, m, hm⟩ := hs hu
      have hm' : (value (xmem ε s) (w.apply x.2)).bind (fun a =>
        (value (xmem ε s) (w2.apply y.2)).bind fun b => evalXBin r.2 a b) = some m := hm
      rw [h1, Option.bind_some, g1, Option.bind_some, h0] at hm'
      cases hm'
  obtain ⟨m, m', tw', k1, l1, k2, l2, e1, e2, e3⟩ := xbin_twin hr hd tw tu hr'
    (fun hu => (hs (by subst hu; decide)).1) h3 h4 g3 g4 h5 g5 (hreg'.2.2 v' f' h2 g2)
  refine ⟨tw', ⟨m, m', ?_, ?_, k2, l2, e1⟩, ?_, fun h1 h2 => ?_⟩
  · change (value (xmem ε s) (w.apply x.2)).bind (fun a =>
      (value (xmem ε s) (w2.apply y.2)).bind _) = _
    rw [h1, g1]; exact k1
  · change (value (L := geoLib ε) s (w'.apply x'.2)).bind (fun a =>
      (value (L := geoLib ε) s (w2'.apply y'.2)).bind _) = _
    rw [h2, g2]; exact l1
  · have s1 : slopeL (xmem ε s) r.2 (w.apply x.2) (w2.apply y.2) = jacXL r.2 m v f := by
      unfold slopeL
      rw [h1, g1]
      change (evalXBin r.2 v f).bind _ = _
      rw [k1]; rfl
    have s2 : slopeR (xmem ε s) r.2 (w.apply x.2) (w2.apply y.2) = jacXR r.2 m v f := by
      unfold slopeR
      rw [h1, g1]
      change (evalXBin r.2 v f).bind _ = _
      rw [k1]; rfl
    have s3 : slopeL (L := geoLib ε) s r'.2 (w'.apply x'.2) (w2'.apply y'.2) =
        jacL r'.2 m' v' f' := by
      unfold slopeL
      rw [h2, g2]
      change (evalBin r'.2 v' f').bind _ = _
      rw [l1]; rfl
    have s4 : slopeR (L := geoLib ε) s r'.2 (w'.apply x'.2) (w2'.apply y'.2) =
        jacR r'.2 m' v' f' := by
      unfold slopeR
      rw [h2, g2]
      change (evalBin r'.2 v' f').bind _ = _
      rw [l1]; rfl
    change List.Forall₂ _ ((occurrences (xmem ε s) t (w.apply x.2)).map
        (OMat.mul (slopeL (xmem ε s) r.2 (w.apply x.2) (w2.apply y.2))) ++
      (occurrences (xmem ε s) t (w2.apply y.2)).map
        (OMat.mul (slopeR (xmem ε s) r.2 (w.apply x.2) (w2.apply y.2))))
      ((occurrences (L := geoLib ε) s t' (w'.apply x'.2)).map
        (OMat.mul (slopeL (L := geoLib ε) s r'.2 (w'.apply x'.2) (w2'.apply y'.2))) ++
      (occurrences (L := geoLib ε) s t' (w2'.apply y'.2)).map
        (OMat.mul (slopeR (L := geoLib ε) s r'.2 (w'.apply x'.2) (w2'.apply y'.2))))
    rw [s1, s2, s3, s4]
    refine forall₂_append ?_ ?_
    · by_cases hq : q ∧ x.1.wrapper = true
      · exact forall₂_map_nil (xside_occ_nil (p.wrap hq.1 hq.2)) occ
      · refine forall₂_map (fun A A' i => (e2.mono fun h => ?_).mul i) occ
        have h3 : x.1.wrapper = false := by simpa using fun h' => hq ⟨h, h'⟩
        exact ⟨xside_plain h3, hasL_of hr hres h3
          fun hu => (compose_rigid (.inr hu) tw tu hr').2⟩
    · by_cases hq : q ∧ (y.1.wrapper = true ∨ LackR u x.1 y.1)
      · exact forall₂_map_nil (xside_occ_nil (hq.2.elim (p'.wrap hq.1) (hR hq.1))) occ'
      · refine forall₂_map (fun A A' i => (e3.mono fun h => ?_).mul i) occ'
        have h3 : y.1.wrapper = false := by simpa using fun h' => hq ⟨h, .inl h'⟩
        exact ⟨xside_plain h3, hasR_of hr hres h3
          (fun hu => (compose_rigid (.inl hu) tw tu hr').1) fun h' => hq ⟨h, .inr h'⟩⟩
  · obtain ⟨h3, h4⟩ := bform_wrapper hr h2
    change (occurrences (xmem ε s) t (w.apply x.2)).map _ ++
      (occurrences (xmem ε s) t (w2.apply y.2)).map _ = []
    rw [wrap h1 h3, wrap' h1 h4]; rfl

theorem xpairTo (hε : 0 < ε) {τ : Ty} {x y : XTree ε} {x' y' : Tree ε}
    (he : xelabTo τ x = some y) (he' : elabTo τ x' = some y') (p : XPair q s t t' h x x') :
    XPair q s t t' h y y' := by
  have p' : XPair q s t t' h x y' := by
    unfold elabTo at he'
    split_ifs at he' with hτ
    · subst hτ; cases he'; exact p
    · obtain ⟨op, ho, rfl⟩ := Option.map_eq_some_iff.mp he'
      exact p.conv hε ho
  unfold xelabTo at he
  split_ifs at he with hc
  · obtain ⟨a, x⟩ := x
    dsimp only at hc
    subst hc
    cases he
    exact p'
  · obtain ⟨u, hu, he⟩ := firstConv1_mem he
    obtain ⟨op, hop, rfl⟩ := Option.map_eq_some_iff.mp he
    exact (p'.side hε (xside_ok hu)).convX hε hop

theorem xpairUn (hε : 0 < ε) {op : UOp} {x y : XTree ε} {x' y' : Tree ε}
    (he : xelabUn op x = some y) (he' : elabUn op x' = some y') (hreg' : RegularAt ε s y'.2)
    (p : XPair q s t t' h x x') : XPair q s t t' h y y' := by
  cases op <;> first
    | exact xpair1 hε he he' hreg' p
    | exact xpairTo hε he he' p
    | (have e : x.1.leaf.isRot = x'.1.isRot := by
         have := p.tw
         generalize x.1.leaf = a, x'.1 = a' at this
         cases this <;> rfl
       unfold xelabUn at he
       unfold elabUn at he'
       dsimp only at he he'
       rw [← e] at he'
       split_ifs at he he'
       · cases he; cases he'; exact p
       · exact xpair1 hε he he' hreg' p)

theorem xelabBin_plan (op : BOp) (x y : XTree ε) : xelabBin op x y =
    (plan op x.1.leaf y.1.leaf).bind fun
      | .inl u => xelab2 u x y
      | .inr true => (xelab1 .expMap y).bind (xelab2 .composeFlipped x)
      | .inr false => ((xelab1 .inverse y).bind (xelab2 .compose x)).bind (xelab1 .logMap) := by
  unfold xelabBin
  generalize x.1.leaf = a
  generalize y.1.leaf = b
  rcases op with _ | _ | _ | _ | _ <;> rcases a with (_ | _ | _ | _) | _ | _ | _ <;>
    rcases b with (_ | _ | _ | _) | _ | _ | _ <;> rfl

/-! ## Objects of the trees -/

theorem xside_objects {a : XTy} (w : XSide a) (e : Expr (xLib ε) a) :
    objects (w.apply e) = objects e := by
  cases w <;> rfl

theorem xelab1_objects {u : Tag1} {x y : XTree ε} (he : xelab1 u x = some y) :
    objects y.2 = objects x.2 := by
  obtain ⟨w, r, -, -, rfl⟩ := xelab1_form he
  exact xside_objects w x.2

theorem xelab2_objects {u : Tag2} {x y z : XTree ε} (he : xelab2 u x y = some z) :
    objects z.2 = objects x.2 ++ objects y.2 := by
  obtain ⟨w, w', r, -, -, -, -, rfl⟩ := xelab2_form he
  change objects (w.apply x.2) ++ objects (w'.apply y.2) = _
  rw [xside_objects, xside_objects]

theorem xelabUn_objects {op : UOp} {x y : XTree ε} (he : xelabUn op x = some y) :
    objects y.2 = objects x.2 := by
  cases op with
  | «to» τ =>
    change xelabTo τ x = some y at he
    unfold xelabTo at he
    split_ifs at he with hc
    · obtain ⟨a, x⟩ := x
      dsimp only at hc
      subst hc
      cases he
      rfl
    · obtain ⟨u, hu, he⟩ := firstConv1_mem he
      obtain ⟨op, hop, rfl⟩ := Option.map_eq_some_iff.mp he
      exact xside_objects u x.2
  | rotation =>
    unfold xelabUn at he
    dsimp only at he
    split_ifs at he
    · cases he; rfl
    · exact xelab1_objects he
  | _ => exact xelab1_objects he

theorem xelabBin_objects {op : BOp} {x y z : XTree ε} (he : xelabBin op x y = some z) :
    objects z.2 = objects x.2 ++ objects y.2 := by
  rw [xelabBin_plan] at he
  rcases hp : plan op x.1.leaf y.1.leaf with _ | u | _ | _ <;> rw [hp] at he <;>
    dsimp only [Option.bind_some, Option.bind_none] at he
  · cases he
  · exact xelab2_objects he
  · obtain ⟨w, hw, he⟩ := Option.bind_eq_some_iff.mp he
    obtain ⟨u, hu, hw⟩ := Option.bind_eq_some_iff.mp hw
    rw [xelab1_objects he, xelab2_objects hw, xelab1_objects hu]
  · obtain ⟨w, hw, he⟩ := Option.bind_eq_some_iff.mp he
    rw [xelab2_objects he, xelab1_objects hw]

/-- The ways a unary node can be elaborated. -/
theorem elab_un_cases {op : UOp} {e : NExpr} {x : XTree ε} (h : NExpr.elab ε (.un op e) = some x) :
    (∃ a c τ, ((∃ k, τ = .rigid k) ∨ ∃ k, τ = .rot k) ∧ op = .rotation ∧ e = .neutral a c τ ∧
      x = ⟨.idRot .quat, Expr.leaf (L := xLib ε) 0 0 (.idRot .quat)⟩) ∨
    (∃ a c τ, ((∃ k, τ = .rigid k) ∨ ∃ k, τ = .rot k) ∧ op = .translation ∧ e = .neutral a c τ ∧
      x = ⟨.zeroVec .trans, Expr.leaf (L := xLib ε) 0 0 (.zeroVec .trans)⟩) ∨
    ∃ y, e.elab ε = some y ∧ xelabUn op y = some x := by
  unfold NExpr.elab at h
  split at h <;> rename_i he
  · cases he
  · cases he
  · cases he; exact .inl ⟨_, _, _, .inl ⟨_, rfl⟩, rfl, rfl, (Option.some.inj h).symm⟩
  · cases he; exact .inr (.inl ⟨_, _, _, .inl ⟨_, rfl⟩, rfl, rfl, (Option.some.inj h).symm⟩)
  · cases he; exact .inl ⟨_, _, _, .inr ⟨_, rfl⟩, rfl, rfl, (Option.some.inj h).symm⟩
  · cases he; exact .inr (.inl ⟨_, _, _, .inr ⟨_, rfl⟩, rfl, rfl, (Option.some.inj h).symm⟩)
  · cases he; exact .inr (.inr (Option.bind_eq_some_iff.mp h))
  · cases he
  · cases he

theorem dynamic_inv {a : ℕ} {e : NExpr} {x : XTree ε} (h : NExpr.elab ε (.dynamic a e) = some x) :
    ∃ y, e.elab ε = some y ∧ x = ⟨y.1, .proxy (L := xLib ε) a y.2⟩ := by
  obtain ⟨y, hy, h⟩ := Option.bind_eq_some_iff.mp h
  split_ifs at h
  exact ⟨y, hy, (Option.some.inj h).symm⟩

theorem written_length {N : ℕ → ℕ} : (e : NExpr) → {x : XTree ε} → e.elab ε = some x →
    (objects x.2).length = (written ε (spell N e)).length
  | .leaf a c τ, x, h => by cases h; rfl
  | .neutral a c τ, x, h => by
    cases h
    rfl
  | .un op e, x, h => by
    rcases elab_un_cases h with ⟨a, c, τ, hτ, rfl, rfl, rfl⟩ | ⟨a, c, τ, hτ, rfl, rfl, rfl⟩ | ⟨y, hy, h⟩
    · rfl
    · rfl
    · rw [xelabUn_objects h]
      exact written_length e hy
  | .bin op l r, x, h => by
    obtain ⟨y, hy, h⟩ := Option.bind_eq_some_iff.mp h
    obtain ⟨z, hz, h⟩ := Option.bind_eq_some_iff.mp h
    rw [xelabBin_objects h]
    change _ = List.length (_ ++ _)
    rw [List.length_append, List.length_append, written_length l hy, written_length r hz]
  | .dynamic a e, x, h => by
    obtain ⟨y, hy, rfl⟩ := dynamic_inv h
    have := written_length (N := N) e hy
    exact this

/-- Kind of the value, and whether it is an Identity or Zero. -/
def xkind (a : XTy) : Kind × Bool := (.ofTy a.leaf, a.wrapper)

theorem xkind_eq {a : XTy} {κ : Kind} {b : Bool} (h1 : Kind.ofTy a.leaf = κ) (h2 : a.wrapper = b) :
    xkind a = (κ, b) := by rw [xkind, h1, h2]

theorem noRight_of {op : BOp} {u : Tag2} {a b : XTy} (hp : plan op a.leaf b.leaf = some (.inl u))
    (h : LackR u a b) : noRight op (xkind a) (xkind b) := by
  obtain ⟨h1, h2, h3⟩ := h
  unfold xkind
  rw [h1, h2]
  rcases ha : a.leaf with (_ | _ | _ | _) | _ | _ | _ <;>
    rcases hb : b.leaf with (_ | _ | _ | _) | _ | _ | _ <;> rw [ha, hb] at hp <;>
    cases op <;> first | (cases hp; done) | (cases hp; simp at h3; done) | trivial

theorem xelab1_occ_nil {u : Tag1} {x y : XTree ε} (he : xelab1 u x = some y)
    (h0 : occurrences (xmem ε s) t x.2 = []) : occurrences (xmem ε s) t y.2 = [] := by
  obtain ⟨w, r, -, -, rfl⟩ := xelab1_form he
  change (occurrences (xmem ε s) t (w.apply x.2)).map _ = []
  rw [xside_occ_nil h0]; rfl

theorem xpairBin (hε : 0 < ε) {op : BOp} {x y z : XTree ε} {x' y' z' : Tree ε}
    (he : xelabBin op x y = some z) (he' : elabBin op x' y' = some z')
    (hreg' : RegularAt ε s z'.2)
    (hs : Twin z.1.leaf z'.1 ∧ ∃ v, value (xmem ε s) z.2 = some v)
    (hR : q → noRight op (xkind x.1) (xkind y.1) → occurrences (xmem ε s) t y.2 = [])
    (p : XPair q s t t' h x x') (p' : XPair q s t t' h y y') : XPair q s t t' h z z' := by
  rw [xelabBin_plan] at he
  rw [elabBin_plan, ← plan_twin p.tw p'.tw] at he'
  rcases hp : plan op x.1.leaf y.1.leaf with _ | u | _ | _ <;> rw [hp] at he he' <;>
    dsimp only [Option.bind_some, Option.bind_none] at he he'
  · cases he
  · exact xpair2 hε he he' hreg' (fun _ => hs) (fun h h' => hR h (noRight_of hp h')) p p'
  · obtain ⟨w, hw, he⟩ := Option.bind_eq_some_iff.mp he
    obtain ⟨u, hu, hw⟩ := Option.bind_eq_some_iff.mp hw
    obtain ⟨w', hw', he'⟩ := Option.bind_eq_some_iff.mp he'
    obtain ⟨u', hu', hw'⟩ := Option.bind_eq_some_iff.mp hw'
    have r1' := elab1_reg_inv he' hreg'
    have r2' := elab2_reg_inv hw' r1'
    exact xpair1 hε he he' hreg' (xpair2 hε hw hw' r1' (fun hu => absurd rfl hu.1)
      (fun _ h' => by rcases h'.2.2 with k | k <;> cases k) p (xpair1 hε hu hu' r2'.2 p'))
  · obtain ⟨w, hw, he⟩ := Option.bind_eq_some_iff.mp he
    obtain ⟨w', hw', he'⟩ := Option.bind_eq_some_iff.mp he'
    exact xpair2 hε he he' hreg' (fun hu => absurd rfl hu.2)
      (fun _ h' => by rcases h'.2.2 with k | k <;> cases k) p
      (xpair1 hε hw hw' (elab2_reg_inv he' hreg').2 p')

/-! ## User expressions -/

theorem means_un_inv {op : UOp} {e : SExpr} {o : Obj} (hm : Means ε s (.un op e) o) :
    ∃ o', Means ε s e o' := by
  cases hm <;> exact ⟨_, by assumption⟩

theorem means_bin_inv {op : BOp} {l r : SExpr} {o : Obj} (hm : Means ε s (.bin op l r) o) :
    (∃ o', Means ε s l o') ∧ ∃ o', Means ε s r o' := by
  cases hm <;> exact ⟨⟨_, by assumption⟩, ⟨_, by assumption⟩⟩

/-- Corresponding occurrences of `t` and `t'` in two lists of objects. -/
abbrev AlignX (t : Target (xLib ε)) (t' : Target (geoLib ε)) :
    List (Target (xLib ε)) → List (Target (geoLib ε)) → Prop :=
  List.Forall₂ fun u u' => u = t ↔ u' = t'

/-- Corresponding leaves. -/
theorem xpair_leaf {n c n' c' : ℕ} {a : XTy} {v : a.Val} (htt : XTy.leaf t.ty = t'.ty)
    (hq : q → XTy.wrapper t.ty = false)
    (hv : xmem ε s n a = v) (hval : Valid a.leaf (a.content v)) (hval' : Valid a.leaf (s n' a.leaf))
    (ho : obj a.leaf (a.content v) = obj a.leaf (s n' a.leaf))
    (hal : AlignX t t' [(⟨n, c, a⟩ : Target (xLib ε))] [⟨n', c', a.leaf⟩]) :
    XPair q s t t' h ⟨a, Expr.leaf (L := xLib ε) n c a⟩
      ⟨a.leaf, Expr.leaf (L := geoLib ε) n' c' a.leaf⟩ := by
  refine ⟨.refl _, ⟨v, _, congrArg some hv, rfl, hval, hval', ho⟩, ?_, fun h1 h2 => ?_⟩
  swap
  · refine occ_leaf_ne (xmem ε s) fun h3 => ?_
    have := hq h1
    subst h3
    rw [h2] at this
    cases this
  have hal : ((⟨n, c, a⟩ : Target (xLib ε)) = t ↔ (⟨n', c', a.leaf⟩ : Target (geoLib ε)) = t') := by
    cases hal with
    | cons h1 _ => exact h1
  by_cases ht : (⟨n, c, a⟩ : Target (xLib ε)) = t
  · have ht' := hal.mp ht
    subst ht
    subst ht'
    have e1 := occ_leaf_self (xmem ε s) n c a
    have e2 := occ_leaf_self (L := geoLib ε) s n' c' a.leaf
    change List.Forall₂ _ (occurrences (xmem ε s) ⟨n, c, a⟩ (.leaf (L := xLib ε) n c a))
      (occurrences (L := geoLib ε) s ⟨n', c', a.leaf⟩ (.leaf (L := geoLib ε) n' c' a.leaf))
    rw [e1, e2]
    refine .cons (.of_eq ?_) .nil
    exact eq_of_heq (reIdx_heq _ _ _)
  · have ht' := fun k => ht (hal.mpr k)
    have e1 := occ_leaf_ne (xmem ε s) ht
    have e2 := occ_leaf_ne (L := geoLib ε) s ht'
    change List.Forall₂ _ (occurrences (xmem ε s) t (.leaf (L := xLib ε) n c a))
      (occurrences (L := geoLib ε) s t' (.leaf (L := geoLib ε) n' c' a.leaf))
    rw [e1, e2]
    exact .nil

theorem wrapper_pair_val (hε : 0 < ε) {N : ℕ → ℕ} (hN : HoldsNeutral s N) {e : NExpr} {o : Obj}
    {f : Kind × Bool} (hm : Means ε s (spell N e) o) (hf : form e = some f) {x : XTree ε}
    {x' : Tree ε} (hx : e.elab ε = some x) (hx' : (spell N e).elab ε = some x') :
    Twin x.1.leaf x'.1 ∧ ∃ v v', value (xmem ε s) x.2 = some v ∧
      value (L := geoLib ε) s x'.2 = some v' ∧ Valid x.1.leaf (x.1.content v) ∧ Valid x'.1 v' ∧
        obj x.1.leaf (x.1.content v) = obj x'.1 v' := by
  obtain ⟨⟨y, h1, ⟨-, v, h2, h3, h4⟩, -⟩, -⟩ := means_xacc hε hN e hm hf
  obtain ⟨y', g1, v', g2, g3, g4⟩ := means_acc hε hm
  rw [hx] at h1
  rw [hx'] at g1
  cases h1
  cases g1
  exact ⟨twin_of_obj (h4.trans g4.symm), v, v', h2, (mk_val (L := geoLib ε) s x'.2).symm.trans g2,
    h3, g3, h4.trans g4.symm⟩

/-- If `q`, the target is an ordinary object, and nothing keeps it from being differentiated. -/
def Clear (q : Prop) (t : Target (xLib ε)) (e : NExpr) : Prop :=
  q → ∃ σ, t.ty = XTy.plain σ ∧ ¬Blocked t.addr t.cls σ e

theorem Clear.plain {e : NExpr} (h : Clear q t e) (hq : q) : XTy.wrapper t.ty = false := by
  obtain ⟨σ, h, -⟩ := h hq
  rw [h]; rfl

theorem mentions_iff {n c : ℕ} {σ : Ty} : (e : NExpr) → {x : XTree ε} → e.elab ε = some x →
    ((⟨n, c, .plain σ⟩ : Target (xLib ε)) ∈ objects x.2 ↔ mentions n c σ e)
  | .leaf a d τ, x, h => by
    cases h
    simp only [objects, List.mem_singleton, Target.mk.injEq, mentions, XTy.plain.injEq]
    exact ⟨fun h => ⟨h.1.symm, h.2.1.symm, h.2.2.symm⟩, fun h => ⟨h.1.symm, h.2.1.symm, h.2.2.symm⟩⟩
  | .neutral a d τ, x, h => by
    cases h
    simp only [objects, List.mem_singleton, Target.mk.injEq, mentions, iff_false]
    rintro ⟨-, -, h⟩
    rcases τ with _ | _ | _ | _ <;> cases h
  | .un op e, x, h => by
    rcases elab_un_cases h with ⟨a, c, τ, hτ, rfl, rfl, rfl⟩ | ⟨a, c, τ, hτ, rfl, rfl, rfl⟩ | ⟨y, hy, h⟩
    · simp [objects, mentions]
    · simp [objects, mentions]
    · rw [xelabUn_objects h]
      exact mentions_iff e hy
  | .bin op l r, x, h => by
    obtain ⟨y, hy, h⟩ := Option.bind_eq_some_iff.mp h
    obtain ⟨z, hz, h⟩ := Option.bind_eq_some_iff.mp h
    rw [xelabBin_objects h, List.mem_append, mentions_iff l hy, mentions_iff r hz]
    rfl
  | .dynamic a e, x, h => by
    obtain ⟨y, hy, rfl⟩ := dynamic_inv h
    have := mentions_iff (n := n) (c := c) (σ := σ) e hy
    exact this

theorem form_xkind (hε : 0 < ε) {N : ℕ → ℕ} (hN : HoldsNeutral s N) {e : NExpr} {o : Obj}
    {f : Kind × Bool} (hm : Means ε s (spell N e) o) (hf : form e = some f) {x : XTree ε}
    (hx : e.elab ε = some x) : xkind x.1 = f := by
  obtain ⟨⟨y, h1, ⟨-, v, h2, h3, h4⟩, h5⟩, h6⟩ := means_xacc hε hN e hm hf
  rw [hx] at h1
  cases h1
  rw [← h4, kindOf_obj] at h6
  exact Prod.ext h6 h5

/-- An operation adds no occurrence. -/
theorem elabUn_occ_nil {op : UOp} {x y : Tree ε} (he : elabUn op x = some y)
    (hx : occurrences (L := geoLib ε) s t' x.2 = []) : occurrences (L := geoLib ε) s t' y.2 = [] := by
  refine (occ_nil_iff (L := geoLib ε) s t' y.2).mpr fun h => ?_
  rw [(elabUn_same he).obj] at h
  exact (occ_nil_iff (L := geoLib ε) s t' x.2).mp hx h

theorem spell_pair (hε : 0 < ε) {N : ℕ → ℕ} (hN : HoldsNeutral s N) (htt : XTy.leaf t.ty = t'.ty) :
    (e : NExpr) → {o : Obj} → {f : Kind × Bool} → Means ε s (spell N e) o → form e = some f →
      {x : XTree ε} → {x' : Tree ε} → e.elab ε = some x → (spell N e).elab ε = some x' →
        AlignX t t' (objects x.2) (written ε (spell N e)) → Clear q t e → XPair q s t t' h x x'
  | .leaf a c τ, o, f, hm, hf, x, x', hx, hx', hal, hcl => by
    obtain ⟨-, v, v', h1, h2, h3, h4, h5⟩ := wrapper_pair_val hε hN hm hf hx hx'
    cases hx
    cases hx'
    cases h1
    cases h2
    exact xpair_leaf htt hcl.plain rfl h3 h4 h5 hal
  | .neutral a c τ, o, f, hm, hf, x, x', hx, hx', hal, hcl => by
    obtain ⟨-, v, v', h1, h2, h3, h4, h5⟩ := wrapper_pair_val hε hN hm hf hx hx'
    cases hx
    cases hx'
    cases h1
    cases h2
    rcases τ with k | _ | k | k
    · exact xpair_leaf (a := .zeroVec k) htt hcl.plain rfl h3 h4 h5 hal
    · exact xpair_leaf (a := .zeroPoint) htt hcl.plain rfl h3 h4 h5 hal
    · exact xpair_leaf (a := .idRot k) htt hcl.plain rfl h3 h4 h5 hal
    · exact xpair_leaf (a := .idRigid k) htt hcl.plain rfl h3 h4 h5 hal
  | .un op e, o, f, hm, hf, x, x', hx, hx', hal, hcl => by
    have H := wrapper_pair_val hε hN hm hf hx hx'
    have hreg' := means_regular hε hm hx'
    obtain ⟨y', hy', hx'⟩ := Option.bind_eq_some_iff.mp hx'
    rcases elab_un_cases hx with ⟨a, c, τ, hτ, rfl, rfl, rfl⟩ | ⟨a, c, τ, hτ, rfl, rfl, rfl⟩ | ⟨y, hy, hx⟩
    · cases hy'
      by_cases hk : τ = .rot .quat
      · subst hk
        cases hx'
        obtain ⟨-, v, v', h1, h2, h3, h4, h5⟩ := H
        cases h1
        cases h2
        exact xpair_leaf (a := .idRot .quat) htt hcl.plain rfl h3 h4 h5 hal
      have hal : ((⟨0, 0, XTy.idRot .quat⟩ : Target (xLib ε)) = t ↔
          (⟨N a, c, τ⟩ : Target (geoLib ε)) = t') := by
        cases hal with
        | cons h1 _ => exact h1
      have ht : (⟨0, 0, XTy.idRot .quat⟩ : Target (xLib ε)) ≠ t := by
        intro ht
        have ht' := hal.mp ht
        subst ht
        subst ht'
        exact hk htt.symm
      refine ⟨H.1, H.2, ?_, fun _ _ => occ_leaf_ne (xmem ε s) ht⟩
      have e1 := occ_leaf_ne (xmem ε s) ht
      have e2 := occ_leaf_ne (L := geoLib ε) s (fun k => ht (hal.mpr k))
      have e3 := elabUn_occ_nil hx' e2
      change List.Forall₂ _ (occurrences (xmem ε s) t (.leaf (L := xLib ε) 0 0 (.idRot .quat))) _
      rw [e1, e3]
      exact .nil
    · cases hy'
      have hal : ((⟨0, 0, XTy.zeroVec .trans⟩ : Target (xLib ε)) = t ↔
          (⟨N a, c, τ⟩ : Target (geoLib ε)) = t') := by
        cases hal with
        | cons h1 _ => exact h1
      have ht : (⟨0, 0, XTy.zeroVec .trans⟩ : Target (xLib ε)) ≠ t := by
        intro ht
        have ht' := hal.mp ht
        subst ht
        subst ht'
        rcases hτ with ⟨k, rfl⟩ | ⟨k, rfl⟩ <;> cases htt
      refine ⟨H.1, H.2, ?_, fun _ _ => occ_leaf_ne (xmem ε s) ht⟩
      have e1 := occ_leaf_ne (xmem ε s) ht
      have e2 := occ_leaf_ne (L := geoLib ε) s (fun k => ht (hal.mpr k))
      have e3 := elabUn_occ_nil hx' e2
      change List.Forall₂ _ (occurrences (xmem ε s) t (.leaf (L := xLib ε) 0 0 (.zeroVec .trans))) _
      rw [e1, e3]
      exact .nil
    · obtain ⟨o', hm'⟩ := means_un_inv hm
      obtain ⟨f', hf', -⟩ := Option.bind_eq_some_iff.mp hf
      rw [xelabUn_objects hx] at hal
      exact xpairUn hε hx hx' hreg' (spell_pair hε hN htt e hm' hf' hy hy' hal hcl)
  | .bin op l r, o, f, hm, hf, x, x', hx, hx', hal, hcl => by
    obtain ⟨H1, v, -, H2, -⟩ := wrapper_pair_val hε hN hm hf hx hx'
    have hreg' := means_regular hε hm hx'
    obtain ⟨y, hy, hx⟩ := Option.bind_eq_some_iff.mp hx
    obtain ⟨z, hz, hx⟩ := Option.bind_eq_some_iff.mp hx
    obtain ⟨y', hy', hx'⟩ := Option.bind_eq_some_iff.mp hx'
    obtain ⟨z', hz', hx'⟩ := Option.bind_eq_some_iff.mp hx'
    obtain ⟨⟨o1, hm1⟩, o2, hm2⟩ := means_bin_inv hm
    obtain ⟨f1, hf1, hf⟩ := Option.bind_eq_some_iff.mp hf
    obtain ⟨f2, hf2, hf⟩ := Option.bind_eq_some_iff.mp hf
    rw [xelabBin_objects hx] at hal
    obtain ⟨a1, a2⟩ := forall₂_split (written_length l hy) hal
    have k1 := form_xkind hε hN hm1 hf1 hy
    have k2 := form_xkind hε hN hm2 hf2 hz
    refine xpairBin hε hx hx' hreg' ⟨H1, v, H2⟩ (fun hq h0 => ?_)
      (spell_pair hε hN htt l hm1 hf1 hy hy' a1 fun hq => ?_)
      (spell_pair hε hN htt r hm2 hf2 hz hz' a2 fun hq => ?_)
    all_goals obtain ⟨σ, e1, e2⟩ := hcl hq
    · refine occ_nil fun h3 => e2 (.inr (.inr ⟨f1, f2, hf1, hf2, k1 ▸ k2 ▸ h0, ?_⟩))
      obtain ⟨n, d, ty⟩ := t
      subst e1
      exact (mentions_iff r hz).mp h3
    · exact ⟨σ, e1, fun h3 => e2 (.inl h3)⟩
    · exact ⟨σ, e1, fun h3 => e2 (.inr (.inl h3))⟩
  | .dynamic a e, o, f, hm, hf, x, x', hx, hx', hal, hcl => by
    obtain ⟨y, hy, rfl⟩ := dynamic_inv hx
    obtain ⟨y', hy', rfl⟩ := elab_dynamic hx'
    obtain ⟨f', hf', -⟩ := Option.bind_eq_some_iff.mp hf
    have hm' : Means ε s (spell N e) o := by
      change Means ε s (.dynamic a (spell N e)) o at hm
      cases hm; assumption
    obtain ⟨tw, val, occ, wrap⟩ := spell_pair hε hN htt e hm' hf' hy hy' hal hcl
    exact ⟨tw, val, occ, wrap⟩

end WG
