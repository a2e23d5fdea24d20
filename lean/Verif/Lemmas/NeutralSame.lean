import Verif.Lemmas.NeutralExpr
import Verif.Lemmas.NeutralGen

/-! # Expressions with Identity and Zero and with ordinary neutral objects in their place

The two trees have the same values, and along corresponding paths the same products of local
derivatives wherever both are finite. -/

namespace WG
open Matrix Spec

variable {ε : ℝ} {s : Memory}

/-- Equal, unless one of the two is not finite or does not compile; if `q`, the first is not the
cause. -/
def Agree (q : Prop) {a a' b b' : Ty} (h : Twin a a') (g : Twin b b') (A : OMat a.Idx b.Idx)
    (A' : OMat a'.Idx b'.Idx) : Prop := (¬q ∧ A = none) ∨ A' = none ∨ reIdx h g A = A'

theorem Agree.mono {q q' : Prop} (hq : q' → q) {a a' b b' : Ty} {h : Twin a a'} {g : Twin b b'}
    {A : OMat a.Idx b.Idx} {A' : OMat a'.Idx b'.Idx} (i : Agree q h g A A') : Agree q' h g A A' :=
  i.imp (fun k => ⟨fun k' => k.1 (hq k'), k.2⟩) id

theorem Agree.mul {q : Prop} {a a' b b' c c' : Ty} {h : Twin a a'} {g : Twin b b'} {k : Twin c c'}
    {A : OMat a.Idx b.Idx} {A' : OMat a'.Idx b'.Idx} {B : OMat b.Idx c.Idx}
    {B' : OMat b'.Idx c'.Idx} (i : Agree q h g A A') (j : Agree q g k B B') :
    Agree q h k (A.mul B) (A'.mul B') := by
  rcases i with ⟨hq, rfl⟩ | rfl | i
  · exact .inl ⟨hq, rfl⟩
  · exact .inr (.inl rfl)
  · rcases j with ⟨hq, rfl⟩ | rfl | j
    · exact .inl ⟨hq, by cases A <;> rfl⟩
    · exact .inr (.inl (by cases A' <;> rfl))
    · exact .inr (.inr (by rw [reIdx_mul h g k, i, j]))

theorem Agree.total {q : Prop} {a a' b b' : Ty} {h : Twin a a'} {g : Twin b b'} :
    ∀ {As : List (OMat a.Idx b.Idx)} {As' : List (OMat a'.Idx b'.Idx)},
    List.Forall₂ (Agree q h g) As As' → Agree q h g (total As) (total As')
  | _, _, .nil => .inr (.inr rfl)
  | _, _, .cons (a := A) (b := A') (l₁ := As) (l₂ := As') i j => by
    have ih := Agree.total j
    unfold Spec.total at ih ⊢
    rw [List.sum_cons, List.sum_cons]
    rcases i with ⟨hq, rfl⟩ | rfl | i
    · exact .inl ⟨hq, rfl⟩
    · exact .inr (.inl rfl)
    · rcases ih with ⟨hq, h0⟩ | h0 | h0
      · exact .inl ⟨hq, by rw [h0]; cases A <;> rfl⟩
      · exact .inr (.inl (by rw [h0]; cases A' <;> rfl))
      · exact .inr (.inr (by rw [reIdx_add, i, h0]))

theorem Agree.of_eq {q : Prop} {a a' b b' : Ty} {h : Twin a a'} {g : Twin b b'}
    {A : OMat a.Idx b.Idx} {A' : OMat a'.Idx b'.Idx} (e : reIdx h g A = A') : Agree q h g A A' :=
  .inr (.inr e)

theorem Agree.of_none {q : Prop} (hq : ¬q) {a a' b b' : Ty} {h : Twin a a'} {g : Twin b b'}
    {A' : OMat a'.Idx b'.Idx} : Agree q h g none A' := .inl ⟨hq, rfl⟩

/-- The unary operators overload resolution can choose. -/
inductive UForm : Tag1 → (a b : XTy) → XUn a b → Prop
  | value {u : Tag1} {a : XTy} {q : (b : Ty) × Un a.leaf b} : direct1 u a.leaf = some q →
      UForm u a (.plain q.1) (.value q.2)
  | minusZero {a : XTy} : a.wrapper = true → UForm .minus a a (.minusZero a)
  | invId {a : XTy} : a.wrapper = true → UForm .inverse a a (.invId a)
  | expRot : UForm .expMap (.zeroVec .relrot) (.idRot .mat) .expZeroRot
  | expTwist : UForm .expMap (.zeroVec .twist) (.idRigid .mat) .expZeroTwist
  | logRot (k : RotK) : UForm .logMap (.idRot k) (.zeroVec .relrot) (.logIdRot k)
  | logRigid (k : RigK) : UForm .logMap (.idRigid k) (.zeroVec .twist) (.logIdRigid k)
  | normZ {u : Tag1} (op : Un (.vec .scalar) (.vec .scalar)) : (u = .sqNorm ∨ u = .norm) →
      UForm u (.zeroVec .scalar) (.plain (.vec .scalar)) (.value op)

/-- The binary operators overload resolution can choose. -/
inductive BForm : Tag2 → (a b c : XTy) → XBin a b c → Prop
  | value {u : Tag2} {a b : XTy} {q : (c : Ty) × Bin a.leaf b.leaf c} :
      direct2 u a.leaf b.leaf = some q → BForm u a b (.plain q.1) (.value q.2)
  | dangling {u : Tag2} {a b : XTy} {c : Ty} (op : Bin a.leaf b.leaf c) :
      (u ≠ .compose ∧ u ≠ .composeFlipped) → BForm u a b (.plain c) (.dangling op)
  | keepL {u : Tag2} {a b : XTy} : b.wrapper = true →
      (u = .sum ∨ u = .compose ∨ u = .composeFlipped) → BForm u a b a (.keepL u a b)
  | keepR {u : Tag2} {a b : XTy} : a.wrapper = true →
      (u = .sum ∨ u = .compose ∨ u = .composeFlipped ∨ u = .rotate ∨ u = .transform) →
      BForm u a b b (.keepR u a b)
  | dotZ : BForm .dot (.zeroVec .scalar) (.zeroVec .scalar) (.plain (.vec .scalar))
      (.value (.dot .scalar))

theorem val1_form {t : Tag1} {a : XTy} {r} (h : val1 t a = some (some r)) :
    UForm t a r.1 r.2 := by
  unfold val1 at h
  split at h
  · cases h
  obtain ⟨q, hq, h⟩ := Option.map_eq_some_iff.mp h
  cases h
  exact .value hq

theorem normOf_form {t : Tag1} {op} {a : XTy} {r} (ht : t = .sqNorm ∨ t = .norm)
    (h : normOf t op a = some (some r)) : UForm t a r.1 r.2 := by
  unfold normOf at h
  split at h
  · cases h; exact .normZ _ ht
  · exact val1_form h

theorem val2_form {t : Tag2} {a b : XTy} {r} (h : val2 t a b = some (some r)) :
    BForm t a b r.1 r.2 := by
  unfold val2 at h
  split at h
  · cases h
  obtain ⟨q, hq, h⟩ := Option.map_eq_some_iff.mp h
  cases h
  exact .value hq

theorem dotOf_form {a b : XTy} {r} (h : dotOf a b = some (some r)) : BForm .dot a b r.1 r.2 := by
  unfold dotOf at h
  split at h
  · cases h; exact .dotZ
  · exact val2_form h

theorem sumKeepL_form {a b : XTy} {r} (h : sumKeep true a b = some (some r)) (hb : b.wrapper = true) :
    BForm .sum a b r.1 r.2 := by
  unfold sumKeep at h
  split at h
  · cases h; exact .keepL hb (by simp)
  · cases h

theorem sumKeepR_form {a b : XTy} {r} (h : sumKeep false a b = some (some r))
    (ha : a.wrapper = true) : BForm .sum a b r.1 r.2 := by
  unfold sumKeep at h
  split at h
  · cases h; exact .keepR ha (by simp)
  · cases h

theorem scaled_form {t : Tag2} {a b : XTy} {r} (h : scaled t a b = some (some r))
    (ht : t ≠ .compose ∧ t ≠ .composeFlipped) : BForm t a b r.1 r.2 := by
  unfold scaled at h
  split at h
  · cases h
  obtain ⟨q, hq, h⟩ := Option.map_eq_some_iff.mp h
  obtain rfl := Option.some.inj h
  dsimp only
  split_ifs
  · exact .dangling _ ht
  · exact .value hq

theorem ovs1_form (t : Tag1) : ∀ o ∈ ovs1 t, ∀ {a : XTy} {r}, (rank o.p a).isSome = true →
    o.body a = some (some r) → UForm t a r.1 r.2 := by
  cases t <;> intro o ho a r hr h <;> simp only [ovs1, List.mem_cons, List.not_mem_nil, or_false] at ho
  case minus =>
    rcases ho with rfl | rfl
    · exact val1_form h
    · cases h; exact .minusZero (rank_zero hr)
  case inverse =>
    rcases ho with rfl | rfl | rfl | rfl | rfl
    · exact val1_form h
    · exact val1_form h
    · exact val1_form h
    · exact val1_form h
    · cases h; exact .invId (rank_identity hr)
  case expMap =>
    rcases ho with rfl | rfl | rfl
    · exact val1_form h
    · exact val1_form h
    · dsimp only at h
      split at h <;> cases h
      · exact .expRot
      · exact .expTwist
  case logMap =>
    rcases ho with rfl | rfl | rfl
    · exact val1_form h
    · exact val1_form h
    · dsimp only at h
      split at h <;> cases h
      · exact .logRot _
      · exact .logRigid _
  case rotation =>
    subst ho
    dsimp only at h
    unfold rigidPart at h
    split at h
    · cases h
    · exact val1_form h
  case translation =>
    rcases ho with rfl | rfl
    · dsimp only at h
      unfold rigidPart at h
      split at h
      · cases h
      · exact val1_form h
    · exact val1_form h
  case sqNorm => subst ho; exact normOf_form (by simp) h
  case norm => subst ho; exact normOf_form (by simp) h
  all_goals
    subst ho
    exact val1_form h

theorem ovs2_form (t : Tag2) : ∀ o ∈ ovs2 t, ∀ {a b : XTy} {r}, (rank o.l a).isSome = true →
    (rank o.r b).isSome = true → o.body a b = some (some r) → BForm t a b r.1 r.2 := by
  cases t <;> intro o ho a b r hl hr h <;>
    simp only [ovs2, List.mem_cons, List.not_mem_nil, or_false] at ho
  case sum =>
    rcases ho with rfl | rfl | rfl | rfl | rfl | rfl
    · exact val2_form h
    · exact val2_form h
    · exact val2_form h
    · exact sumKeepL_form h (rank_zero hr)
    · exact sumKeepR_form h (rank_zero hl)
    · exact sumKeepL_form h (rank_zero hr)
  case dot => subst ho; exact dotOf_form h
  case subtract => rcases ho with rfl | rfl <;> exact val2_form h
  case scale => subst ho; exact scaled_form h (by decide)
  case scaleR => subst ho; exact scaled_form h (by decide)
  case scaleDiv => subst ho; exact scaled_form h (by decide)
  case compose =>
    rcases ho with rfl | rfl | rfl | rfl | rfl | rfl
    · exact val2_form h
    · exact val2_form h
    · exact val2_form h
    · cases h; exact .keepL (rank_identity hr) (by simp)
    · cases h; exact .keepR (rank_identity hl) (by simp)
    · cases h; exact .keepL (rank_identity hr) (by simp)
  case composeFlipped =>
    rcases ho with rfl | rfl | rfl | rfl | rfl | rfl
    · exact val2_form h
    · exact val2_form h
    · exact val2_form h
    · cases h; exact .keepR (rank_identity hl) (by simp)
    · cases h; exact .keepL (rank_identity hr) (by simp)
    · cases h; exact .keepR (rank_identity hl) (by simp)
  case rotate =>
    rcases ho with rfl | rfl | rfl
    · exact val2_form h
    · exact val2_form h
    · cases h; exact .keepR (rank_identity hl) (by simp)
  case transform =>
    rcases ho with rfl | rfl
    · exact val2_form h
    · cases h; exact .keepR (rank_identity hl) (by simp)
  all_goals
    subst ho
    exact val2_form h

/-- A choice the search for conversions can make for an operand. -/
def XSideOk {a : XTy} (w : XSide a) : Prop := w = .stay ∨ ∃ b op, w = .via b op ∧ convX a b = some op

theorem xside_ok {a : XTy} {w : XSide a} (h : w = .stay ∨ w ∈ xsides a) : XSideOk w := by
  refine h.imp id fun h => ?_
  obtain ⟨b, -, h⟩ := List.mem_filterMap.mp h
  obtain ⟨op, hop, rfl⟩ := Option.map_eq_some_iff.mp h
  exact ⟨b, op, rfl, hop⟩

theorem xelab1_form {t : Tag1} {x y : XTree ε} (h : xelab1 t x = some y) :
    ∃ (w : XSide x.1) (r : (b : XTy) × XUn w.ty b), XSideOk w ∧ UForm t w.ty r.1 r.2 ∧
      y = ⟨r.1, Expr.un (L := xLib ε) 0 r.2 (w.apply x.2)⟩ := by
  obtain ⟨u, hu, h⟩ := firstConv1_mem (join_eq_some h)
  obtain ⟨r, hr, h⟩ := Option.map_eq_some_iff.mp h
  obtain ⟨q, rfl, rfl⟩ := Option.map_eq_some_iff.mp h
  obtain ⟨o, ho, hv, hb⟩ := resolve1_mem hr
  exact ⟨u, q, xside_ok hu, ovs1_form t o ho hv hb, rfl⟩

theorem xelab2_form {t : Tag2} {x y z : XTree ε} (h : xelab2 t x y = some z) :
    ∃ (w : XSide x.1) (u : XSide y.1) (r : (c : XTy) × XBin w.ty u.ty c), XSideOk w ∧ XSideOk u ∧
      BForm t w.ty u.ty r.1 r.2 ∧ resolve2 (ovs2 t) w.ty u.ty = some (some r) ∧
      z = ⟨r.1, Expr.bin (L := xLib ε) 0 r.2 (w.apply x.2) (u.apply y.2)⟩ := by
  obtain ⟨u, w, hu, hw, h⟩ := firstConv2_mem (join_eq_some h)
  obtain ⟨r, hr, h⟩ := Option.map_eq_some_iff.mp h
  obtain ⟨q, rfl, rfl⟩ := Option.map_eq_some_iff.mp h
  obtain ⟨o, ho, hv, hv', hb⟩ := resolve2_mem hr
  exact ⟨u, w, q, xside_ok hu, xside_ok hw, ovs2_form t o ho hv hv' hb, hr, rfl⟩

/-! ## Corresponding operators -/

theorem regularUn_twin {u : Tag1} {a a' : Ty} (tw : Twin a a') {r : (b : Ty) × Un a b}
    {r' : (b : Ty) × Un a' b} (hr : direct1 u a = some r) (hr' : direct1 u a' = some r')
    {v : a.Val} {v' : a'.Val} (ho : obj a v = obj a' v') (h : RegularUn ε r'.2 (den a' v')) :
    RegularUn ε r.2 (den a v) := by
  cases tw with
  | vec k =>
    rw [hr] at hr'
    cases hr'
    have : v = v' := by simpa [obj] using ho
    subst this
    exact h
  | point => cases u <;> cases hr
  | rot k k' =>
    have hd : rotDen k v = rotDen k' v' := by simpa [obj] using ho
    cases u <;> try (cases hr; done)
    · cases hr
      cases hr'
      trivial
    · cases k <;> cases hr
      cases k' <;> cases hr'
      have : v = v' := hd
      subst this
      exact h
    · cases hr; trivial
  | rigid k k' =>
    have hd : rigidDen k v = rigidDen k' v' := by simpa [obj] using ho
    cases u <;> try (cases hr; done)
    · cases hr; trivial
    · cases hr
      cases hr'
      have hd' : den (.rigid k) v = den (.rigid k') v' := hd
      change (den (.rigid k) v).R = 1 ∨ (ε < angle (den (.rigid k) v).R ^ 2 ∧ _)
      rw [hd']
      exact h
    · cases hr; trivial
    · cases hr; trivial

theorem regularBin_twin {u : Tag2} {a a' b b' : Ty} (tw : Twin a a') (tu : Twin b b')
    {r : (c : Ty) × Bin a b c} {r' : (c : Ty) × Bin a' b' c} (hr : direct2 u a b = some r)
    (hr' : direct2 u a' b' = some r') {v : a.Val} {v' : a'.Val} {w : b.Val} {w' : b'.Val}
    (ho : obj a v = obj a' v') (ho' : obj b w = obj b' w')
    (h : RegularBin r'.2 (den a' v') (den b' w')) : RegularBin r.2 (den a v) (den b w) := by
  have flat : ∀ {a b : Ty} {r r' : (c : Ty) × Bin a b c}
      (_ : direct2 u a b = some r) (_ : direct2 u a b = some r') {v v' : a.Val} {w w' : b.Val}
      (_ : v = v') (_ : w = w') (_ : RegularBin r'.2 (den a v') (den b w')),
      RegularBin r.2 (den a v) (den b w) := by
    intro a b r r' hr hr' v v' w w' hv hw h
    subst hv hw
    rw [hr] at hr'
    cases hr'
    exact h
  cases tw with
  | vec k =>
    have e1 : v = v' := by simpa [obj] using ho
    cases tu with
    | vec k' => exact flat hr hr' e1 (by simpa [obj] using ho') h
    | point => exact flat hr hr' e1 (by simpa [obj] using ho') h
    | rot l l' => exfalso; cases u <;> cases k <;> cases hr
    | rigid l l' => exfalso; cases u <;> cases k <;> cases hr
  | point =>
    have e1 : v = v' := by simpa [obj] using ho
    cases tu with
    | vec k' => exact flat hr hr' e1 (by simpa [obj] using ho') h
    | point => exact flat hr hr' e1 (by simpa [obj] using ho') h
    | rot l l' => exfalso; cases u <;> cases hr
    | rigid l l' => exfalso; cases u <;> cases hr
  | rot k k' =>
    cases tu with
    | vec l => cases u <;> cases k <;> cases l <;> cases hr <;> trivial
    | point => exfalso; cases u <;> cases k <;> cases hr
    | rigid l l' => exfalso; cases u <;> cases k <;> cases hr
    | rot l l' => cases u <;> cases k <;> cases l <;> cases hr <;> trivial
  | rigid k k' =>
    cases tu with
    | vec l => cases u <;> cases l <;> cases hr <;> trivial
    | point => exfalso; cases u <;> cases hr
    | rot l l' => exfalso; cases u <;> cases hr
    | rigid l l' => cases u <;> cases hr <;> trivial

theorem expTwistJac_zero (C : M3) : expTwistJac ε C 0 = none := by
  unfold expTwistJac
  have h0 : Twist.rot (0 : Twist) = 0 := rfl
  rw [h0, eadeB_zero]
  cases expRelJac ε C 0 <;> rfl

theorem expRelJac_zero (hε : 0 < ε) (C : M3) : expRelJac ε C 0 = some 1 := by
  unfold expRelJac
  have : normSq (0 : V3) = 0 := by simp [normSq]
  simp only [this]
  rw [if_neg (by simpa using hε.le)]
  have : crossMatrix 0 = 0 := by
    ext i j
    fin_cases i <;> fin_cases j <;> simp [crossMatrix]
  rw [this]
  simp

/-- The unary operators chosen with and without Identity and Zero have the same value, and the same
local derivative where both have one. -/
theorem xun_twin (hε : 0 < ε) {u : Tag1} {a b : XTy} {op : XUn a b} (f : UForm u a b op) {a' : Ty}
    (tw : Twin a.leaf a') {r' : (b : Ty) × Un a' b} (hr' : direct1 u a' = some r') {v : a.Val}
    {v' : a'.Val} (hv : Valid a.leaf (a.content v)) (hv' : Valid a' v')
    (ho : obj a.leaf (a.content v) = obj a' v') (hreg : RegularUn ε r'.2 (den a' v')) :
    ∃ (y : b.Val) (y' : r'.1.Val) (tw' : Twin b.leaf r'.1), evalXUn ε op v = some y ∧
      evalUn ε r'.2 v' = some y' ∧ Valid b.leaf (b.content y) ∧ Valid r'.1 y' ∧
      obj b.leaf (b.content y) = obj r'.1 y' ∧
      Agree (a.wrapper = false) tw' tw (jacXUn ε op y v) (jacUn ε r'.2 y' v') := by
  obtain ⟨y', l1, l2, l3⟩ := un_sound hε r'.2 v' hv' hreg
  cases f with
  | value hr =>
    rename_i q
    obtain ⟨y, k1, k2, k3⟩ := un_sound hε q.2 (a.content v) hv (regularUn_twin tw hr hr' ho hreg)
    obtain ⟨tw', e1, e2⟩ := un_twin tw hr hr' hv hv' ho k2 l2 k1 l1 k3 l3
    exact ⟨y, y', tw', k1, l1, k2, l2, e1, .of_eq e2⟩
  | normZ op hu =>
    cases tw
    rcases hu with rfl | rfl <;> cases hr'
  | minusZero hw =>
    rw [content_wrapper hw, neutral_obj] at ho
    cases a' with
    | vec k =>
      cases hr'
      cases l1
      have ha : a = .zeroVec k := by
        cases a with
        | plain => cases hw
        | zeroVec => cases tw; rfl
        | _ => cases tw
      subst ha
      have e : v' = (0 : k.Idx → ℝ) := by simpa [neutralObj, obj] using ho.symm
      subst e
      refine ⟨v, _, .vec k, rfl, rfl, hv, l2, congrArg (Obj.vec k) ?_, .of_eq ?_⟩
      · exact (neg_zero (G := k.Idx → ℝ)).symm
      · exact eq_of_heq (reIdx_heq (Twin.vec k) (Twin.vec k) _)
    | _ => cases hr'
  | invId hw =>
    rw [content_wrapper hw, neutral_obj] at ho
    refine ⟨v, y', ?_⟩
    have hc := content_wrapper hw v
    cases a' with
    | rot k' =>
      cases hr'
      refine ⟨tw, rfl, l1, hv, l2, ?_, .of_none (by rw [hw]; decide)⟩
      rw [hc, neutral_obj]
      have e : rotDen k' v' * rotDen k' y' = 1 := l3
      cases ha : a.leaf with
      | rot k =>
        rw [ha] at ho
        have e' : (1 : M3) = rotDen k' v' := by simpa [neutralObj, obj] using ho
        rw [← e', one_mul] at e
        exact congrArg Obj.rot e.symm
      | _ => rw [ha] at tw; cases tw
    | rigid k' =>
      cases hr'
      refine ⟨tw, rfl, l1, hv, l2, ?_, .of_none (by rw [hw]; decide)⟩
      rw [hc, neutral_obj]
      have e : (rigidDen k' v').comp (rigidDen k' y') = Rigid.id := l3
      cases ha : a.leaf with
      | rigid k =>
        rw [ha] at ho
        have e' : Rigid.id = rigidDen k' v' := by simpa [neutralObj, obj] using ho
        rw [← e', Rigid.id_comp] at e
        exact congrArg Obj.motion e.symm
      | _ => rw [ha] at tw; cases tw
    | _ => cases hr'
  | expRot =>
    cases tw with
    | vec =>
      cases hr'
      have e : v' = (0 : V3) := by
        have := (neutral_obj (.vec .relrot)).symm.trans ho
        simpa [neutralObj, obj] using this.symm
      subst e
      have e' : rotDen .quat y' = 1 := by
        have : rotDen .quat y' = NormedSpace.exp (hat 0) := l3
        rw [this, exp_hat_zero]
      refine ⟨(), y', .rot _ _, rfl, l1, neutral_valid (.rot .mat), l2, ?_, .of_eq ?_⟩
      · exact (neutral_obj (.rot .mat)).trans (congrArg Obj.rot e'.symm)
      · exact (expRelJac_zero hε _).symm
  | expTwist =>
    cases tw with
    | vec =>
      cases hr'
      have e : v' = (0 : Twist) := by
        have := (neutral_obj (.vec .twist)).symm.trans ho
        simpa [neutralObj, obj] using this.symm
      subst e
      have e' : rigidDen .mat y' = Rigid.id := motion_exp_zero l3
      refine ⟨(), y', .rigid _ _, rfl, l1, neutral_valid (.rigid .mat), l2, ?_, .inr (.inl ?_)⟩
      · exact (neutral_obj (.rigid .mat)).trans (congrArg Obj.motion e'.symm)
      · exact expTwistJac_zero _
  | logRot k =>
    cases tw with
    | rot _ k' =>
      cases k' <;> cases hr'
      have e : v' = (1 : M3) := by
        have := (neutral_obj (.rot k)).symm.trans ho
        have : Obj.rot 1 = Obj.rot (v' : M3) := this
        exact (Obj.rot.inj this).symm
      subst e
      have e' : y' = (0 : V3) := by
        have := l1.symm.trans (logMat_one hε)
        exact Option.some.inj this
      refine ⟨(), y', .vec _, rfl, l1, trivial, l2, ?_, .of_none (fun h => by cases h)⟩
      exact (neutral_obj (.vec .relrot)).trans (congrArg (Obj.vec .relrot) e'.symm)
  | logRigid k =>
    cases tw with
    | rigid _ k' =>
      cases hr'
      have e : rigidDen k' v' = Rigid.id := by
        have := (neutral_obj (.rigid k)).symm.trans ho
        simpa [neutralObj, obj] using this.symm
      have e' : y' = (0 : Twist) := by
        have h3 := logRigid_motion (T := Rigid.id) (ξ := 0) hε
          ((motion_exp_iff Rigid.id 0).mpr ⟨rodr_zero.symm, (mulVec_zero _).symm⟩)
          (by
            change sqLen (angular 0) < _
            have : angular (0 : Twist) = 0 := rfl
            rw [this]
            simp [sqLen, Real.pi_pos]) (Or.inl rfl)
        have hd := rigidDen_eq k' v' hv'
        rw [e] at hd
        have h1 : logRigid ε (k'.rotMatrix v') (k'.trans v') = some y' := l1
        have hR : k'.rotMatrix v' = Rigid.id.R := (congrArg Rigid.R hd).symm
        have hT : k'.trans v' = Rigid.id.t := (congrArg Rigid.t hd).symm
        rw [hR, hT] at h1
        exact Option.some.inj (h1.symm.trans h3)
      refine ⟨(), y', .vec _, rfl, l1, trivial, l2, ?_, .of_none (fun h => by cases h)⟩
      exact (neutral_obj (.vec .twist)).trans (congrArg (Obj.vec .twist) e'.symm)

/-- `rotOf` in terms of `value()`. -/
noncomputable def rotOfC : (α : Ty) → α.Val → Option M3
  | .rot k, x => some (k.matrix x)
  | _, _ => none

theorem rotOf_eq : (a : XTy) → (x : a.Val) → rotOf a x = rotOfC a.leaf (a.content x)
  | .plain (.vec _), _ => rfl
  | .plain .point, _ => rfl
  | .plain (.rot _), _ => rfl
  | .plain (.rigid _), _ => rfl
  | .idRot _, _ => rfl
  | .idRigid _, _ => rfl
  | .zeroVec _, _ => rfl
  | .zeroPoint, _ => rfl

section keep

variable {α β α' β' : Ty} (tw : Twin α α') (tu : Twin β β') {r' : (c : Ty) × Bin α' β' c}
  {v : α.Val} {v' : α'.Val} {w : β.Val} {w' : β'.Val} {z' : r'.1.Val}

theorem keepL_sum (hr' : direct2 .sum α' β' = some r') (hs : Twin α r'.1)
    (ho : obj α v = obj α' v') (hz : obj β' w' = neutralObj β)
    (he' : evalBin r'.2 v' w' = some z') :
    obj α v = obj r'.1 z' ∧ reIdx hs tw (some (sameJac α α)) = jacL r'.2 z' v' w' ∧
      reIdx hs tu (some (sameJac α β)) = jacR r'.2 z' v' w' := by
  cases tw with
  | vec k =>
    cases tu with
    | vec l =>
      cases k <;> cases l <;> cases hr'
      all_goals
        cases he'
        have e1 : v = v' := by simpa [obj] using ho
        have e2 : w' = (0 : VK.Idx _ → ℝ) := by simpa [obj, neutralObj] using hz
        subst e1 e2
        refine ⟨congrArg (Obj.vec _) (add_zero (M := VK.Idx _ → ℝ) v).symm, ?_, ?_⟩
        all_goals
          rw [sameJac_self]
          rfl
    | point => cases k <;> cases hr' <;> cases hs
    | _ => cases k <;> cases hr'
  | point =>
    cases tu with
    | vec l =>
      cases l <;> cases hr'
      cases he'
      have e1 : v = v' := by simpa [obj] using ho
      have e2 : w' = (0 : V3) := by simpa [obj, neutralObj] using hz
      subst e1 e2
      refine ⟨congrArg Obj.point (add_zero (M := V3) v).symm, ?_, ?_⟩
      · rw [sameJac_self]; rfl
      · have : sameJac .point (.vec .trans) = (1 : M3) := sameJac_self .point
        rw [this]; rfl
    | _ => cases hr'
  | _ => cases tu <;> cases hr'

theorem keepR_sum (hr' : direct2 .sum α' β' = some r') (hs : Twin β r'.1)
    (ho : obj β w = obj β' w') (hz : obj α' v' = neutralObj α)
    (he' : evalBin r'.2 v' w' = some z') :
    obj β w = obj r'.1 z' ∧ reIdx hs tw (some (sameJac β α)) = jacL r'.2 z' v' w' ∧
      reIdx hs tu (some (sameJac β β)) = jacR r'.2 z' v' w' := by
  cases tw with
  | vec k =>
    cases tu with
    | vec l =>
      cases k <;> cases l <;> cases hr'
      all_goals
        cases he'
        have e1 : w = w' := by simpa [obj] using ho
        have e2 : v' = (0 : VK.Idx _ → ℝ) := by simpa [obj, neutralObj] using hz
        subst e1 e2
        refine ⟨congrArg (Obj.vec _) (zero_add (M := VK.Idx _ → ℝ) w).symm, ?_, ?_⟩
        all_goals
          rw [sameJac_self]
          rfl
    | point =>
      cases k <;> cases hr'
      cases he'
      have e1 : w = w' := by simpa [obj] using ho
      have e2 : v' = (0 : V3) := by simpa [obj, neutralObj] using hz
      subst e1 e2
      refine ⟨congrArg Obj.point (zero_add (M := V3) w).symm, ?_, ?_⟩
      · have : sameJac .point (.vec .trans) = (1 : M3) := sameJac_self .point
        rw [this]; rfl
      · rw [sameJac_self]; rfl
    | _ => cases k <;> cases hr'
  | point =>
    cases tu with
    | vec l => cases l <;> cases hr' <;> cases hs
    | _ => cases hr'
  | _ => cases tu <;> cases hr'

/-- The rotation matrix of twin rotations. -/
theorem matrix_twin {k k' : RotK} {x : k.Val} {x' : k'.Val} (hx : Valid (.rot k) x)
    (hx' : Valid (.rot k') x') (h : obj (.rot k) x = obj (.rot k') x') : k.matrix x = k'.matrix x' := by
  have hd : rotDen k x = rotDen k' x' := by simpa [obj] using h
  rw [← rotDen_eq k x hx, ← rotDen_eq k' x' hx', hd]

theorem keepL_compose (hr' : direct2 .compose α' β' = some r') (hv : Valid α v) (hv' : Valid α' v')
    (ho : obj α v = obj α' v') (hz : obj β' w' = neutralObj β)
    (hm' : BinMeans r'.2 (den α' v') (den β' w') (den _ z')) :
    ∃ hs : Twin α r'.1, obj α v = obj r'.1 z' ∧
      Agree (True) hs tw (some (sameJac α α)) (jacL r'.2 z' v' w') ∧
      Agree (False) hs tu ((rotOfC α v).bind (block3 α β)) (jacR r'.2 z' v' w') := by
  cases tw with
  | rot k k' =>
    cases tu with
    | rot l l' =>
      have hd : rotDen k v = rotDen k' v' := by simpa [obj] using ho
      have hk := matrix_twin hv hv' ho
      have hw : rotDen l' w' = 1 := by simpa [obj, neutralObj] using hz
      cases k' <;> cases l' <;> cases hr'
      all_goals
        refine ⟨.rot _ _, congrArg Obj.rot ?_, .of_eq ?_, .of_eq ?_⟩
        · have e := Eq.trans hm' (congrArg₂ (fun R S : M3 => R * S) hd.symm hw)
          exact (Eq.trans e (mul_one _)).symm
        · rw [sameJac_self]; rfl
        · exact congrArg some hk
    | _ => cases k' <;> cases hr'
  | rigid k k' =>
    cases tu with
    | rigid l l' =>
      have hd : rigidDen k v = rigidDen k' v' := by simpa [obj] using ho
      have hw : rigidDen l' w' = Rigid.id := by simpa [obj, neutralObj] using hz
      cases hr'
      refine ⟨.rigid _ _, congrArg Obj.motion ?_, .of_eq ?_, .of_none (by simp)⟩
      · have e : rigidDen l' z' = (rigidDen k' v').comp (rigidDen l' w') := hm'
        rw [hd, e, hw, Rigid.comp_id]
      · rw [sameJac_self]; rfl
    | _ => cases hr'
  | vec k => cases tu <;> cases k <;> cases hr'
  | point => cases tu <;> cases hr'

theorem keepR_compose (hr' : direct2 .compose α' β' = some r') (hv : Valid α v) (hv' : Valid α' v')
    (ho : obj α v = obj α' v') (ho' : obj β w = obj β' w') (hz : obj α' v' = neutralObj α)
    (hm' : BinMeans r'.2 (den α' v') (den β' w') (den _ z')) :
    ∃ hs : Twin β r'.1, obj β w = obj r'.1 z' ∧
      Agree (True) hs tw (some (sameJac β α)) (jacL r'.2 z' v' w') ∧
      Agree (∀ k, α ≠ .rigid k) hs tu ((rotOfC α v).bind (block3 β β)) (jacR r'.2 z' v' w') := by
  cases tw with
  | rot k k' =>
    cases tu with
    | rot l l' =>
      have hd : rotDen l w = rotDen l' w' := by simpa [obj] using ho'
      have hk := matrix_twin hv hv' ho
      have hw : rotDen k' v' = 1 := by simpa [obj, neutralObj] using hz
      have hJ : sameJac (.rot l) (.rot k) = (1 : M3) := sameJac_self (.rot l)
      cases k' <;> cases l' <;> cases hr'
      all_goals
        refine ⟨.rot _ _, congrArg Obj.rot ?_, .of_eq ?_, .of_eq ?_⟩
        · have e := Eq.trans hm' (congrArg₂ (fun R S : M3 => R * S) hw hd.symm)
          exact (Eq.trans e (one_mul _)).symm
        · rw [hJ]; rfl
        · exact congrArg some hk
    | _ => cases k' <;> cases hr'
  | rigid k k' =>
    cases tu with
    | rigid l l' =>
      have hd : rigidDen l w = rigidDen l' w' := by simpa [obj] using ho'
      have hw : rigidDen k' v' = Rigid.id := by simpa [obj, neutralObj] using hz
      have hJ : sameJac (.rigid l) (.rigid k) = (1 : M6) := sameJac_self (.rigid l)
      cases hr'
      refine ⟨.rigid _ _, congrArg Obj.motion ?_, .of_eq ?_, .of_none (by simp)⟩
      · have e : rigidDen l' z' = (rigidDen k' v').comp (rigidDen l' w') := hm'
        rw [hd, e, hw, Rigid.id_comp]
      · rw [hJ]; rfl
    | _ => cases hr'
  | vec k => cases tu <;> cases k <;> cases hr'
  | point => cases tu <;> cases hr'

theorem keepL_flip (hr' : direct2 .composeFlipped α' β' = some r') (hw : Valid β w)
    (hw' : Valid β' w') (ho : obj α v = obj α' v') (ho' : obj β w = obj β' w')
    (hz : obj β' w' = neutralObj β)
    (hm' : BinMeans r'.2 (den α' v') (den β' w') (den _ z')) :
    ∃ hs : Twin α r'.1, obj α v = obj r'.1 z' ∧
      Agree (∀ k, β ≠ .rigid k) hs tw ((rotOfC β w).bind (block3 α α)) (jacL r'.2 z' v' w') ∧
      Agree (True) hs tu (some (sameJac α β)) (jacR r'.2 z' v' w') := by
  cases tw with
  | rot k k' =>
    cases tu with
    | rot l l' =>
      have hd : rotDen k v = rotDen k' v' := by simpa [obj] using ho
      have hk := matrix_twin hw hw' ho'
      have h1 : rotDen l' w' = 1 := by simpa [obj, neutralObj] using hz
      have hJ : sameJac (.rot k) (.rot l) = (1 : M3) := sameJac_self (.rot l)
      cases k' <;> cases l' <;> cases hr'
      all_goals
        refine ⟨.rot _ _, congrArg Obj.rot ?_, .of_eq ?_, .of_eq ?_⟩
        · have e := Eq.trans hm' (congrArg₂ (fun R S : M3 => S * R) hd.symm h1)
          exact (Eq.trans e (one_mul _)).symm
        · exact congrArg some hk
        · rw [hJ]; rfl
    | _ => cases k' <;> cases hr'
  | rigid k k' =>
    cases tu with
    | rigid l l' =>
      have hd : rigidDen k v = rigidDen k' v' := by simpa [obj] using ho
      have h1 : rigidDen l' w' = Rigid.id := by simpa [obj, neutralObj] using hz
      have hJ : sameJac (.rigid k) (.rigid l) = (1 : M6) := sameJac_self (.rigid l)
      cases hr'
      refine ⟨.rigid _ _, congrArg Obj.motion ?_, .of_none (by simp), .of_eq ?_⟩
      · have e : rigidDen k' z' = (rigidDen l' w').comp (rigidDen k' v') := hm'
        rw [hd, e, h1, Rigid.id_comp]
      · rw [hJ]; rfl
    | _ => cases hr'
  | vec k => cases tu <;> cases k <;> cases hr'
  | point => cases tu <;> cases hr'

theorem keepR_flip (hr' : direct2 .composeFlipped α' β' = some r') (hw : Valid β w)
    (hw' : Valid β' w') (ho' : obj β w = obj β' w')
    (hz : obj α' v' = neutralObj α)
    (hm' : BinMeans r'.2 (den α' v') (den β' w') (den _ z')) :
    ∃ hs : Twin β r'.1, obj β w = obj r'.1 z' ∧
      Agree (False) hs tw ((rotOfC β w).bind (block3 β α)) (jacL r'.2 z' v' w') ∧
      Agree (True) hs tu (some (sameJac β β)) (jacR r'.2 z' v' w') := by
  cases tw with
  | rot k k' =>
    cases tu with
    | rot l l' =>
      have hd : rotDen l w = rotDen l' w' := by simpa [obj] using ho'
      have hk := matrix_twin hw hw' ho'
      have h1 : rotDen k' v' = 1 := by simpa [obj, neutralObj] using hz
      cases k' <;> cases l' <;> cases hr'
      all_goals
        refine ⟨.rot _ _, congrArg Obj.rot ?_, .of_eq ?_, .of_eq ?_⟩
        · have e := Eq.trans hm' (congrArg₂ (fun R S : M3 => S * R) h1 hd.symm)
          exact (Eq.trans e (mul_one _)).symm
        · exact congrArg some hk
        · rw [sameJac_self]; rfl
    | _ => cases k' <;> cases hr'
  | rigid k k' =>
    cases tu with
    | rigid l l' =>
      have hd : rigidDen l w = rigidDen l' w' := by simpa [obj] using ho'
      have h1 : rigidDen k' v' = Rigid.id := by simpa [obj, neutralObj] using hz
      cases hr'
      refine ⟨.rigid _ _, congrArg Obj.motion ?_, .of_none (by simp), .of_eq ?_⟩
      · have e : rigidDen k' z' = (rigidDen l' w').comp (rigidDen k' v') := hm'
        rw [hd, e, h1, Rigid.comp_id]
      · rw [sameJac_self]; rfl
    | _ => cases hr'
  | vec k => cases tu <;> cases k <;> cases hr'
  | point => cases tu <;> cases hr'

end keep

/-- `Rotate` by an Identity. -/
theorem keepR_rotate {a b : XTy} (ha : a.wrapper = true) {α' β' : Ty} (tw : Twin a.leaf α')
    (tu : Twin b.leaf β') {r' : (c : Ty) × Bin α' β' c} (hr' : direct2 .rotate α' β' = some r')
    {w : b.Val} {v' : α'.Val} {w' : β'.Val} {z' : r'.1.Val}
    (ho' : obj b.leaf (b.content w) = obj β' w') (hz : obj α' v' = neutralObj a.leaf)
    (hm' : BinMeans r'.2 (den α' v') (den β' w') (den _ z')) :
    ∃ hs : Twin b.leaf r'.1, obj b.leaf (b.content w) = obj r'.1 z' ∧
      Agree (False) hs tw (keepJacL .rotate a b b w w) (jacL r'.2 z' v' w') := by
  cases β' with
  | vec l =>
    cases α' with
    | rot k' =>
      have hv : rotDen k' v' = 1 := by
        cases ha' : a.leaf with
        | rot => rw [ha'] at hz; simpa [obj, neutralObj] using hz
        | _ => rw [ha'] at tw; cases tw
      have e : l = .trans ∧ HEq z' w' ∧ r'.1 = .vec .trans := by
        cases k' <;> cases l <;> cases hr'
        all_goals
          refine ⟨rfl, heq_of_eq ?_, rfl⟩
          have h1 := Eq.trans hm' (congrArg (fun R : M3 => R *ᵥ (w' : V3)) hv)
          exact Eq.trans h1 (one_mulVec _)
      obtain ⟨rfl, hz', hr⟩ := e
      have hb : b.leaf = .vec .trans := by
        cases hb' : b.leaf with
        | vec => rw [hb'] at tu; cases tu; rfl
        | _ => rw [hb'] at tu; cases tu
      have hs : Twin b.leaf r'.1 := by rw [hb, hr]; exact .refl _
      refine ⟨hs, ?_, ?_⟩
      · rw [ho']
        cases k' <;> cases hr' <;> exact congrArg (Obj.vec .trans) (eq_of_heq hz').symm
      · rcases b with τ | _ | _ | _ | _
        · cases hb
          have e1 : w = w' := by simpa [obj, XTy.content] using ho'
          rcases a with _ | k | _ | _ | _
          · cases ha
          · refine .of_eq ?_
            cases k' <;> cases hr'
            all_goals
              obtain rfl := eq_of_heq hz'
              subst e1
              rfl
          · cases tw
          · cases tw
          · cases tw
        all_goals
          exact .of_none id
    | _ => cases hr'
  | _ => cases α' with
    | rot k' => cases k' <;> cases hr'
    | _ => cases hr'

/-- `Transform` by an Identity. -/
theorem keepR_transform {a b : XTy} (ha : a.wrapper = true) {α' β' : Ty} (tw : Twin a.leaf α')
    (tu : Twin b.leaf β') {r' : (c : Ty) × Bin α' β' c} (hr' : direct2 .transform α' β' = some r')
    {w : b.Val} {v' : α'.Val} {w' : β'.Val} {z' : r'.1.Val}
    (ho' : obj b.leaf (b.content w) = obj β' w') (hz : obj α' v' = neutralObj a.leaf)
    (hm' : BinMeans r'.2 (den α' v') (den β' w') (den _ z')) :
    ∃ hs : Twin b.leaf r'.1, obj b.leaf (b.content w) = obj r'.1 z' ∧
      Agree (False) hs tw (keepJacL .transform a b b w w) (jacL r'.2 z' v' w') := by
  cases α' with
  | rigid k' =>
    cases β' with
    | vec l =>
      cases l <;> cases hr'
      have hv : rigidDen k' v' = Rigid.id := by
        cases ha' : a.leaf with
        | rigid => rw [ha'] at hz; simpa [obj, neutralObj] using hz
        | _ => rw [ha'] at tw; cases tw
      have e : z' = w' := by
        have h1 : z' = (rigidDen k' v').act w' := hm'
        rw [h1, hv, Rigid.id_act]
      subst e
      refine ⟨tu, ho', ?_⟩
      rcases a with _ | _ | k | _ | _
      · cases ha
      · cases tw
      · rcases b with τ | _ | _ | l | _
        · cases tu
          have e1 : w = z' := by simpa [obj, XTy.content] using ho'
          subst e1
          exact .of_eq rfl
        · cases tu
        · cases tu
        · cases tu
          have e1 : z' = (0 : V3) := by
            have := (neutral_obj (.vec .trans)).symm.trans ho'
            simpa [obj, neutralObj] using this.symm
          subst e1
          exact .of_eq rfl
        · cases tu
      · cases tw
      · cases tw
    | _ => cases hr'
  | rot k' => cases β' <;> cases hr'
  | vec k' => cases β' <;> cases k' <;> cases hr'
  | point => cases β' <;> cases hr'

/-- The left Jacobian exists for operands that are not Identity or Zero. -/
def XBin.hasL : {a b c : XTy} → XBin a b c → Prop
  | _, _, _, .keepL .composeFlipped _ b => ∀ k, b.leaf ≠ .rigid k
  | _, _, _, _ => True

/-- The right Jacobian exists for operands that are not Identity or Zero. -/
def XBin.hasR : {a b c : XTy} → XBin a b c → Prop
  | _, _, _, .keepR .compose a _ => ∀ k, a.leaf ≠ .rigid k
  | _, _, _, .keepR .rotate _ _ => False
  | _, _, _, .keepR .transform _ _ => False
  | _, _, _, _ => True

/-- The binary operators chosen with and without Identity and Zero have the same value, and the same
local derivatives where both have one. -/
theorem xbin_twin {u : Tag2} {a b c : XTy} {op : XBin a b c} (f : BForm u a b c op)
    (hd : op.dead = false) {a' b' : Ty} (tw : Twin a.leaf a') (tu : Twin b.leaf b')
    {r' : (c : Ty) × Bin a' b' c} (hr' : direct2 u a' b' = some r')
    (hs : u = .sum → Twin c.leaf r'.1) {v : a.Val} {v' : a'.Val} {w : b.Val} {w' : b'.Val}
    (hv : Valid a.leaf (a.content v)) (hv' : Valid a' v') (hw : Valid b.leaf (b.content w))
    (hw' : Valid b' w') (ho : obj a.leaf (a.content v) = obj a' v')
    (ho' : obj b.leaf (b.content w) = obj b' w')
    (hreg : RegularBin r'.2 (den a' v') (den b' w')) :
    ∃ (z : c.Val) (z' : r'.1.Val) (tw' : Twin c.leaf r'.1), evalXBin op v w = some z ∧
      evalBin r'.2 v' w' = some z' ∧ Valid c.leaf (c.content z) ∧ Valid r'.1 z' ∧
      obj c.leaf (c.content z) = obj r'.1 z' ∧
      Agree (a.wrapper = false ∧ op.hasL) tw' tw (jacXL op z v w) (jacL r'.2 z' v' w') ∧
      Agree (b.wrapper = false ∧ op.hasR) tw' tu (jacXR op z v w) (jacR r'.2 z' v' w') := by
  obtain ⟨z', l1, l2, l3⟩ := bin_sound r'.2 v' w' hv' hw' hreg
  cases f with
  | dotZ =>
    cases tw
    cases tu
    cases hr'
  | value hr =>
    rename_i q
    obtain ⟨z, k1, k2, k3⟩ := bin_sound q.2 (a.content v) (b.content w) hv hw
      (regularBin_twin tw tu hr hr' ho ho' hreg)
    obtain ⟨tw', e1, e2, e3⟩ := bin_twin tw tu hr hr' hv hv' hw hw' ho ho' k1 l1 k3 l3
    exact ⟨z, z', tw', k1, l1, k2, l2, e1, .of_eq e2, .of_eq e3⟩
  | dangling => cases hd
  | keepL hb ht =>
    have hz : obj b' w' = neutralObj b.leaf := by
      rw [← ho', content_wrapper hb, neutral_obj]
    rcases ht with rfl | rfl | rfl
    · obtain ⟨e1, e2, e3⟩ := keepL_sum tw tu hr' (hs rfl) ho hz l1
      exact ⟨v, z', hs rfl, rfl, l1, hv, l2, e1, .of_eq e2, .of_eq e3⟩
    · obtain ⟨h, e1, e2, e3⟩ := keepL_compose tw tu hr' hv hv' ho hz l3
      rw [← rotOf_eq] at e3
      exact ⟨v, z', h, rfl, l1, hv, l2, e1, e2.mono fun _ => trivial,
        e3.mono fun k => by rw [hb] at k; exact absurd k.1 (by decide)⟩
    · obtain ⟨h, e1, e2, e3⟩ := keepL_flip tw tu hr' hw hw' ho ho' hz l3
      rw [← rotOf_eq] at e2
      exact ⟨v, z', h, rfl, l1, hv, l2, e1, e2.mono fun k => k.2, e3.mono fun _ => trivial⟩
  | keepR ha ht =>
    have hz : obj a' v' = neutralObj a.leaf := by
      rw [← ho, content_wrapper ha, neutral_obj]
    have hn : ∀ {P : Prop}, a.wrapper = false ∧ P → False := fun k => by
      rw [ha] at k; exact absurd k.1 (by decide)
    rcases ht with rfl | rfl | rfl | rfl | rfl
    · obtain ⟨e1, e2, e3⟩ := keepR_sum tw tu hr' (hs rfl) ho' hz l1
      exact ⟨w, z', hs rfl, rfl, l1, hw, l2, e1, .of_eq e2, .of_eq e3⟩
    · obtain ⟨h, e1, e2, e3⟩ := keepR_compose tw tu hr' hv hv' ho ho' hz l3
      rw [← rotOf_eq] at e3
      exact ⟨w, z', h, rfl, l1, hw, l2, e1, e2.mono fun _ => trivial, e3.mono fun k => k.2⟩
    · obtain ⟨h, e1, e2, e3⟩ := keepR_flip tw tu hr' hw hw' ho' hz l3
      rw [← rotOf_eq] at e2
      exact ⟨w, z', h, rfl, l1, hw, l2, e1, e2.mono hn, e3.mono fun _ => trivial⟩
    · obtain ⟨h, e1, e2⟩ := keepR_rotate ha tw tu hr' ho' hz l3
      exact ⟨w, z', h, rfl, l1, hw, l2, e1, e2.mono hn, .of_none fun k => k.2⟩
    · obtain ⟨h, e1, e2⟩ := keepR_transform ha tw tu hr' ho' hz l3
      exact ⟨w, z', h, rfl, l1, hw, l2, e1, e2.mono hn, .of_none fun k => k.2⟩

end WG
