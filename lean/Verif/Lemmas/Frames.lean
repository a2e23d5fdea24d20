import Verif.Spec.Frames
import Verif.Lemmas.ElabRegular

/-! Erasing frame labels commutes with the construction of the evaluable tree. -/

namespace WG
open Matrix Spec

variable {ε : ℝ}

/-- The tree without frame casts and with the static types of the bare classes (helper). -/
def forget : {τ : Ty} → Expr (geoLib ε) τ → Expr (geoLib ε) τ
  | _, .leaf a _ τ => .leaf a 0 τ
  | _, .un _ (.recast _) e => forget e
  | _, .un a op e => .un a op (forget e)
  | _, .bin a op l r => .bin a op (forget l) (forget r)
  | _, .proxy a e => .proxy a (forget e)

/-- `forget` on trees. -/
def forgetT (x : Tree ε) : Tree ε := ⟨x.1, forget x.2⟩

theorem forget_recast {τ : Ty} (a : ℕ) (e : Expr (geoLib ε) τ) :
    forget (Expr.un (L := geoLib ε) a (.recast τ) e) = forget e := rfl

theorem rev_forget : {τ : Ty} → (e : Expr (geoLib ε) τ) → (s : Shape) →
    revCompiles (geoKinds ε) (forget e) s = revCompiles (geoKinds ε) e s
  | _, .leaf a c τ, s => rfl
  | _, .un a op e, s => by
    have ih := rev_forget e
    cases op
    case recast => exact ih s
    all_goals
      simp only [forget, revCompiles]
      split
      · rfl
      · exact ih _
  | _, .bin a op l r, s => by
    simp only [forget, revCompiles, rev_forget l, rev_forget r]
  | _, .proxy a e, s => rfl

theorem wrapDynamic_forget (a : ℕ) (x : Tree ε) :
    wrapDynamic a (forgetT x) = (wrapDynamic a x).map forgetT := by
  have h : dynamicCompiles (geoKinds ε) (forgetT x).2 = dynamicCompiles (geoKinds ε) x.2 := by
    unfold dynamicCompiles
    simp only [forgetT, rev_forget]
  unfold wrapDynamic
  rw [h]
  split_ifs <;> rfl

theorem forget_conv {α β : Ty} {op : Un α β} (h : conv1 α β = some op) (a : ℕ)
    (e : Expr (geoLib ε) α) :
    forget (Expr.un (L := geoLib ε) a op e) = Expr.un (L := geoLib ε) a op (forget e) := by
  unfold conv1 at h
  split at h <;> cases h <;> rfl

theorem forget_direct1 {t : Tag1} {α : Ty} {r : (b : Ty) × Un α b} (h : direct1 t α = some r) (a : ℕ)
    (e : Expr (geoLib ε) α) :
    forget (Expr.un (L := geoLib ε) a r.2 e) = Expr.un (L := geoLib ε) a r.2 (forget e) := by
  unfold direct1 at h
  split at h <;> first | (cases h; rfl) | (cases h; done)

theorem forget_side {α : Ty} {w : Side α} (hw : SideOk w) (e : Expr (geoLib ε) α) :
    forget (w.apply e) = w.apply (forget e) := by
  rcases side_conv hw with rfl | ⟨b, op, rfl, h⟩
  · rfl
  · exact forget_conv h 0 e

theorem findSome_congr {A B : Type} {f g : A → Option B} : ∀ {l : List A}, (∀ a ∈ l, f a = g a) →
    l.findSome? f = l.findSome? g
  | [], _ => rfl
  | a :: l, h => by
    rw [List.findSome?_cons, List.findSome?_cons, h a List.mem_cons_self,
      findSome_congr fun b hb => h b (List.mem_cons_of_mem _ hb)]

theorem elab1_forget (t : Tag1) (x : Tree ε) :
    elab1 t (forgetT x) = (elab1 t x).map forgetT := by
  unfold elab1 firstConv1
  change List.findSome? _ (Side.stay :: sides x.1) = _
  rw [List.map_findSome?]
  refine findSome_congr fun w hw => ?_
  change Option.map _ (direct1 t w.ty) = Option.map forgetT (Option.map _ (direct1 t w.ty))
  rcases h : direct1 t w.ty with _ | r
  · rfl
  · have h1 := forget_direct1 h 0 (w.apply x.2)
    have h2 : forget (w.apply x.2) = w.apply (forget x.2) := forget_side (List.mem_cons.mp hw) x.2
    change some (⟨r.1, Expr.un (L := geoLib ε) 0 r.2 (w.apply (forget x.2))⟩ : Tree ε) =
      some ⟨r.1, forget (Expr.un (L := geoLib ε) 0 r.2 (w.apply x.2))⟩
    rw [h1, h2]

theorem elab2_forget (t : Tag2) (x y : Tree ε) :
    elab2 t (forgetT x) (forgetT y) = (elab2 t x y).map forgetT := by
  obtain ⟨α, e⟩ := x
  obtain ⟨β, e'⟩ := y
  unfold elab2 firstConv2 forgetT
  dsimp only
  rw [List.map_findSome?]
  refine findSome_congr fun p hp => ?_
  obtain ⟨w, u⟩ := p
  have hok : SideOk w ∧ SideOk u := by
    simp only [List.cons_append, List.mem_cons, List.mem_append, List.mem_map, Prod.mk.injEq,
      List.mem_flatMap] at hp
    unfold SideOk
    rcases hp with ⟨h, h'⟩ | (⟨a, ha, h, h'⟩ | ⟨a, ha, h, h'⟩) | ⟨a, ha, b, hb, h, h'⟩
    · exact ⟨.inl h, .inl h'⟩
    · exact ⟨.inl h.symm, .inr (h' ▸ ha)⟩
    · exact ⟨.inr (h ▸ ha), .inl h'.symm⟩
    · exact ⟨.inr (h ▸ ha), .inr (h' ▸ hb)⟩
  change Option.map _ (direct2 t w.ty u.ty) = Option.map _ (Option.map _ (direct2 t w.ty u.ty))
  rcases h : direct2 t w.ty u.ty with _ | r
  · rfl
  · have h1 := forget_side hok.1 e
    have h2 := forget_side hok.2 e'
    change some (⟨r.1, Expr.bin (L := geoLib ε) 0 r.2 (w.apply (forget e)) (u.apply (forget e'))⟩ :
      Tree ε) = some ⟨r.1, Expr.bin (L := geoLib ε) 0 r.2 (forget (w.apply e)) (forget (u.apply e'))⟩
    rw [h1, h2]

theorem elabTo_forget (τ : Ty) (x : Tree ε) :
    elabTo τ (forgetT x) = (elabTo τ x).map forgetT := by
  obtain ⟨σ, e⟩ := x
  unfold elabTo
  change (if h : σ = τ then some (⟨τ, h ▸ forget e⟩ : Tree ε) else _) =
    Option.map forgetT (if h : σ = τ then some (⟨τ, h ▸ e⟩ : Tree ε) else _)
  split_ifs with h
  · subst h; rfl
  · change Option.map _ (conv1 σ τ) = Option.map forgetT (Option.map _ (conv1 σ τ))
    rcases hc : conv1 σ τ with _ | op
    · rfl
    · have := forget_conv (ε := ε) hc 0 e
      change some (⟨τ, Expr.un (L := geoLib ε) 0 op (forget e)⟩ : Tree ε) =
        some ⟨τ, forget (Expr.un (L := geoLib ε) 0 op e)⟩
      rw [this]

theorem elabUn_forget (op : UOp) (x : Tree ε) :
    elabUn op (forgetT x) = (elabUn op x).map forgetT := by
  cases op <;> first
    | exact elab1_forget _ x
    | exact elabTo_forget _ x
    | (change (if x.1.isRot then some (forgetT x) else elab1 .rotation (forgetT x)) =
         (if x.1.isRot then some x else elab1 .rotation x).map forgetT
       split_ifs
       · rfl
       · exact elab1_forget _ x)

theorem bind_map {A B C : Type} (f : A → B) (g : B → Option C) (o : Option A) :
    (o.map f).bind g = o.bind fun a => g (f a) := by cases o <;> rfl

theorem map_bind' {A B C : Type} (f : B → C) (g : A → Option B) (o : Option A) :
    (o.bind g).map f = o.bind fun a => (g a).map f := by cases o <;> rfl

theorem elabBin_forget (op : BOp) (x y : Tree ε) :
    elabBin op (forgetT x) (forgetT y) = (elabBin op x y).map forgetT := by
  have box : (elab1 .expMap (forgetT y)).bind (elab2 .composeFlipped (forgetT x)) =
      ((elab1 .expMap y).bind (elab2 .composeFlipped x)).map forgetT := by
    rw [elab1_forget, bind_map, map_bind']
    exact congrArg _ (funext fun z => elab2_forget _ x z)
  have minus : ((elab1 .inverse (forgetT y)).bind (elab2 .compose (forgetT x))).bind (elab1 .logMap) =
      (((elab1 .inverse y).bind (elab2 .compose x)).bind (elab1 .logMap)).map forgetT := by
    have : (elab1 .inverse (forgetT y)).bind (elab2 .compose (forgetT x)) =
        ((elab1 .inverse y).bind (elab2 .compose x)).map forgetT := by
      rw [elab1_forget, bind_map, map_bind']
      exact congrArg _ (funext fun z => elab2_forget _ x z)
    rw [this, bind_map, map_bind']
    exact congrArg _ (funext fun z => elab1_forget _ z)
  obtain ⟨α, e⟩ := x
  obtain ⟨β, e'⟩ := y
  rcases α with (_ | _ | _ | _) | _ | k | k <;> rcases β with (_ | _ | _ | _) | _ | k' | k' <;> cases op <;>
    first
    | rfl
    | exact elab2_forget _ ⟨_, e⟩ ⟨_, e'⟩
    | exact box
    | exact minus

/-- The unframed expression is accepted whenever the framed one is, and gives the same tree. -/
theorem build_erase : ∀ (e : FExpr) {x : Tree ε} {f : Labels}, e.build ε = some (x, f) →
    e.erase.elab ε = some (forgetT x)
  | .leaf a τ g, x, f, h => by
    unfold FExpr.build at h
    split_ifs at h
    cases h
    rfl
  | .un op e, x, f, h => by
    obtain ⟨⟨y, g⟩, hy, h⟩ := Option.bind_eq_some_iff.mp h
    obtain ⟨z, hz, h⟩ := Option.bind_eq_some_iff.mp h
    obtain ⟨g', -, h⟩ := Option.map_eq_some_iff.mp h
    cases h
    change (e.erase.elab ε).bind (elabUn op) = _
    rw [build_erase e hy]
    change elabUn op (forgetT y) = _
    exact (elabUn_forget op y).trans (congrArg (Option.map forgetT) hz)
  | .logFramed k e, x, f, h => by
    obtain ⟨⟨y, g⟩, hy, h⟩ := Option.bind_eq_some_iff.mp h
    obtain ⟨z, hz, h⟩ := Option.bind_eq_some_iff.mp h
    obtain ⟨g', -, h⟩ := Option.map_eq_some_iff.mp h
    cases h
    change (e.erase.elab ε).bind (elabUn .log) = _
    rw [build_erase e hy]
    change elabUn .log (forgetT y) = _
    exact (elabUn_forget .log y).trans (congrArg (Option.map forgetT) hz)
  | .bin op l r, x, f, h => by
    obtain ⟨⟨y, g⟩, hy, h⟩ := Option.bind_eq_some_iff.mp h
    obtain ⟨⟨y', g'⟩, hy', h⟩ := Option.bind_eq_some_iff.mp h
    obtain ⟨z, hz, h⟩ := Option.bind_eq_some_iff.mp h
    obtain ⟨g'', -, h⟩ := Option.map_eq_some_iff.mp h
    cases h
    change ((l.erase.elab ε).bind fun x => (r.erase.elab ε).bind fun y => elabBin op x y) = _
    rw [build_erase l hy, build_erase r hy']
    change elabBin op (forgetT y) (forgetT y') = _
    exact (elabBin_forget op y y').trans (congrArg (Option.map forgetT) hz)
  | .store τ g e, x, f, h => by
    obtain ⟨⟨y, g'⟩, hy, h⟩ := Option.bind_eq_some_iff.mp h
    dsimp only at h
    split_ifs at h
    obtain ⟨z, hz, h⟩ := Option.map_eq_some_iff.mp h
    cases h
    change (e.erase.elab ε).bind (elabTo τ) = _
    rw [build_erase e hy]
    change elabTo τ (forgetT y) = _
    exact (elabTo_forget τ y).trans (congrArg (Option.map forgetT) hz)
  | .cast g e, x, f, h => by
    obtain ⟨⟨y, g'⟩, hy, h⟩ := Option.bind_eq_some_iff.mp h
    dsimp only at h
    split_ifs at h
    obtain ⟨rfl, -⟩ := Prod.mk.inj (Option.some.inj h)
    change e.erase.elab ε = some (forgetT y)
    exact build_erase e hy
  | .dynamic a e, x, f, h => by
    obtain ⟨⟨y, g'⟩, hy, h⟩ := Option.bind_eq_some_iff.mp h
    obtain ⟨z, hz, h⟩ := Option.map_eq_some_iff.mp h
    cases h
    change (e.erase.elab ε).bind (wrapDynamic a) = _
    rw [build_erase e hy]
    exact (wrapDynamic_forget a y).trans (congrArg (Option.map forgetT) hz)

theorem value_forget (s : Store (geoLib ε)) : {τ : Ty} → (e : Expr (geoLib ε) τ) →
    value s (forget e) = value s e
  | _, .leaf a c τ => rfl
  | _, .un a op e => by
    have ih := value_forget s e
    cases op
    case recast =>
      change value s (forget e) = (value s e).bind fun x => some x
      rw [ih]
      cases value s e <;> rfl
    all_goals
      change (value s (forget e)).bind _ = (value s e).bind _
      rw [ih]
  | _, .bin a op l r => by
    change ((value s (forget l)).bind fun x => (value s (forget r)).bind fun y => _) = _
    rw [value_forget s l, value_forget s r]
    rfl
  | _, .proxy a e => value_forget s e

end WG
