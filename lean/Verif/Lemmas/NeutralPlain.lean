import Verif.Lemmas.Neutral
import Verif.Lemmas.Represent

/-! # Expressions without Identity and Zero are prepared as if those classes did not exist -/

namespace WG
open Matrix Spec

variable {ε : ℝ}

/-- A tree of ordinary objects in the larger language. -/
def inject {τ : Ty} (e : Expr (geoLib ε) τ) : Expr (xLib ε) (.plain τ) := graft (fun _ _ => none) e

/-- The same with its class. -/
def injectT (x : Tree ε) : XTree ε := ⟨.plain x.1, inject x.2⟩

theorem inject_side {a : Ty} (p : Expr (geoLib ε) a) : (s : Side a) →
    (⟨.plain s.ty, inject (s.apply p)⟩ : XTree ε) = ⟨s.lift.ty, s.lift.apply (inject p)⟩
  | .stay => rfl
  | .via _ _ => rfl

theorem xelab1_node (t : Tag1) {a : Ty} {p p' : Expr (xLib ε) (.plain a)} (hp : p = p') :
    ((resolve1 (ovs1 t) (.plain a)).map fun r => r.map fun r =>
      (⟨r.1, .un (L := xLib ε) 0 r.2 p'⟩ : XTree ε)) =
    (direct1 t a).map fun r => some (⟨.plain r.1,
      Expr.un (L := xLib ε) 0 (.value (a := .plain a) r.2) p⟩ : XTree ε) := by
  subst hp
  rw [resolve1_plain]
  cases direct1 t a <;> rfl

theorem xelab1_inject (t : Tag1) (x : Tree ε) : xelab1 t (injectT x) = (elab1 t x).map injectT := by
  obtain ⟨a, p⟩ := x
  unfold xelab1 elab1 injectT
  rw [xsides_plain]
  refine (congrArg Option.join (firstConv1_map (A := Side a)
    (f := fun s : Side a => (direct1 t s.ty).map fun r =>
      (⟨r.1, Expr.un (L := geoLib ε) 0 r.2 (s.apply p)⟩ : Tree ε)) _ Side.lift
    (fun r => some (injectT r)) ?_ .stay (sides a))).trans (join_map_some _ _)
  intro s
  have h := inject_side p s
  rw [Option.map_map]
  cases s <;> exact xelab1_node t (eq_of_heq (Sigma.mk.inj h).2)

theorem xelab2_inject (t : Tag2) (x y : Tree ε) :
    xelab2 t (injectT x) (injectT y) = (elab2 t x y).map injectT := by
  obtain ⟨a, p⟩ := x
  obtain ⟨b, q⟩ := y
  unfold xelab2 elab2 injectT
  simp only [xsides_plain]
  refine (congrArg Option.join (firstConv2_map (A := Side a) (B := Side b)
    (f := fun (s : Side a) (u : Side b) => (direct2 t s.ty u.ty).map fun r =>
      (⟨r.1, Expr.bin (L := geoLib ε) 0 r.2 (s.apply p) (u.apply q)⟩ :
        Tree ε)) _ Side.lift Side.lift
    (fun r => some (injectT r)) ?_ .stay .stay (sides a) (sides b))).trans (join_map_some _ _)
  intro s u
  have h := inject_side p s
  have h' := inject_side q u
  rw [Option.map_map]
  cases s <;> cases u <;>
    exact xelab2_node t (eq_of_heq (Sigma.mk.inj h).2) (eq_of_heq (Sigma.mk.inj h').2)

theorem xelabTo_inject (τ : Ty) (x : Tree ε) : xelabTo τ (injectT x) = (elabTo τ x).map injectT := by
  obtain ⟨a, p⟩ := x
  rcases a with (_ | _ | _ | _) | _ | (_ | _ | _) | (_ | _) <;>
    rcases τ with (_ | _ | _ | _) | _ | (_ | _ | _) | (_ | _) <;> rfl

theorem xelabUn_inject (op : UOp) (x : Tree ε) :
    xelabUn op (injectT x) = (elabUn op x).map injectT := by
  cases op with
  | «to» τ => exact xelabTo_inject τ x
  | rotation =>
    change (if x.1.isRot then some (injectT x) else xelab1 .rotation (injectT x)) =
      (if x.1.isRot then some x else elab1 .rotation x).map injectT
    split_ifs
    · rfl
    · exact xelab1_inject _ x
  | _ => exact xelab1_inject _ x

theorem bind_inject {x : Option (Tree ε)} {f : XTree ε → Option (XTree ε)}
    {g : Tree ε → Option (Tree ε)} (h : ∀ t, f (injectT t) = (g t).map injectT) :
    (x.map injectT).bind f = (x.bind g).map injectT := by
  cases x with
  | none => rfl
  | some t => exact h t

theorem plus_inject (x y : Tree ε) :
    (xelab1 .expMap (injectT y)).bind (xelab2 .composeFlipped (injectT x)) =
      ((elab1 .expMap y).bind (elab2 .composeFlipped x)).map injectT := by
  rw [xelab1_inject]
  exact bind_inject fun t => xelab2_inject _ _ _

theorem minus_inject (x y : Tree ε) :
    ((xelab1 .inverse (injectT y)).bind (xelab2 .compose (injectT x))).bind (xelab1 .logMap) =
      (((elab1 .inverse y).bind (elab2 .compose x)).bind (elab1 .logMap)).map injectT := by
  rw [xelab1_inject, bind_inject fun t => xelab2_inject .compose x t]
  exact bind_inject fun t => xelab1_inject _ _

theorem xelabBin_inject (op : BOp) (x y : Tree ε) :
    xelabBin op (injectT x) (injectT y) = (elabBin op x y).map injectT := by
  obtain ⟨a, p⟩ := x
  obtain ⟨b, q⟩ := y
  cases op <;>
  rcases a with (_ | _ | _ | _) | _ | _ | _ <;>
  rcases b with (_ | _ | _ | _) | _ | _ | _ <;>
  first
  | exact xelab2_inject _ ⟨_, p⟩ ⟨_, q⟩
  | rfl
  | exact plus_inject ⟨_, p⟩ ⟨_, q⟩
  | exact minus_inject ⟨_, p⟩ ⟨_, q⟩

/-- A user expression without Identity and Zero. -/
def embed : SExpr → NExpr
  | .leaf a c τ => .leaf a c τ
  | .un op e => .un op (embed e)
  | .bin op l r => .bin op (embed l) (embed r)
  | .dynamic a e => .dynamic a (embed e)

theorem elab_embed_un (op : UOp) (e : SExpr) :
    NExpr.elab ε (.un op (embed e)) = ((embed e).elab ε).bind (xelabUn op) := by
  cases e <;> cases op <;> rfl

theorem rev_inject : {τ : Ty} → (e : Expr (geoLib ε) τ) → (s : Shape) →
    revCompiles (xKinds ε) (inject e) s = revCompiles (geoKinds ε) e s
  | _, .leaf n c τ, s => rfl
  | _, .un n op e, s => by
    change (match Un.jacKind op with
      | none => false
      | some j => revCompiles (xKinds ε) (inject e) (s.times _ j)) = _
    simp only [rev_inject e]
    rfl
  | _, .bin n op l r, s => by
    change (revCompiles (xKinds ε) (inject l) _ && revCompiles (xKinds ε) (inject r) _) = _
    rw [rev_inject l, rev_inject r]
    rfl
  | _, .proxy n e, s => rfl

theorem compiles_inject {τ : Ty} (e : Expr (geoLib ε) τ) :
    dynamicCompiles (xKinds ε) (inject e) = dynamicCompiles (geoKinds ε) e := by
  unfold dynamicCompiles
  simp only [rev_inject]

theorem elab_embed (e : SExpr) : (embed e).elab ε = (e.elab ε).map injectT := by
  induction e with
  | leaf a c τ => rfl
  | un op e ih =>
    refine (elab_embed_un op e).trans ?_
    rw [ih]
    exact bind_inject fun t => xelabUn_inject op t
  | bin op l r ihl ihr =>
    change ((embed l).elab ε).bind _ = Option.map _ ((l.elab ε).bind _)
    rw [ihl]
    refine bind_inject fun t => ?_
    change ((embed r).elab ε).bind _ = _
    rw [ihr]
    exact bind_inject fun u => xelabBin_inject op t u
  | dynamic a e ih =>
    change ((embed e).elab ε).bind _ = _
    rw [ih]
    refine bind_inject fun t => ?_
    change (if dynamicCompiles (xKinds ε) (inject t.2) then _ else none) = (wrapDynamic a t).map _
    rw [compiles_inject]
    unfold wrapDynamic
    split_ifs <;> rfl

theorem embed_spell {N : ℕ → ℕ} : (e : NExpr) → hasNeutral e = false → embed (spell N e) = e
  | .leaf _ _ _, _ => rfl
  | .un op e, h => congrArg (NExpr.un op) (embed_spell e h)
  | .bin op l r, h => by
    obtain ⟨h1, h2⟩ := Bool.or_eq_false_iff.mp h
    exact congrArg₂ (NExpr.bin op) (embed_spell l h1) (embed_spell r h2)
  | .dynamic a e, h => congrArg (NExpr.dynamic a) (embed_spell e h)

theorem value_inject (s : Memory) : {τ : Ty} → (e : Expr (geoLib ε) τ) →
    value (xmem ε s) (inject e) = value (L := geoLib ε) s e
  | _, .leaf n c τ => rfl
  | _, .un n op e => by
    change (value (xmem ε s) (inject e)).bind _ = (value _ e).bind _
    rw [value_inject s e]; rfl
  | _, .bin n op l r => by
    change (value (xmem ε s) (inject l)).bind (fun x =>
      (value (xmem ε s) (inject r)).bind _) = (value _ l).bind fun x => (value _ r).bind _
    rw [value_inject s l, value_inject s r]; rfl
  | _, .proxy n e => value_inject s e

theorem objects_inject : {τ : Ty} → (e : Expr (geoLib ε) τ) →
    objects (inject e) = (objects e).map fun o => (⟨o.addr, o.cls, .plain o.ty⟩ : Target (xLib ε))
  | _, .leaf n c τ => rfl
  | _, .un n op e => objects_inject e
  | _, .bin n op l r => by
    change objects (inject l) ++ objects (inject r) = (objects l ++ objects r).map _
    rw [objects_inject l, objects_inject r, List.map_append]
  | _, .proxy n e => objects_inject e

theorem noProxy_inject : {τ : Ty} → (e : Expr (geoLib ε) τ) → (inject e).noProxy = e.noProxy
  | _, .leaf n c τ => rfl
  | _, .un n op e => noProxy_inject e
  | _, .bin n op l r => congrArg₂ and (noProxy_inject l) (noProxy_inject r)
  | _, .proxy n e => rfl

/-- The contributions of the occurrences of an object are the same in the larger language. -/
theorem occ_inject (s : Memory) (n c : ℕ) (σ : Ty) : {τ : Ty} → (e : Expr (geoLib ε) τ) →
    occurrences (xmem ε s) (⟨n, c, .plain σ⟩ : Target (xLib ε)) (inject e) =
      occurrences (L := geoLib ε) s ⟨n, c, σ⟩ e
  | _, .leaf m d τ => by
    by_cases h : (⟨m, d, τ⟩ : Target (geoLib ε)) = ⟨n, c, σ⟩
    · cases h
      exact (occ_leaf_self (xmem ε s) n c (.plain σ)).trans
        (occ_leaf_self (L := geoLib ε) s n c σ).symm
    · exact (occ_leaf_ne _ (fun h' => h (by cases h'; rfl))).trans
        (occ_leaf_ne (L := geoLib ε) s h).symm
  | _, .un m op e => by
    have hv := value_inject s e
    have hs : slopeU (xmem ε s) (.value op : XUn (.plain _) _) (inject e) =
        slopeU (L := geoLib ε) s op e := by
      unfold slopeU
      rw [hv]; rfl
    change (occurrences (xmem ε s) _ (inject e)).map (OMat.mul (slopeU (xmem ε s)
      (.value op : XUn (.plain _) _) (inject e))) = (occurrences (L := geoLib ε) s _ e).map _
    rw [hs, occ_inject s n c σ e]
  | _, .bin m op l r => by
    have hv := value_inject s l
    have hw := value_inject s r
    have hs : slopeL (xmem ε s) (.value op : XBin (.plain _) (.plain _) _) (inject l) (inject r) =
        slopeL (L := geoLib ε) s op l r := by
      unfold slopeL
      rw [hv, hw]; rfl
    have hs' : slopeR (xmem ε s) (.value op : XBin (.plain _) (.plain _) _) (inject l) (inject r) =
        slopeR (L := geoLib ε) s op l r := by
      unfold slopeR
      rw [hv, hw]; rfl
    change (occurrences (xmem ε s) _ (inject l)).map (OMat.mul (slopeL (xmem ε s)
        (.value op : XBin (.plain _) (.plain _) _) (inject l) (inject r))) ++
      (occurrences (xmem ε s) _ (inject r)).map (OMat.mul (slopeR (xmem ε s)
        (.value op : XBin (.plain _) (.plain _) _) (inject l) (inject r))) =
      (occurrences (L := geoLib ε) s _ l).map _ ++ (occurrences (L := geoLib ε) s _ r).map _
    rw [hs, hs', occ_inject s n c σ l, occ_inject s n c σ r]
  | _, .proxy m e => occ_inject s n c σ e

end WG
