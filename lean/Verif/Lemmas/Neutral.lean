import Verif.Model.Neutral
import Verif.Lemmas.Expression
import Verif.Lemmas.Unique
import Verif.Spec.Neutral

/-! # Identity and Zero: plain operands behave as in the model without them -/

namespace WG
open Matrix Spec

variable {ε : ℝ}

/-- Replace leaves of a plain tree by trees of the larger signature. -/
def graft (σ : ℕ → (τ : Ty) → Option (Expr (xLib ε) (.plain τ))) :
    {τ : Ty} → Expr (geoLib ε) τ → Expr (xLib ε) (.plain τ)
  | _, .leaf a c τ => (σ a τ).getD (.leaf (L := xLib ε) a c (.plain τ))
  | _, .un a (op : Un _ _) e => .un (L := xLib ε) a (.value (a := .plain _) op) (graft σ e)
  | _, .bin a (op : Bin _ _ _) l r =>
    .bin (L := xLib ε) a (.value (a := .plain _) (b := .plain _) op) (graft σ l) (graft σ r)
  | _, .proxy a e => .proxy (L := xLib ε) a (graft σ e)

/-- Two subtrees to be put in the place of the leaves at addresses 0 and 1. -/
def two {a b : Ty} (p : Expr (xLib ε) (.plain a)) (q : Expr (xLib ε) (.plain b)) (n : ℕ) (τ : Ty) :
    Option (Expr (xLib ε) (.plain τ)) :=
  match n with
  | 0 => if h : a = τ then some (h ▸ p) else none
  | 1 => if h : b = τ then some (h ▸ q) else none
  | _ => none

/-- A leaf standing for an operand. -/
def hole (ε : ℝ) (n : ℕ) (a : Ty) : Tree ε := ⟨a, Expr.leaf (L := geoLib ε) n 0 a⟩


local macro "classes1" a:ident : tactic =>
  `(tactic| (rcases $a:ident with (_ | _ | _ | _) | _ | (_ | _ | _) | (_ | _) <;> rfl))

local macro "classes2" a:ident b:ident : tactic =>
  `(tactic| (rcases $a:ident with (_ | _ | _ | _) | _ | (_ | _ | _) | (_ | _) <;>
    rcases $b:ident with (_ | _ | _ | _) | _ | (_ | _ | _) | (_ | _) <;> rfl))

theorem resolve1_plain (t : Tag1) (a : Ty) : resolve1 (ovs1 t) (.plain a) =
    (direct1 t a).map fun r => some ⟨.plain r.1, .value (a := .plain a) r.2⟩ := by
  cases t <;> classes1 a

/-- The body for leaves, as an outcome. -/
def plain2 (t : Tag2) (a b : Ty) : Outcome ((c : XTy) × XBin (.plain a) (.plain b) c) :=
  (direct2 t a b).map fun r => some ⟨.plain r.1, .value (a := .plain a) (b := .plain b) r.2⟩

theorem resolve2_sum (a b : Ty) : resolve2 (ovs2 .sum) (.plain a) (.plain b) = plain2 .sum a b := by
  classes2 a b
theorem resolve2_subtract (a b : Ty) :
    resolve2 (ovs2 .subtract) (.plain a) (.plain b) = plain2 .subtract a b := by classes2 a b
theorem resolve2_scale (a b : Ty) :
    resolve2 (ovs2 .scale) (.plain a) (.plain b) = plain2 .scale a b := by classes2 a b
theorem resolve2_scaleR (a b : Ty) :
    resolve2 (ovs2 .scaleR) (.plain a) (.plain b) = plain2 .scaleR a b := by classes2 a b
theorem resolve2_scaleDiv (a b : Ty) :
    resolve2 (ovs2 .scaleDiv) (.plain a) (.plain b) = plain2 .scaleDiv a b := by classes2 a b
theorem resolve2_dot (a b : Ty) :
    resolve2 (ovs2 .dot) (.plain a) (.plain b) = plain2 .dot a b := by classes2 a b
theorem resolve2_product (a b : Ty) :
    resolve2 (ovs2 .product) (.plain a) (.plain b) = plain2 .product a b := by classes2 a b
theorem resolve2_divide (a b : Ty) :
    resolve2 (ovs2 .divide) (.plain a) (.plain b) = plain2 .divide a b := by classes2 a b
theorem resolve2_compose (a b : Ty) :
    resolve2 (ovs2 .compose) (.plain a) (.plain b) = plain2 .compose a b := by classes2 a b
theorem resolve2_flip (a b : Ty) :
    resolve2 (ovs2 .composeFlipped) (.plain a) (.plain b) = plain2 .composeFlipped a b := by
  classes2 a b
theorem resolve2_rotate (a b : Ty) :
    resolve2 (ovs2 .rotate) (.plain a) (.plain b) = plain2 .rotate a b := by classes2 a b
theorem resolve2_transform (a b : Ty) :
    resolve2 (ovs2 .transform) (.plain a) (.plain b) = plain2 .transform a b := by classes2 a b

theorem resolve2_plain (t : Tag2) (a b : Ty) :
    resolve2 (ovs2 t) (.plain a) (.plain b) = plain2 t a b := by
  cases t
  exacts [resolve2_sum a b, resolve2_subtract a b, resolve2_scale a b, resolve2_scaleR a b,
    resolve2_scaleDiv a b, resolve2_dot a b, resolve2_product a b, resolve2_divide a b,
    resolve2_compose a b, resolve2_flip a b, resolve2_rotate a b, resolve2_transform a b]

/-- The decision on an operand of a leaf class. -/
def Side.lift {a : Ty} : Side a → XSide (.plain a)
  | .stay => .stay
  | .via b op => .via b (.value (a := .plain a) op)

theorem xsides_plain (a : Ty) : xsides (.plain a) = (sides a).map Side.lift := by
  rcases a with (_ | _ | _ | _) | _ | (_ | _ | _) | (_ | _) <;> rfl

theorem firstConv1_map {A A' B B' : Type} (f : A → Option B) (f' : A' → Option B') (l : A → A')
    (g : B → B') (h : ∀ x, f' (l x) = (f x).map g) (s : A) (vs : List A) :
    firstConv1 f' (l s) (vs.map l) = (firstConv1 f s vs).map g := by
  have key : ∀ xs : List A, (xs.map l).findSome? f' = (xs.findSome? f).map g := by
    intro xs
    induction xs with
    | nil => rfl
    | cons x xs ih =>
      simp only [List.map_cons, List.findSome?_cons, h x]
      cases f x <;> simp [ih]
  exact key (s :: vs)

theorem firstConv2_map {A A' B B' C C' : Type} (f : A → B → Option C) (f' : A' → B' → Option C')
    (l : A → A') (m : B → B') (g : C → C') (h : ∀ x y, f' (l x) (m y) = (f x y).map g) (s : A)
    (u : B) (vs : List A) (ws : List B) :
    firstConv2 f' (l s) (m u) (vs.map l) (ws.map m) = (firstConv2 f s u vs ws).map g := by
  have key : ∀ xs : List (A × B), (xs.map fun p => (l p.1, m p.2)).findSome? (fun p => f' p.1 p.2) =
      (xs.findSome? fun p => f p.1 p.2).map g := by
    intro xs
    induction xs with
    | nil => rfl
    | cons x xs ih =>
      simp only [List.map_cons, List.findSome?_cons, h x.1 x.2]
      cases f x.1 x.2 <;> simp [ih]
  unfold firstConv2
  rw [← key]
  congr 1
  simp [List.map_flatMap, List.flatMap_map, Function.comp_def]

theorem two_left {a b : Ty} (p : Expr (xLib ε) (.plain a)) (q : Expr (xLib ε) (.plain b)) :
    two p q 0 a = some p := by simp [two]

theorem two_right {a b : Ty} (p : Expr (xLib ε) (.plain a)) (q : Expr (xLib ε) (.plain b)) :
    two p q 1 b = some q := by simp [two]

theorem graft_side_left {a b : Ty} (p : Expr (xLib ε) (.plain a)) (q : Expr (xLib ε) (.plain b)) :
    (s : Side a) → (⟨.plain s.ty, graft (two p q) (s.apply (hole ε 0 a).2)⟩ : XTree ε) =
      ⟨s.lift.ty, s.lift.apply p⟩
  | .stay => by
    change (⟨.plain a, (two p q 0 a).getD _⟩ : XTree ε) = ⟨.plain a, p⟩
    rw [two_left]; rfl
  | .via b op => by
    change (⟨.plain b, Expr.un (L := xLib ε) 0 (.value (a := .plain a) op) ((two p q 0 a).getD _)⟩ :
      XTree ε) = ⟨.plain b, Expr.un (L := xLib ε) 0 (.value (a := .plain a) op) p⟩
    rw [two_left]; rfl

theorem graft_side_right {a b : Ty} (p : Expr (xLib ε) (.plain a)) (q : Expr (xLib ε) (.plain b)) :
    (s : Side b) → (⟨.plain s.ty, graft (two p q) (s.apply (hole ε 1 b).2)⟩ : XTree ε) =
      ⟨s.lift.ty, s.lift.apply q⟩
  | .stay => by
    change (⟨.plain b, (two p q 1 b).getD _⟩ : XTree ε) = ⟨.plain b, q⟩
    rw [two_right]; rfl
  | .via b' op => by
    change (⟨.plain b', Expr.un (L := xLib ε) 0 (.value (a := .plain b) op) ((two p q 1 b).getD _)⟩ :
      XTree ε) = ⟨.plain b', Expr.un (L := xLib ε) 0 (.value (a := .plain b) op) q⟩
    rw [two_right]; rfl

/-- Putting operands into a prepared tree. -/
def fill {a b : Ty} (p : Expr (xLib ε) (.plain a)) (q : Expr (xLib ε) (.plain b)) (r : Tree ε) :
    XTree ε := ⟨.plain r.1, graft (two p q) r.2⟩

theorem join_map_some {A B : Type} (g : A → B) (o : Option A) :
    (o.map fun r => some (g r)).join = o.map g := by cases o <;> rfl

theorem xelab1_plain (t : Tag1) {a b : Ty} (p : Expr (xLib ε) (.plain a))
    (q : Expr (xLib ε) (.plain b)) :
    xelab1 t ⟨.plain a, p⟩ = (elab1 t (hole ε 0 a)).map (fill p q) := by
  unfold xelab1 elab1
  rw [xsides_plain]
  refine (congrArg Option.join (firstConv1_map (A := Side a)
    (f := fun s : Side a => (direct1 t s.ty).map fun r =>
      (⟨r.1, Expr.un (L := geoLib ε) 0 r.2 (s.apply (hole ε 0 a).2)⟩ : Tree ε)) _ Side.lift
    (fun r => some (fill p q r)) ?_ .stay (sides a))).trans (join_map_some _ _)
  intro s
  have h := graft_side_left p q s
  cases s with
  | stay =>
    change (resolve1 (ovs1 t) (.plain a)).map _ = ((direct1 t a).map _).map _
    rw [resolve1_plain]
    cases direct1 t a with
    | none => rfl
    | some r =>
      exact congrArg (fun z => some (some (⟨.plain r.1,
        Expr.un (L := xLib ε) 0 (.value (a := .plain a) r.2) z⟩ : XTree ε)))
        (eq_of_heq (Sigma.mk.inj h).2).symm
  | via b' op =>
    change (resolve1 (ovs1 t) (.plain b')).map _ = ((direct1 t b').map _).map _
    rw [resolve1_plain]
    cases direct1 t b' with
    | none => rfl
    | some r =>
      exact congrArg (fun z => some (some (⟨.plain r.1,
        Expr.un (L := xLib ε) 0 (.value (a := .plain b') r.2) z⟩ : XTree ε)))
        (eq_of_heq (Sigma.mk.inj h).2).symm

theorem xelab2_node (t : Tag2) {a b : Ty} {p p' : Expr (xLib ε) (.plain a)}
    {q q' : Expr (xLib ε) (.plain b)} (hp : p = p') (hq : q = q') :
    ((resolve2 (ovs2 t) (.plain a) (.plain b)).map fun r => r.map fun r =>
      (⟨r.1, .bin (L := xLib ε) 0 r.2 p' q'⟩ : XTree ε)) =
    (direct2 t a b).map fun r => some (⟨.plain r.1,
      Expr.bin (L := xLib ε) 0 (.value (a := .plain a) (b := .plain b) r.2) p q⟩ : XTree ε) := by
  subst hp hq
  rw [resolve2_plain, plain2]
  cases direct2 t a b <;> rfl

theorem xelab2_plain (t : Tag2) {a b : Ty} (p : Expr (xLib ε) (.plain a))
    (q : Expr (xLib ε) (.plain b)) :
    xelab2 t ⟨.plain a, p⟩ ⟨.plain b, q⟩ =
      (elab2 t (hole ε 0 a) (hole ε 1 b)).map (fill p q) := by
  unfold xelab2 elab2
  simp only [xsides_plain]
  refine (congrArg Option.join (firstConv2_map (A := Side a) (B := Side b)
    (f := fun (s : Side a) (u : Side b) => (direct2 t s.ty u.ty).map fun r =>
      (⟨r.1, Expr.bin (L := geoLib ε) 0 r.2 (s.apply (hole ε 0 a).2) (u.apply (hole ε 1 b).2)⟩ :
        Tree ε)) _ Side.lift Side.lift
    (fun r => some (fill p q r)) ?_ .stay .stay (sides a) (sides b))).trans (join_map_some _ _)
  intro s u
  have h := graft_side_left p q s
  have h' := graft_side_right p q u
  rw [Option.map_map]
  cases s <;> cases u <;>
    exact xelab2_node t (eq_of_heq (Sigma.mk.inj h).2) (eq_of_heq (Sigma.mk.inj h').2)


/-! ## Meaning of trees with Identity and Zero -/

variable {s : Memory}

/-- Memory holding the values of two operands at addresses 0 and 1. -/
def hold (s : Memory) {a b : Ty} (v : a.Val) (w : b.Val) : Memory := fun n τ =>
  match n with
  | 0 => if h : a = τ then h ▸ v else s 0 τ
  | 1 => if h : b = τ then h ▸ w else s 1 τ
  | n => s n τ

theorem value_graft {a b : Ty} {p : Expr (xLib ε) (.plain a)} {q : Expr (xLib ε) (.plain b)}
    {v : a.Val} {w : b.Val} (hp : value (xmem ε s) p = some v) (hq : value (xmem ε s) q = some w) :
    {τ : Ty} → (e : Expr (geoLib ε) τ) →
    value (xmem ε s) (graft (two p q) e) = value (L := geoLib ε) (hold s v w) e
  | _, .leaf n c τ => by
    change value (xmem ε s) ((two p q n τ).getD (.leaf (L := xLib ε) n c (.plain τ))) =
      some (hold s v w n τ)
    match n with
    | 0 =>
      unfold two hold
      by_cases h : a = τ
      · subst h; simpa using hp
      · simp only [h, dite_false]; rfl
    | 1 =>
      unfold two hold
      by_cases h : b = τ
      · subst h; simpa using hq
      · simp only [h, dite_false]; rfl
    | n + 2 => rfl
  | _, .un n op e => by
    change (value (xmem ε s) (graft (two p q) e)).bind _ = (value _ e).bind _
    rw [value_graft hp hq e]; rfl
  | _, .bin n op l r => by
    change (value (xmem ε s) (graft (two p q) l)).bind (fun x =>
      (value (xmem ε s) (graft (two p q) r)).bind _) = (value _ l).bind fun x => (value _ r).bind _
    rw [value_graft hp hq l, value_graft hp hq r]; rfl
  | _, .proxy n e => value_graft hp hq e

/-- The tree evaluates to something whose `value()` is valid and represents `o`, and is not a `Zero<Scalar>`
(helper). -/
def XGood (s : Memory) (t : XTree ε) (o : Obj) : Prop :=
  t.1.zeroScalar = false ∧ ∃ v, value (xmem ε s) t.2 = some v ∧ Valid t.1.leaf (t.1.content v) ∧
    obj t.1.leaf (t.1.content v) = o

/-- Accepted, `XGood`, and an Identity or Zero exactly if `w` (helper). -/
def XAcc (s : Memory) (x : Option (XTree ε)) (o : Obj) (w : Bool) : Prop :=
  ∃ t, x = some t ∧ XGood s t o ∧ t.1.wrapper = w

theorem XAcc.bind1 {x : Option (XTree ε)} {o o' : Obj} {m n : Bool} {f : XTree ε → Option (XTree ε)}
    (h : XAcc s x o m) (hf : ∀ t, XGood s t o → t.1.wrapper = m → XAcc s (f t) o' n) :
    XAcc s (x.bind f) o' n := by
  obtain ⟨t, rfl, h1, h2⟩ := h
  exact hf t h1 h2

theorem XAcc.bind2 {x y : Option (XTree ε)} {o o' o'' : Obj} {m n l : Bool}
    {f : XTree ε → XTree ε → Option (XTree ε)} (h : XAcc s x o m) (h' : XAcc s y o' n)
    (hf : ∀ t u, XGood s t o → t.1.wrapper = m → XGood s u o' → u.1.wrapper = n →
      XAcc s (f t u) o'' l) : XAcc s (x.bind fun t => y.bind fun u => f t u) o'' l := by
  obtain ⟨t, rfl, h1, h2⟩ := h
  obtain ⟨u, rfl, h3, h4⟩ := h'
  exact hf t u h1 h2 h3 h4

theorem hold_left {a b : Ty} {v : a.Val} {w : b.Val} {o : Obj} (hv : Valid a v) (ho : obj a v = o) :
    Good (hold s v w) (hole ε 0 a) o := by
  have : hold s v w 0 a = v := by simp [hold]
  exact ⟨v, congrArg some this, hv, ho⟩

theorem hold_right {a b : Ty} {v : a.Val} {w : b.Val} {o : Obj} (hw : Valid b w)
    (ho : obj b w = o) : Good (hold s v w) (hole ε 1 b) o := by
  have : hold s v w 1 b = w := by simp [hold]
  exact ⟨w, congrArg some this, hw, ho⟩

theorem fill_good {a b : Ty} {p : Expr (xLib ε) (.plain a)} {q : Expr (xLib ε) (.plain b)}
    {v : a.Val} {w : b.Val} (hp : value (xmem ε s) p = some v) (hq : value (xmem ε s) q = some w)
    {t : Tree ε} {o : Obj} (h : Good (hold s v w) t o) : XGood s (fill p q t) o := by
  obtain ⟨z, h1, h2, h3⟩ := h
  refine ⟨rfl, z, (value_graft hp hq t.2).trans ?_, h2, h3⟩
  exact (mk_val (L := geoLib ε) (hold s v w) t.2).symm.trans h1

/-- Unary nodes over operands of leaf classes. -/
theorem xacc1_plain {t : Tag1} {a : Ty} {p : Expr (xLib ε) (.plain a)} {o o' : Obj}
    (H : ∀ (s : Memory) (x : Tree ε), Good s x o → Acc s (elab1 t x) o')
    (h : XGood s ⟨.plain a, p⟩ o) : XAcc s (xelab1 t ⟨.plain a, p⟩) o' false := by
  obtain ⟨-, v, h1, h2, h3⟩ := h
  obtain ⟨y, hy, hg⟩ := H (hold s v v) (hole ε 0 a) (hold_left h2 h3)
  refine ⟨fill p p y, ?_, fill_good h1 h1 hg, rfl⟩
  rw [xelab1_plain t p p, hy]; rfl

/-- Binary nodes over operands of leaf classes. -/
theorem xacc2_plain {t : Tag2} {a b : Ty} {p : Expr (xLib ε) (.plain a)}
    {q : Expr (xLib ε) (.plain b)} {o o' o'' : Obj}
    (H : ∀ (s : Memory) (x y : Tree ε), Good s x o → Good s y o' → Acc s (elab2 t x y) o'')
    (h : XGood s ⟨.plain a, p⟩ o) (h' : XGood s ⟨.plain b, q⟩ o') :
    XAcc s (xelab2 t ⟨.plain a, p⟩ ⟨.plain b, q⟩) o'' false := by
  obtain ⟨-, v, h1, h2, h3⟩ := h
  obtain ⟨-, w, k1, k2, k3⟩ := h'
  obtain ⟨y, hy, hg⟩ := H (hold s v w) (hole ε 0 a) (hole ε 1 b) (hold_left h2 h3) (hold_right k2 k3)
  refine ⟨fill p q y, ?_, fill_good h1 k1 hg, rfl⟩
  rw [xelab2_plain t p q, hy]; rfl

end WG
