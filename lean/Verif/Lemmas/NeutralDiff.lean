import Verif.Lemmas.NeutralMeans
import Verif.Lemmas.DiffMain
import Verif.Lemmas.Represent

/-! # Derivatives of expressions with Identity and Zero

An expression is compared with the one (`lower`) in which Identity and Zero objects are replaced by
ordinary objects at an unused address, and overloads that return an operand by that operand. -/

namespace WG
open Matrix Spec Filter Topology

variable {ε : ℝ} {s : Memory}

/-- Shape of the unary operators chosen by overload resolution. -/
def GenU : {a b : XTy} → XUn a b → Prop
  | _, _, .invId a => a.wrapper = true
  | _, _, .minusZero a => a.wrapper = true
  | _, _, _ => True

/-- Shape of the binary operators chosen by overload resolution. -/
def GenB : {a b c : XTy} → XBin a b c → Prop
  | _, _, _, .keepL t _ b => b.wrapper = true ∧ (t = .sum ∨ t = .compose ∨ t = .composeFlipped)
  | _, _, _, .keepR _ a _ => a.wrapper = true
  | _, _, _, _ => True

/-- Does the operator read a dead temporary? -/
def XBin.dead : {a b c : XTy} → XBin a b c → Bool
  | _, _, _, .dangling _ => true
  | _, _, _, _ => false

/-- Shape of elaborated trees. -/
def Gen : {a : XTy} → Expr (xLib ε) a → Prop
  | _, .leaf _ _ _ => True
  | _, .un _ (op : XUn _ _) e => GenU op ∧ Gen e
  | _, .bin _ (op : XBin _ _ _) l r => GenB op ∧ Gen l ∧ Gen r
  | _, .proxy _ e => Gen e

/-- No operator reads a dead temporary. -/
def Alive : {a : XTy} → Expr (xLib ε) a → Prop
  | _, .leaf _ _ _ => True
  | _, .un _ _ e => Alive e
  | _, .bin _ (op : XBin _ _ _) l r => op.dead = false ∧ Alive l ∧ Alive r
  | _, .proxy _ e => Alive e

/-- No ordinary object is at address `N`. -/
def Free (N : ℕ) {a : XTy} (e : Expr (xLib ε) a) : Prop :=
  ∀ o ∈ objects e, (o.ty : XTy).wrapper = false → o.addr ≠ N

theorem plain_of {a : XTy} (h : a.wrapper = false) : ∃ τ, a = .plain τ := by
  cases a with
  | plain τ => exact ⟨τ, rfl⟩
  | _ => cases h

theorem GenU.wrapper : {a b : XTy} → {op : XUn a b} → GenU op → b.wrapper = true → a.wrapper = true
  | _, _, .value _, _, h => by cases h
  | _, _, .conv _, _, h => by cases h
  | _, _, .invId _, h, _ => h
  | _, _, .minusZero _, h, _ => h
  | _, _, .expZeroRot, _, _ => rfl
  | _, _, .expZeroTwist, _, _ => rfl
  | _, _, .logIdRot _, _, _ => rfl
  | _, _, .logIdRigid _, _, _ => rfl

theorem GenB.wrapper : {a b c : XTy} → {op : XBin a b c} → GenB op → c.wrapper = true →
    a.wrapper = true ∧ b.wrapper = true
  | _, _, _, .value _, _, h => by cases h
  | _, _, _, .dangling _, _, h => by cases h
  | _, _, _, .keepL _ _ _, h, h' => ⟨h', h.1⟩
  | _, _, _, .keepR _ _ _, h, h' => ⟨h, h'⟩

/-- An expression of Identity or Zero class mentions no ordinary object. -/
theorem wrapper_objects : {a : XTy} → (e : Expr (xLib ε) a) → Gen e → a.wrapper = true →
    ∀ o ∈ objects e, (o.ty : XTy).wrapper = true
  | _, .leaf n c a, _, h, o, ho => by
    simp only [objects, List.mem_singleton] at ho
    subst ho
    exact h
  | _, .un _ op e, hg, h, o, ho => wrapper_objects e hg.2 (GenU.wrapper (op := op) hg.1 h) o ho
  | _, .bin _ op l r, hg, h, o, ho => by
    obtain ⟨h1, h2⟩ := GenB.wrapper (op := op) hg.1 h
    rcases List.mem_append.mp ho with ho | ho
    · exact wrapper_objects l hg.2.1 h1 o ho
    · exact wrapper_objects r hg.2.2 h2 o ho
  | _, .proxy _ e, hg, h, o, ho => wrapper_objects e hg h o ho

theorem evalXUn_wrapper : {a b : XTy} → (op : XUn a b) → b.wrapper = true → (v : a.Val) →
    ∃ w, evalXUn ε op v = some w
  | _, _, .value _, h, _ => by cases h
  | _, _, .conv _, h, _ => by cases h
  | _, _, .invId _, _, v => ⟨v, rfl⟩
  | _, _, .minusZero _, _, v => ⟨v, rfl⟩
  | _, _, .expZeroRot, _, _ => ⟨(), rfl⟩
  | _, _, .expZeroTwist, _, _ => ⟨(), rfl⟩
  | _, _, .logIdRot _, _, _ => ⟨(), rfl⟩
  | _, _, .logIdRigid _, _, _ => ⟨(), rfl⟩

theorem evalXBin_wrapper : {a b c : XTy} → (op : XBin a b c) → c.wrapper = true → (v : a.Val) →
    (w : b.Val) → ∃ z, evalXBin op v w = some z
  | _, _, _, .value _, h, _, _ => by cases h
  | _, _, _, .dangling _, h, _, _ => by cases h
  | _, _, _, .keepL _ _ _, _, v, _ => ⟨v, rfl⟩
  | _, _, _, .keepR _ _ _, _, _, w => ⟨w, rfl⟩

/-- An expression of Identity or Zero class always has a value. -/
theorem wrapper_value (s : Store (xLib ε)) : {a : XTy} → (e : Expr (xLib ε) a) → Gen e →
    a.wrapper = true → ∃ v, value s e = some v
  | _, .leaf n c a, _, _ => ⟨_, rfl⟩
  | _, .un _ op e, hg, h => by
    obtain ⟨v, hv⟩ := wrapper_value s e hg.2 (GenU.wrapper (op := op) hg.1 h)
    obtain ⟨w, hw⟩ := evalXUn_wrapper (ε := ε) op h v
    exact ⟨w, by change (value s e).bind _ = _; rw [hv]; exact hw⟩
  | _, .bin _ op l r, hg, h => by
    obtain ⟨h1, h2⟩ := GenB.wrapper (op := op) hg.1 h
    obtain ⟨v, hv⟩ := wrapper_value s l hg.2.1 h1
    obtain ⟨w, hw⟩ := wrapper_value s r hg.2.2 h2
    obtain ⟨z, hz⟩ := evalXBin_wrapper op h v w
    exact ⟨z, by
      change (value s l).bind (fun x => (value s r).bind _) = _
      rw [hv, hw]; exact hz⟩
  | _, .proxy _ e, hg, h => wrapper_value s e hg h

theorem content_wrapper {a : XTy} (h : a.wrapper = true) (v : a.Val) :
    a.content v = neutralVal a.leaf := by
  cases a with
  | plain => cases h
  | _ => rfl

/-! ## Replacing Identity and Zero -/

/-- Memory with the neutral objects at address `N`. -/
noncomputable def ground (N : ℕ) (s : Memory) : Memory := fun n τ =>
  if n = N then neutralVal τ else s n τ

theorem ground_self (N : ℕ) (s : Memory) (τ : Ty) : ground N s N τ = neutralVal τ := if_pos rfl

theorem ground_ne {N n : ℕ} (h : n ≠ N) (s : Memory) (τ : Ty) : ground N s n τ = s n τ := if_neg h

/-- The object in the place of a leaf. -/
def lowerLeaf (N n c : ℕ) (a : XTy) : Expr (geoLib ε) a.leaf :=
  if a.wrapper then .leaf (L := geoLib ε) N c a.leaf else .leaf (L := geoLib ε) n c a.leaf

/-- The node in the place of a unary node. -/
def lowerUn (N n : ℕ) : {a b : XTy} → XUn a b → Expr (geoLib ε) a.leaf → Expr (geoLib ε) b.leaf
  | _, _, .value op, p => .un (L := geoLib ε) n op p
  | _, _, .conv _, p => p
  | _, _, .invId _, p => p
  | _, _, .minusZero _, p => p
  | _, _, .expZeroRot, _ => .leaf (L := geoLib ε) N 0 (.rot .mat)
  | _, _, .expZeroTwist, _ => .leaf (L := geoLib ε) N 0 (.rigid .mat)
  | _, _, .logIdRot _, _ => .leaf (L := geoLib ε) N 0 (.vec .relrot)
  | _, _, .logIdRigid _, _ => .leaf (L := geoLib ε) N 0 (.vec .twist)

/-- The node in the place of a binary node. -/
def lowerBin (n : ℕ) : {a b c : XTy} → XBin a b c → Expr (geoLib ε) a.leaf →
    Expr (geoLib ε) b.leaf → Expr (geoLib ε) c.leaf
  | _, _, _, .value op, p, q => .bin (L := geoLib ε) n op p q
  | _, _, _, .dangling op, p, q => .bin (L := geoLib ε) n op p q
  | _, _, _, .keepL _ _ _, p, _ => p
  | _, _, _, .keepR _ _ _, _, q => q

/-- The expression with ordinary objects only. -/
def lower (N : ℕ) : {a : XTy} → Expr (xLib ε) a → Expr (geoLib ε) a.leaf
  | _, .leaf n c a => lowerLeaf N n c a
  | _, .un n (op : XUn _ _) e => lowerUn N n op (lower N e)
  | _, .bin n (op : XBin _ _ _) l r => lowerBin n op (lower N l) (lower N r)
  | _, .proxy n e => .proxy (L := geoLib ε) n (lower N e)

theorem value_lower (N : ℕ) (s : Memory) : {a : XTy} → (e : Expr (xLib ε) a) → Gen e → Alive e →
    Free N e → value (L := geoLib ε) (ground N s) (lower N e) =
      (value (xmem ε s) e).map (a.content : a.Val → a.leaf.Val)
  | _, .leaf n c a, _, _, hf => by
    change value _ (lowerLeaf N n c a) = some _
    unfold lowerLeaf
    cases hw : a.wrapper with
    | true =>
      rw [if_pos rfl]
      change some (ground N s N _) = _
      rw [ground_self, content_wrapper hw]
    | false =>
      rw [if_neg (by simp)]
      obtain ⟨τ, rfl⟩ := plain_of hw
      have hn : n ≠ N := hf ⟨n, c, .plain τ⟩ (by simp [objects]) rfl
      change some (ground N s n _) = _
      rw [ground_ne hn]; rfl
  | _, .un (α := a) (β := b) n (op : XUn _ _) e, hg, hal, hf => by
    have ih := value_lower N s e hg.2 hal hf
    change value _ (lowerUn N n op (lower N e)) = ((value (xmem ε s) e).bind _).map _
    have hwrap : ∀ c : Expr (geoLib ε) b.leaf, b.wrapper = true →
        value (L := geoLib ε) (ground N s) c = some (neutralVal b.leaf) →
        value (L := geoLib ε) (ground N s) c =
          ((value (xmem ε s) e).bind fun x => evalXUn ε op x).map b.content := by
      intro c hb hc
      obtain ⟨v, hv⟩ := wrapper_value (xmem ε s) e hg.2 (GenU.wrapper (op := op) hg.1 hb)
      obtain ⟨w, hw⟩ := evalXUn_wrapper (ε := ε) op hb v
      rw [hc, hv, Option.bind_some, hw, Option.map_some, content_wrapper hb]
    cases op with
    | value op =>
      change (value _ (lower N e)).bind _ = _
      rw [ih]
      cases value (xmem ε s) e with
      | none => rfl
      | some v =>
        change evalUn ε op (a.content v) = Option.map (fun x => x) (evalUn ε op (a.content v))
        rw [Option.map_id']
    | conv => 
      change value _ (lower N e) = _
      rw [ih]
      cases value (xmem ε s) e <;> rfl
    | invId =>
      change value _ (lower N e) = _
      rw [ih]
      cases value (xmem ε s) e <;> rfl
    | minusZero =>
      change value _ (lower N e) = _
      rw [ih]
      cases value (xmem ε s) e <;> rfl
    | expZeroRot => exact hwrap _ rfl (congrArg some (ground_self N s _))
    | expZeroTwist => exact hwrap _ rfl (congrArg some (ground_self N s _))
    | logIdRot => exact hwrap _ rfl (congrArg some (ground_self N s _))
    | logIdRigid => exact hwrap _ rfl (congrArg some (ground_self N s _))
  | _, .bin (α := a) (β := b) n (op : XBin _ _ _) l r, hg, hal, hf => by
    have ihl := value_lower N s l hg.2.1 hal.2.1 fun o ho => hf o (List.mem_append_left _ ho)
    have ihr := value_lower N s r hg.2.2 hal.2.2 fun o ho => hf o (List.mem_append_right _ ho)
    change value _ (lowerBin n op (lower N l) (lower N r)) =
      ((value (xmem ε s) l).bind fun x => (value (xmem ε s) r).bind _).map _
    cases op with
    | value op =>
      change (value _ (lower N l)).bind (fun x => (value _ (lower N r)).bind _) = _
      rw [ihl, ihr]
      cases value (xmem ε s) l with
      | none => rfl
      | some v =>
        cases value (xmem ε s) r with
        | none => rfl
        | some w =>
          change evalBin op (a.content v) (b.content w) =
            Option.map (fun x => x) (evalBin op (a.content v) (b.content w))
          rw [Option.map_id']
    | dangling op => exact absurd hal.1 (by simp [XBin.dead])
    | keepL t =>
      obtain ⟨w, hw⟩ := wrapper_value (xmem ε s) r hg.2.2 hg.1.1
      change value _ (lower N l) = _
      rw [ihl, hw]
      cases value (xmem ε s) l <;> rfl
    | keepR t =>
      obtain ⟨w, hw⟩ := wrapper_value (xmem ε s) l hg.2.1 hg.1
      change value _ (lower N r) = _
      rw [ihr, hw]
      cases value (xmem ε s) r <;> rfl
  | _, .proxy n e, hg, hal, hf => value_lower N s e hg hal hf

/-- Objects of the expression with ordinary objects only. -/
theorem lower_objects (N : ℕ) : {a : XTy} → (e : Expr (xLib ε) a) → (o : Target (geoLib ε)) →
    o ∈ objects (lower N e) → o.addr = N ∨ (⟨o.addr, o.cls, .plain o.ty⟩ : Target (xLib ε)) ∈ objects e
  | _, .leaf n c a, o, ho => by
    change o ∈ objects (lowerLeaf N n c a) at ho
    unfold lowerLeaf at ho
    cases hw : a.wrapper with
    | true =>
      rw [hw, if_pos rfl] at ho
      simp only [objects, List.mem_singleton] at ho
      subst ho
      exact Or.inl rfl
    | false =>
      rw [hw, if_neg (by simp)] at ho
      obtain ⟨τ, rfl⟩ := plain_of hw
      simp only [objects, List.mem_singleton] at ho
      subst ho
      exact Or.inr (by simp [objects])
  | _, .un n (op : XUn _ _) e, o, ho => by
    have ih := lower_objects N e o
    change o ∈ objects (lowerUn N n op (lower N e)) at ho
    cases op with
    | value op => exact ih ho
    | conv => exact ih ho
    | invId => exact ih ho
    | minusZero => exact ih ho
    | _ =>
      simp only [lowerUn, objects, List.mem_singleton] at ho
      subst ho
      exact Or.inl rfl
  | _, .bin n (op : XBin _ _ _) l r, o, ho => by
    have ihl : o ∈ objects (lower N l) → _ := fun h =>
      (lower_objects N l o h).imp id (List.mem_append_left (objects r))
    have ihr : o ∈ objects (lower N r) → _ := fun h =>
      (lower_objects N r o h).imp id (List.mem_append_right (objects l))
    change o ∈ objects (lowerBin n op (lower N l) (lower N r)) at ho
    cases op with
    | value op => exact (List.mem_append.mp ho).elim ihl ihr
    | dangling op => exact (List.mem_append.mp ho).elim ihl ihr
    | keepL => exact ihl ho
    | keepR => exact ihr ho
  | _, .proxy n e, o, ho => lower_objects N e o ho

/-- Ordinary objects stay. -/
theorem objects_lower (N : ℕ) : {a : XTy} → (e : Expr (xLib ε) a) → Gen e →
    (o : Target (geoLib ε)) → (⟨o.addr, o.cls, .plain o.ty⟩ : Target (xLib ε)) ∈ objects e →
    o ∈ objects (lower N e)
  | _, .leaf n c a, _, o, ho => by
    simp only [objects, List.mem_singleton] at ho
    cases ho
    exact List.mem_singleton.mpr rfl
  | _, .un n (op : XUn _ _) e, hg, o, ho => by
    have ih := objects_lower N e hg.2 o ho
    have hno : ∀ {a b : XTy} (e : Expr (xLib ε) a), Gen e → (op' : XUn a b) → b.wrapper = true →
        GenU op' → (⟨o.addr, o.cls, .plain o.ty⟩ : Target (xLib ε)) ∈ objects e → False := by
      intro a b e he op' hb h' ho
      have := wrapper_objects e he (GenU.wrapper h' hb) _ ho
      cases this
    change o ∈ objects (lowerUn N n op (lower N e))
    cases op with
    | value op => exact ih
    | conv => exact ih
    | invId => exact ih
    | minusZero => exact ih
    | expZeroRot => exact (hno e hg.2 .expZeroRot rfl hg.1 ho).elim
    | expZeroTwist => exact (hno e hg.2 .expZeroTwist rfl hg.1 ho).elim
    | logIdRot k => exact (hno e hg.2 (.logIdRot k) rfl hg.1 ho).elim
    | logIdRigid k => exact (hno e hg.2 (.logIdRigid k) rfl hg.1 ho).elim
  | _, .bin n (op : XBin _ _ _) l r, hg, o, ho => by
    have ihl := objects_lower N l hg.2.1 o
    have ihr := objects_lower N r hg.2.2 o
    change o ∈ objects (lowerBin n op (lower N l) (lower N r))
    have hO := List.mem_append.mp ho
    clear ho
    cases op with
    | value op => exact List.mem_append.mpr (hO.imp ihl ihr)
    | dangling op => exact List.mem_append.mpr (hO.imp ihl ihr)
    | keepL =>
      rcases hO with ho | ho
      · exact ihl ho
      · have := wrapper_objects r hg.2.2 hg.1.1 _ ho
        cases this
    | keepR =>
      rcases hO with ho | ho
      · have := wrapper_objects l hg.2.1 hg.1 _ ho
        cases this
      · exact ihr ho
  | _, .proxy n e, hg, o, ho => objects_lower N e hg o ho

/-- A regular expression reads no dead temporary and has a value; with ordinary objects only it is
regular too. -/
theorem regular_lower (hε : 0 < ε) (N : ℕ) (s : Memory) : {a : XTy} → (e : Expr (xLib ε) a) → Gen e →
    Free N e → RegularX ε s e →
    Alive e ∧ (∃ v, value (xmem ε s) e = some v) ∧ RegularAt ε (ground N s) (lower N e)
  | _, .leaf n c a, _, hf, hr => by
    refine ⟨trivial, ⟨_, rfl⟩, ?_⟩
    change RegularAt ε (ground N s) (lowerLeaf N n c a)
    unfold lowerLeaf
    cases hw : a.wrapper with
    | true =>
      rw [if_pos rfl]
      change Valid _ (ground N s N _)
      rw [ground_self]
      exact neutral_valid _
    | false =>
      rw [if_neg (by simp)]
      obtain ⟨τ, rfl⟩ := plain_of hw
      have hn : n ≠ N := hf ⟨n, c, .plain τ⟩ (by simp [objects]) rfl
      change Valid _ (ground N s n _)
      rw [ground_ne hn]
      exact hr
  | _, .un (α := a) (β := b) n (op : XUn _ _) e, hg, hf, hr => by
    obtain ⟨h1, ⟨v, h2⟩, h3⟩ := regular_lower hε N s e hg.2 hf hr.1
    have hv := value_lower N s e hg.2 h1 hf
    rw [h2] at hv
    have hval : ∀ w, evalXUn ε op v = some w → ∃ v, value (xmem ε s) (.un (L := xLib ε) n op e) =
        some v := fun w hw => ⟨w, by change (value (xmem ε s) e).bind _ = _; rw [h2]; exact hw⟩
    have hn : ∀ τ, RegularAt ε (ground N s) (.leaf (L := geoLib ε) N 0 τ) := fun τ => by
      change Valid _ (ground N s N _)
      rw [ground_self]
      exact neutral_valid _
    cases op with
    | value op =>
      have hR : RegularAt ε (ground N s) (.un (L := geoLib ε) n op (lower N e)) := by
        refine ⟨h3, fun w hw => ?_⟩
        have : w = a.content v := Option.some.inj (hw.symm.trans hv)
        rw [this]
        exact hr.2 v h2
      obtain ⟨y, hy, -⟩ := regular_value hε (ground N s) _ hR
      have hy' : (value (L := geoLib ε) (ground N s) (lower N e)).bind (fun x => evalUn ε op x) =
        some y := hy
      rw [hv] at hy'
      exact ⟨h1, hval y hy', hR⟩
    | conv => exact ⟨h1, hval _ rfl, h3⟩
    | invId => exact ⟨h1, hval _ rfl, h3⟩
    | minusZero => exact ⟨h1, hval _ rfl, h3⟩
    | expZeroRot => exact ⟨h1, hval _ rfl, hn _⟩
    | expZeroTwist => exact ⟨h1, hval _ rfl, hn _⟩
    | logIdRot => exact ⟨h1, hval _ rfl, hn _⟩
    | logIdRigid => exact ⟨h1, hval _ rfl, hn _⟩
  | _, .bin (α := a) (β := b) n (op : XBin _ _ _) l r, hg, hf, hr => by
    have hfl : Free N l := fun o ho => hf o (List.mem_append_left _ ho)
    have hfr : Free N r := fun o ho => hf o (List.mem_append_right _ ho)
    obtain ⟨h1, ⟨v, h2⟩, h3⟩ := regular_lower hε N s l hg.2.1 hfl hr.1
    obtain ⟨k1, ⟨w, k2⟩, k3⟩ := regular_lower hε N s r hg.2.2 hfr hr.2.1
    have hv := value_lower N s l hg.2.1 h1 hfl
    rw [h2] at hv
    have hw := value_lower N s r hg.2.2 k1 hfr
    rw [k2] at hw
    have hval : ∀ z, evalXBin op v w = some z → ∃ v, value (xmem ε s)
        (.bin (L := xLib ε) n op l r) = some v := fun z hz => ⟨z, by
          change (value (xmem ε s) l).bind (fun x => (value (xmem ε s) r).bind _) = _
          rw [h2, k2]; exact hz⟩
    cases op with
    | value op =>
      have hR : RegularAt ε (ground N s) (.bin (L := geoLib ε) n op (lower N l) (lower N r)) := by
        refine ⟨h3, k3, fun x y hx hy => ?_⟩
        have e1 : x = a.content v := Option.some.inj (hx.symm.trans hv)
        have e2 : y = b.content w := Option.some.inj (hy.symm.trans hw)
        rw [e1, e2]
        exact hr.2.2 v w h2 k2
      obtain ⟨y, hy, -⟩ := regular_value hε (ground N s) _ hR
      have hy' : (value (L := geoLib ε) (ground N s) (lower N l)).bind (fun x =>
        (value (L := geoLib ε) (ground N s) (lower N r)).bind fun y => evalBin op x y) =
        some y := hy
      rw [hv, hw] at hy'
      exact ⟨⟨rfl, h1, k1⟩, hval y hy', hR⟩
    | dangling op => exact (hr.2.2 v w h2 k2).elim
    | keepL => exact ⟨⟨rfl, h1, k1⟩, hval _ rfl, h3⟩
    | keepR => exact ⟨⟨rfl, h1, k1⟩, hval _ rfl, k3⟩
  | _, .proxy n e, hg, hf, hr => regular_lower hε N s e hg hf hr

/-! ## Jacobians -/

theorem sameJac_self (a : Ty) : sameJac a a = 1 := by
  funext i j
  unfold sameJac
  rw [Matrix.one_apply]
  by_cases h : i = j
  · rw [if_pos h, if_pos (by rw [h])]
  · rw [if_neg h, if_neg]
    exact fun h' => h (a.enum.injective (Fin.ext h'))

theorem total_map_one {m p : Type} [Fintype m] [DecidableEq m] (A : OMat m m) (l : List (OMat m p))
    {J : Matrix m p ℝ} (hA : ∀ A', A = some A' → A' = 1) (h : total (l.map (OMat.mul A)) = some J) :
    total l = some J := by
  by_cases hl : l = []
  · subst hl; exact h
  · rw [total_map_mul A l hl] at h
    rcases A with _ | A
    · cases h
    · obtain rfl := hA A rfl
      rcases hK : total l with _ | K
      · rw [hK] at h; cases h
      · rw [hK] at h
        have h1 : some ((1 : Matrix m m ℝ) * K) = some J := h
        rwa [Matrix.one_mul] at h1

theorem slope_one {α : Type} {v : Option α} {m n : Type} {M : α → Option (Matrix m n ℝ)}
    {A I : Matrix m n ℝ} (h : v.bind M = some A) (hM : ∀ x A', M x = some A' → A' = I) : A = I := by
  obtain ⟨x, -, hx⟩ := Option.bind_eq_some_iff.mp h
  exact hM x A hx

theorem neutral_rotOf {b : XTy} (hb : b.wrapper = true) (y : b.Val) {M : M3}
    (h : rotOf b y = some M) : M = 1 := by
  cases b with
  | plain => cases hb
  | idRot k =>
    have : some (k.matrix (neutralVal (.rot k))) = some M := h
    rw [toMatrix_neutral] at this
    exact (Option.some.inj this).symm
  | _ => cases h

theorem block3_one (a : Ty) {A : Matrix a.Idx a.Idx ℝ} (h : block3 a a 1 = some A) : A = 1 := by
  cases a with
  | rot k => exact (Option.some.inj h).symm
  | vec k => cases k <;> cases h
  | _ => cases h

theorem keepJacL_one {t : Tag2} {a b : XTy} (hb : b.wrapper = true)
    (ht : t = .sum ∨ t = .compose ∨ t = .composeFlipped) {v : a.Val} {y : b.Val}
    {A : Matrix a.leaf.Idx a.leaf.Idx ℝ} (h : keepJacL t a b a v y = some A) : A = 1 := by
  rcases ht with rfl | rfl | rfl
  · exact (Option.some.inj h).symm.trans (sameJac_self _)
  · exact (Option.some.inj h).symm.trans (sameJac_self _)
  · obtain ⟨M, hM, h⟩ := Option.bind_eq_some_iff.mp (show (rotOf b y).bind _ = some A from h)
    obtain rfl := neutral_rotOf hb y hM
    exact block3_one _ h

theorem keepJacR_one {t : Tag2} {a b : XTy} (ha : a.wrapper = true) {x : a.Val}
    {A : Matrix b.leaf.Idx b.leaf.Idx ℝ} (h : keepJacR t a b b x = some A) : A = 1 := by
  cases t with
  | sum => exact (Option.some.inj h).symm.trans (sameJac_self _)
  | composeFlipped => exact (Option.some.inj h).symm.trans (sameJac_self _)
  | compose =>
    obtain ⟨M, hM, h⟩ := Option.bind_eq_some_iff.mp (show (rotOf a x).bind _ = some A from h)
    obtain rfl := neutral_rotOf ha x hM
    exact block3_one _ h
  | _ => cases h

theorem total_map_transfer {m k p : Type} [Fintype k] (A : OMat m k) {l l' : List (OMat k p)}
    (h0 : l = [] ↔ l' = []) (h : ∀ K, total l = some K → total l' = some K) {J : Matrix m p ℝ}
    (hJ : total (l.map (OMat.mul A)) = some J) : total (l'.map (OMat.mul A)) = some J := by
  by_cases hl : l = []
  · have hl' := h0.mp hl
    subst hl hl'
    exact hJ
  · rw [total_map_mul A l hl] at hJ
    rw [total_map_mul A l' fun h' => hl (h0.mpr h')]
    rcases hK : total l with _ | K
    · rw [hK] at hJ; cases A <;> cases hJ
    · rw [h K hK, ← hJ, hK]

theorem occ_lower_nil {N : ℕ} (s : Memory) {n c : ℕ} {σ : Ty} (hN : n ≠ N) {a : XTy}
    (e : Expr (xLib ε) a) (hg : Gen e) :
    occurrences (xmem ε s) (⟨n, c, .plain σ⟩ : Target (xLib ε)) e = [] ↔
      occurrences (L := geoLib ε) (ground N s) ⟨n, c, σ⟩ (lower N e) = [] := by
  refine (occ_nil_iff _ _ e).trans (Iff.trans ?_
    (occ_nil_iff (L := geoLib ε) (ground N s) ⟨n, c, σ⟩ (lower N e)).symm)
  refine not_congr ⟨objects_lower N e hg ⟨n, c, σ⟩, fun h => ?_⟩
  exact (lower_objects N e _ h).resolve_left hN

theorem occ_wrapper {s : Memory} {n c : ℕ} {σ : Ty} {a : XTy}
    (e : Expr (xLib ε) a) (hg : Gen e) (hw : a.wrapper = true) :
    occurrences (xmem ε s) (⟨n, c, .plain σ⟩ : Target (xLib ε)) e = [] :=
  occ_nil fun h => by
    have := wrapper_objects e hg hw _ h
    cases this

theorem total_add {m p : Type} {l l' : List (OMat m p)} {J : Matrix m p ℝ}
    (h : total (l ++ l') = some J) : ∃ J1 J2, total l = some J1 ∧ total l' = some J2 ∧ J = J1 + J2 := by
  rw [total_append] at h
  rcases h1 : total l with _ | J1
  · rw [h1] at h; cases h
  · rcases h2 : total l' with _ | J2
    · rw [h1, h2] at h; cases h
    · rw [h1, h2] at h
      exact ⟨J1, J2, rfl, rfl, (Option.some.inj h).symm⟩

/-- The Jacobian of an expression with Identity and Zero, where it exists, is that of the expression
with ordinary objects only. -/
theorem total_lower {N : ℕ} (s : Memory) {n c : ℕ} {σ : Ty} (hN : n ≠ N) : {a : XTy} →
    (e : Expr (xLib ε) a) → Gen e → Alive e → Free N e →
    {J : Matrix a.leaf.Idx σ.Idx ℝ} →
    total (occurrences (xmem ε s) (⟨n, c, .plain σ⟩ : Target (xLib ε)) e) = some J →
    total (occurrences (L := geoLib ε) (ground N s) ⟨n, c, σ⟩ (lower N e)) = some J
  | _, .leaf m d a, hg, _, _, J, hJ => by
    cases hw : a.wrapper with
    | true =>
      have h1 := occ_wrapper (s := s) (n := n) (c := c) (σ := σ) (.leaf (L := xLib ε) m d a) hg hw
      have h2 := (occ_lower_nil (N := N) s hN (.leaf (L := xLib ε) m d a) hg).mp h1
      rw [h1] at hJ
      rw [h2]; exact hJ
    | false =>
      obtain ⟨τ, rfl⟩ := plain_of hw
      by_cases h : (⟨m, d, τ⟩ : Target (geoLib ε)) = ⟨n, c, σ⟩
      · cases h
        have h1 := occ_leaf_self (xmem ε s) n c (.plain σ)
        rw [h1] at hJ
        exact (congrArg total (occ_leaf_self (L := geoLib ε) (ground N s) n c σ)).trans hJ
      · rw [occ_leaf_ne _ (fun h' => h (by cases h'; rfl))] at hJ
        exact (congrArg total (occ_leaf_ne (L := geoLib ε) (ground N s) h)).trans hJ
  | _, .un (α := a') (β := b') m (op : XUn _ _) e, hg, hal, hf, J, hJ => by
    have hv := value_lower N s e hg.2 hal hf
    have ih := fun (K : Matrix (a' : XTy).leaf.Idx σ.Idx ℝ) (h : total (occurrences (xmem ε s)
      (⟨n, c, .plain σ⟩ : Target (xLib ε)) e) = some K) => total_lower s hN e hg.2 hal hf h
    have hz : b'.wrapper = true → total (occurrences (L := geoLib ε) (ground N s) ⟨n, c, σ⟩
        (lower N (.un (L := xLib ε) m op e))) = some J := fun hw => by
      have h1 := occ_wrapper (s := s) (n := n) (c := c) (σ := σ) (.un (L := xLib ε) m op e) hg hw
      have h2 := (occ_lower_nil (N := N) s hN (.un (L := xLib ε) m op e) hg).mp h1
      rw [h1] at hJ
      rw [h2]; exact hJ
    change total ((occurrences _ _ e).map _) = some J at hJ
    cases op with
    | value op =>
      change total ((occurrences _ _ (lower N e)).map _) = some J
      have hs : slopeU (L := geoLib ε) (ground N s) op (lower N e) =
          slopeU (xmem ε s) (.value op : XUn a' _) e := by
        unfold slopeU
        rw [hv]
        cases value (xmem ε s) e <;> rfl
      rw [hs]
      exact total_map_transfer _ (occ_lower_nil s hN e hg.2) ih hJ
    | conv =>
      exact ih _ (total_map_one _ _ (fun A' h => slope_one h fun x A' h' => by
        exact (Option.some.inj h').symm) hJ)
    | invId => exact hz hg.1
    | minusZero => exact hz hg.1
    | _ => exact hz rfl
  | _, .bin (α := a') (β := b') m (op : XBin _ _ _) l r, hg, hal, hf, J, hJ => by
    have hfl : Free N l := fun o ho => hf o (List.mem_append_left _ ho)
    have hfr : Free N r := fun o ho => hf o (List.mem_append_right _ ho)
    have hv := value_lower N s l hg.2.1 hal.2.1 hfl
    have hv' := value_lower N s r hg.2.2 hal.2.2 hfr
    have ihl := fun (K : Matrix (a' : XTy).leaf.Idx σ.Idx ℝ) (h : total (occurrences (xmem ε s)
      (⟨n, c, .plain σ⟩ : Target (xLib ε)) l) = some K) => total_lower s hN l hg.2.1 hal.2.1 hfl h
    have ihr := fun (K : Matrix (b' : XTy).leaf.Idx σ.Idx ℝ) (h : total (occurrences (xmem ε s)
      (⟨n, c, .plain σ⟩ : Target (xLib ε)) r) = some K) => total_lower s hN r hg.2.2 hal.2.2 hfr h
    change total ((occurrences _ _ l).map _ ++ (occurrences _ _ r).map _) = some J at hJ
    cases op with
    | value op =>
      change total ((occurrences _ _ (lower N l)).map _ ++ (occurrences _ _ (lower N r)).map _) =
        some J
      have hs : slopeL (L := geoLib ε) (ground N s) op (lower N l) (lower N r) =
          slopeL (xmem ε s) (.value op : XBin a' b' _) l r := by
        unfold slopeL
        rw [hv, hv']
        cases value (xmem ε s) l <;> cases value (xmem ε s) r <;> rfl
      have hs' : slopeR (L := geoLib ε) (ground N s) op (lower N l) (lower N r) =
          slopeR (xmem ε s) (.value op : XBin a' b' _) l r := by
        unfold slopeR
        rw [hv, hv']
        cases value (xmem ε s) l <;> cases value (xmem ε s) r <;> rfl
      rw [hs, hs', total_append]
      obtain ⟨J1, J2, h1, h2, rfl⟩ := total_add hJ
      rw [total_map_transfer _ (occ_lower_nil s hN l hg.2.1) ihl h1,
        total_map_transfer _ (occ_lower_nil s hN r hg.2.2) ihr h2]
      rfl
    | dangling op => exact absurd hal.1 (by simp [XBin.dead])
    | keepL t =>
      rw [occ_wrapper r hg.2.2 hg.1.1, List.map_nil, List.append_nil] at hJ
      exact ihl _ (total_map_one _ _ (fun A' h => slope_one h fun x A' h' => by
        obtain ⟨y, -, h'⟩ := Option.bind_eq_some_iff.mp h'
        exact keepJacL_one hg.1.1 hg.1.2 h') hJ)
    | keepR t =>
      rw [occ_wrapper l hg.2.1 hg.1, List.map_nil, List.nil_append] at hJ
      exact ihr _ (total_map_one _ _ (fun A' h => slope_one h fun x A' h' => by
        obtain ⟨y, -, h'⟩ := Option.bind_eq_some_iff.mp h'
        exact keepJacR_one hg.1 h') hJ)
  | _, .proxy m e, hg, hal, hf, J, hJ => total_lower s hN e hg hal hf hJ

/-! ## The response -/

theorem xmem_set (s : Memory) (n : ℕ) (σ : Ty) (v : σ.Val) :
    xmem ε (Store.set (L := geoLib ε) s n σ v) = (xmem ε s).set n (.plain σ) v := by
  funext m a
  cases a with
  | plain τ =>
    change Store.set (L := geoLib ε) s n σ v m τ = _
    unfold Store.set
    by_cases h : m = n ∧ σ = τ
    · obtain ⟨rfl, rfl⟩ := h
      rw [dif_pos ⟨rfl, rfl⟩, dif_pos ⟨rfl, rfl⟩]
    · rw [dif_neg h, dif_neg (fun h' => h ⟨h'.1, by have := h'.2; cases this; rfl⟩)]; rfl
  | _ => rfl

theorem ground_set {N : ℕ} (s : Memory) {n : ℕ} (hN : n ≠ N) (σ : Ty) (v : σ.Val) :
    ground N (Store.set (L := geoLib ε) s n σ v) = Store.set (L := geoLib ε) (ground N s) n σ v := by
  funext m τ
  unfold ground Store.set
  by_cases h : m = n ∧ σ = τ
  · obtain ⟨rfl, rfl⟩ := h
    rw [if_neg hN, dif_pos ⟨rfl, rfl⟩, dif_pos ⟨rfl, rfl⟩]
  · rw [dif_neg h, dif_neg h]

theorem response_lower {N : ℕ} (s : Memory) {n c : ℕ} {σ τ : Ty} (hN : n ≠ N)
    (e : Expr (xLib ε) (.plain τ)) (hg : Gen e) (hal : Alive e) (hf : Free N e) (d : σ.Idx → ℝ) :
    response (ε := ε) (ground N s) ⟨n, c, σ⟩ (lower N e) d = responseX s n σ e d := by
  unfold response responseX
  change (boxPlusVal ε σ (ground N s n σ) d).bind _ = _
  rw [ground_ne hN]
  refine congrArg (Option.bind _) (funext fun v => ?_)
  have h1 := value_lower N (Store.set (L := geoLib ε) s n σ v) e hg hal hf
  have h2 := value_lower N s e hg hal hf
  rw [ground_set s hN] at h1
  have h1' : value (L := geoLib ε) (Store.set (L := geoLib ε) (ground N s) n σ v) (lower N e) =
    (value (xmem ε (Store.set (L := geoLib ε) s n σ v)) e).map fun x => x := h1
  have h2' : value (L := geoLib ε) (ground N s) (lower N e) =
    (value (xmem ε s) e).map fun x => x := h2
  rw [Option.map_id'] at h1' h2'
  exact (congrArg (fun z => Option.bind z _) h1').trans
    (congrArg (Option.bind _) (funext fun y => congrArg (fun z => Option.bind z _) h2'))

theorem exists_free {a : XTy} (e : Expr (xLib ε) a) (n : ℕ) : ∃ N, Free N e ∧ n ≠ N := by
  refine ⟨((objects e).map fun o => o.addr).sum + n + 1, fun o ho _ h => ?_, by omega⟩
  have := List.single_le_sum (l := (objects e).map fun o => o.addr) (fun _ _ => Nat.zero_le _) o.addr
    (List.mem_map_of_mem ho)
  omega

theorem derivative_x (hε : 0 < ε) (hε1 : ε ≤ 1) (s : Memory) {n c : ℕ} {σ τ : Ty}
    (e : Expr (xLib ε) (.plain τ)) (hg : Gen e) (hreg : RegularX ε s e)
    (ht : (⟨n, c, .plain σ⟩ : Target (xLib ε)) ∈ objects e)
    (ho : ∀ o ∈ objects e, o.addr = n → o.ty = .plain σ → o = ⟨n, c, .plain σ⟩)
    {J : Matrix τ.Idx σ.Idx ℝ}
    (hJ : total (occurrences (xmem ε s) (⟨n, c, .plain σ⟩ : Target (xLib ε)) e) = some J) :
    IsDerivativeX s n σ e J := by
  obtain ⟨N, hf, hN⟩ := exists_free e n
  obtain ⟨hal, -, hR⟩ := regular_lower hε N s e hg hf hreg
  obtain ⟨F, h1, h2, h3⟩ := response_deriv hε hε1 (ground N s) ⟨n, c, σ⟩ (lower N e) hR
    (objects_lower N e hg ⟨n, c, σ⟩ ht) (fun o hm h1 h2 => by
      rcases lower_objects N e o hm with h | h
      · exact absurd (h1.symm.trans h) hN
      · have := ho _ h h1 (congrArg XTy.plain h2)
        cases o
        cases this
        rfl) (total_lower s hN e hg hal hf hJ)
  refine ⟨F, ?_, h2, h3⟩
  filter_upwards [h1] with d hd
  exact (response_lower s hN e hg hal hf d).symm.trans hd

end WG
