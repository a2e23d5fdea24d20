import Verif.Lemmas.Compound
import Verif.Spec.Lazy

/-!
# Lemmas on evaluators holding unevaluated results
-/

namespace WG
open Matrix Spec

variable {L : Lib} (Z : Laziness L) (s : Store L)

/-! ## The tree built -/

/-- The result of a unary node whose operand `x`, stored at `l`, is intact. -/
def unSlot (l : Loc) {α β : L.Ty} (op : L.Un α β) (x : Slot L α) (d : Option (L.Val α)) : Slot L β :=
  match Z.un op, x with
  | .eager, _ => .plain (d.bind (L.evalU op))
  | .nest, x => .expr (.un op (x.nested l))
  | .pass, .plain v => .plain (v.bind (L.evalU op))
  | .pass, .expr z => .expr (.un op z)

/-- The result of a binary node whose operands are intact. -/
def binSlot (lx ly : Loc) {α β γ : L.Ty} (op : L.Bin α β γ) (x : Slot L α) (y : Slot L β)
    (d : Option (L.Val α)) (d' : Option (L.Val β)) : Slot L γ :=
  match Z.bin op with
  | .eager => .plain (d.bind fun v => d'.bind fun w => L.evalB op v w)
  | .left => .expr (.bin op (x.nested lx) (.copy d'))
  | .right => .expr (.bin op (.copy d) (y.nested ly))

/-- The tree built for `e` at path `p` of object `n`. -/
def shape : {τ : L.Ty} → (h : Bool) → (n : ℕ) → (p : List ℕ) → Expr L τ → LTree L τ
  | _, _, _, _, .leaf a c τ => .leaf a c τ (s a τ)
  | _, h, n, p, .un a op e =>
    .un a op (shape h n (0 :: p) e) (unSlot Z ⟨h, n, 0 :: p⟩ op (shape h n (0 :: p) e).res
      (shape h n (0 :: p) e).den) ((shape h n (0 :: p) e).den.bind (L.evalU op))
  | _, h, n, p, .bin a op l r =>
    .bin a op (shape h n (0 :: p) l) (shape h n (1 :: p) r)
      (binSlot Z ⟨h, n, 0 :: p⟩ ⟨h, n, 1 :: p⟩ op (shape h n (0 :: p) l).res (shape h n (1 :: p) r).res
        (shape h n (0 :: p) l).den (shape h n (1 :: p) r).den)
      ((shape h n (0 :: p) l).den.bind fun v => (shape h n (1 :: p) r).den.bind fun w => L.evalB op v w)
  | _, _, n, p, .proxy a e => .proxy a (shape true n (2 :: p) e) (shape true n (2 :: p) e).den

/-- What is found at the place of a result. -/
def Slot.cell {τ : L.Ty} : Slot L τ → Option ((τ : L.Ty) × Option (L.Val τ))
  | .plain v => some ⟨τ, v⟩
  | .expr _ => none

/-- The results of the tree for `e` are in their places. -/
def Placed (m : EMem L) : {τ : L.Ty} → (h : Bool) → (n : ℕ) → (p : List ℕ) → Expr L τ → Prop
  | _, h, n, p, .leaf a c τ => m ⟨h, n, p⟩ = (shape Z s h n p (.leaf a c τ)).res.cell
  | _, h, n, p, .un a op e =>
    m ⟨h, n, p⟩ = (shape Z s h n p (.un a op e)).res.cell ∧ Placed m h n (0 :: p) e
  | _, h, n, p, .bin a op l r => m ⟨h, n, p⟩ = (shape Z s h n p (.bin a op l r)).res.cell ∧
      Placed m h n (0 :: p) l ∧ Placed m h n (1 :: p) r
  | _, h, n, p, .proxy a e =>
    m ⟨h, n, p⟩ = (shape Z s h n p (.proxy a e)).res.cell ∧ Placed m true n (2 :: p) e

/-- The part of the results that is cached in dynamic nodes is in place. -/
def HeapPlaced (m : EMem L) : {τ : L.Ty} → (n : ℕ) → (p : List ℕ) → Expr L τ → Prop
  | _, _, _, .leaf _ _ _ => True
  | _, n, p, .un _ _ e => HeapPlaced m n (0 :: p) e
  | _, n, p, .bin _ _ l r => HeapPlaced m n (0 :: p) l ∧ HeapPlaced m n (1 :: p) r
  | _, n, p, .proxy _ e => Placed Z s m true n (2 :: p) e

/-- A place at or below path `p` of object `n`. -/
def Within (n : ℕ) (p : List ℕ) (l : Loc) : Prop := l.obj = n ∧ p <:+ l.path

theorem Within.up {n k : ℕ} {p : List ℕ} {l : Loc} (h : Within n (k :: p) l) : Within n p l :=
  ⟨h.1, (List.suffix_cons k p).trans h.2⟩

theorem within_self {h : Bool} {n : ℕ} {p : List ℕ} : Within n p ⟨h, n, p⟩ := ⟨rfl, List.suffix_rfl⟩

theorem not_within_child {h : Bool} {n k : ℕ} {p : List ℕ} : ¬ Within n (k :: p) ⟨h, n, p⟩ :=
  fun h => by simpa using h.2.length_le

theorem within_disjoint {n j k : ℕ} {p : List ℕ} {l : Loc} (hj : Within n (j :: p) l)
    (hk : Within n (k :: p) l) : j = k := by
  have := List.suffix_of_suffix_length_le hj.2 hk.2 (by simp)
  exact (List.cons.inj (this.eq_of_length (by simp))).1

theorem placed_congr {m m' : EMem L} : {τ : L.Ty} → (e : Expr L τ) → (h : Bool) → (n : ℕ) →
    (p : List ℕ) → (∀ l, Within n p l → m' l = m l) → Placed Z s m h n p e → Placed Z s m' h n p e
  | _, .leaf _ _ _, _, _, _, hm, hp => (hm _ within_self).trans hp
  | _, .un _ _ e, h, n, p, hm, hp =>
    ⟨(hm _ within_self).trans hp.1, placed_congr e h n (0 :: p) (fun l hl => hm l hl.up) hp.2⟩
  | _, .bin _ _ l r, h, n, p, hm, hp =>
    ⟨(hm _ within_self).trans hp.1, placed_congr l h n (0 :: p) (fun l hl => hm l hl.up) hp.2.1,
      placed_congr r h n (1 :: p) (fun l hl => hm l hl.up) hp.2.2⟩
  | _, .proxy _ e, _, n, p, hm, hp =>
    ⟨(hm _ within_self).trans hp.1, placed_congr e true n (2 :: p) (fun l hl => hm l hl.up) hp.2⟩

theorem placed_heap_congr {m m' : EMem L} : {τ : L.Ty} → (e : Expr L τ) → (n : ℕ) →
    (p : List ℕ) → (∀ l, Within n p l → l.heap = true → m' l = m l) → Placed Z s m true n p e →
    Placed Z s m' true n p e
  | _, .leaf _ _ _, _, _, hm, hp => (hm _ within_self rfl).trans hp
  | _, .un _ _ e, n, p, hm, hp =>
    ⟨(hm _ within_self rfl).trans hp.1, placed_heap_congr e n (0 :: p) (fun l hl => hm l hl.up) hp.2⟩
  | _, .bin _ _ l r, n, p, hm, hp =>
    ⟨(hm _ within_self rfl).trans hp.1, placed_heap_congr l n (0 :: p) (fun l hl => hm l hl.up) hp.2.1,
      placed_heap_congr r n (1 :: p) (fun l hl => hm l hl.up) hp.2.2⟩
  | _, .proxy _ e, n, p, hm, hp =>
    ⟨(hm _ within_self rfl).trans hp.1, placed_heap_congr e n (2 :: p) (fun l hl => hm l hl.up) hp.2⟩

theorem heapPlaced_of_placed {m m' : EMem L} : {τ : L.Ty} → (e : Expr L τ) → (n : ℕ) →
    (p : List ℕ) → (∀ l, Within n p l → l.heap = true → m' l = m l) → Placed Z s m false n p e →
    HeapPlaced Z s m' n p e
  | _, .leaf _ _ _, _, _, _, _ => trivial
  | _, .un _ _ e, n, p, hm, hp => heapPlaced_of_placed e n (0 :: p) (fun l hl => hm l hl.up) hp.2
  | _, .bin _ _ l r, n, p, hm, hp =>
    ⟨heapPlaced_of_placed l n (0 :: p) (fun l hl => hm l hl.up) hp.2.1,
      heapPlaced_of_placed r n (1 :: p) (fun l hl => hm l hl.up) hp.2.2⟩
  | _, .proxy _ e, n, p, hm, hp =>
    placed_heap_congr Z s e n (2 :: p) (fun l hl => hm l hl.up) hp.2

/-! ## The denoted values -/

theorem shape_erase : {τ : L.Ty} → (e : Expr L τ) → (h : Bool) → (n : ℕ) → (p : List ℕ) →
    (shape Z s h n p e).erase = ETree.mk s e ∧ (shape Z s h n p e).den = (ETree.mk s e).val
  | _, .leaf _ _ _, _, _, _ => ⟨rfl, rfl⟩
  | _, .un a op e, h, n, p => by
    obtain ⟨h1, h2⟩ := shape_erase e h n (0 :: p)
    constructor
    · show ETree.un a op _ _ = ETree.un a op _ _
      rw [h1, h2]
    · show (shape Z s h n (0 :: p) e).den.bind _ = _
      rw [h2]; rfl
  | _, .bin a op l r, h, n, p => by
    obtain ⟨h1, h2⟩ := shape_erase l h n (0 :: p)
    obtain ⟨g1, g2⟩ := shape_erase r h n (1 :: p)
    constructor
    · show ETree.bin a op _ _ _ = ETree.bin a op _ _ _
      rw [h1, h2, g1, g2]
    · show ((shape Z s h n (0 :: p) l).den.bind fun v => (shape Z s h n (1 :: p) r).den.bind _) = _
      rw [h2, g2]; rfl
  | _, .proxy a e, h, n, p => by
    obtain ⟨h1, h2⟩ := shape_erase e true n (2 :: p)
    constructor
    · show ETree.proxy a _ = ETree.proxy a _
      rw [h1]
    · exact h2

theorem shape_den {τ : L.Ty} (e : Expr L τ) (h : Bool) (n : ℕ) (p : List ℕ) :
    (shape Z s h n p e).den = (ETree.mk s e).val := (shape_erase Z s e h n p).2

theorem force_ref {m : EMem L} {l : Loc} {τ : L.Ty} {v : Option (L.Val τ)}
    (h : m l = some ⟨τ, v⟩) : (Lz.ref l : Lz L τ).force m = some v := by
  unfold Lz.force
  rw [h]
  exact dif_pos rfl

theorem force_nested {m : EMem L} {l : Loc} {τ : L.Ty} {x : Slot L τ} (h : m l = x.cell) :
    (x.nested l).force m = x.force m := by
  cases x with
  | plain v => exact force_ref h
  | expr z => rfl

/-- Intact results stand for the denoted value. -/
theorem force_placed {m : EMem L} : {τ : L.Ty} → (e : Expr L τ) → (h : Bool) → (n : ℕ) →
    (p : List ℕ) → Placed Z s m h n p e →
    (shape Z s h n p e).res.force m = some (shape Z s h n p e).den
  | _, .leaf _ _ _, _, _, _, _ => rfl
  | _, .un a op e, h, n, p, hp => by
    have ih := force_placed e h n (0 :: p) hp.2
    have hc : m ⟨h, n, 0 :: p⟩ = (shape Z s h n (0 :: p) e).res.cell := by
      cases e <;> first | exact hp.2 | exact hp.2.1
    show (unSlot Z _ op _ _).force m = some (Option.bind _ _)
    unfold unSlot
    revert ih hc
    generalize (shape Z s h n (0 :: p) e).den = d
    generalize (shape Z s h n (0 :: p) e).res = x
    intro ih hc
    cases hz : Z.un op with
    | eager => rfl
    | nest =>
      show (match (x.nested _).force m with | some v => _ | none => _) = _
      rw [force_nested hc, ih]
    | pass =>
      cases x with
      | plain v =>
        have : v = d := Option.some.inj ih
        rw [this]; rfl
      | expr z =>
        show (match z.force m with | some v => _ | none => _) = _
        have : z.force m = some d := ih
        rw [this]
  | _, .bin a op l r, h, n, p, hp => by
    have ihl := force_placed l h n (0 :: p) hp.2.1
    have ihr := force_placed r h n (1 :: p) hp.2.2
    have hl : m ⟨h, n, 0 :: p⟩ = (shape Z s h n (0 :: p) l).res.cell := by
      cases l <;> first | exact hp.2.1 | exact hp.2.1.1
    have hr : m ⟨h, n, 1 :: p⟩ = (shape Z s h n (1 :: p) r).res.cell := by
      cases r <;> first | exact hp.2.2 | exact hp.2.2.1
    show (binSlot Z _ _ op _ _ _ _).force m = some (Option.bind _ _)
    unfold binSlot
    cases hz : Z.bin op with
    | eager => rfl
    | left =>
      simp only [Slot.force, Lz.force]
      rw [force_nested hl, ihl]
    | right =>
      simp only [Slot.force, Lz.force]
      rw [force_nested hr, ihr]
  | _, .proxy a e, h, n, p, _ => rfl

theorem cell_of_placed {m : EMem L} {τ : L.Ty} {e : Expr L τ} {h : Bool} {n : ℕ} {p : List ℕ}
    (hp : Placed Z s m h n p e) : m ⟨h, n, p⟩ = (shape Z s h n p e).res.cell := by
  cases e <;> first | exact hp | exact hp.1

theorem put_self (m : EMem L) (l : Loc) {τ : L.Ty} (r : Slot L τ) : m.put l r l = r.cell := by
  unfold EMem.put
  rw [if_pos rfl]
  cases r <;> rfl

theorem put_other (m : EMem L) {l l' : Loc} {τ : L.Ty} (r : Slot L τ) (h : l' ≠ l) :
    m.put l r l' = m l' := if_neg h

/-- Construction succeeds, gives `shape` with all results in their places, and does not touch anything
else. -/
theorem build_ok : {τ : L.Ty} → (e : Expr L τ) → (h : Bool) → (n : ℕ) → (p : List ℕ) →
    (m : EMem L) → ∃ m', LTree.build Z s h n p e m = some (shape Z s h n p e, m') ∧
      Placed Z s m' h n p e ∧ ∀ l, ¬ Within n p l → m' l = m l
  | τ, .leaf a c _, h, n, p, m => by
    refine ⟨_, rfl, put_self _ _ _, fun l hl => put_other _ _ ?_⟩
    rintro rfl
    exact hl within_self
  | _, .un a op e, h, n, p, m => by
    obtain ⟨m₁, h1, h2, h3⟩ := build_ok e h n (0 :: p) m
    have hf := force_placed Z s e h n (0 :: p) h2
    have hr : unRes Z m₁ ⟨h, n, 0 :: p⟩ op (shape Z s h n (0 :: p) e).res =
        some (unSlot Z ⟨h, n, 0 :: p⟩ op (shape Z s h n (0 :: p) e).res
          (shape Z s h n (0 :: p) e).den) := by
      unfold unRes unSlot
      revert hf
      generalize (shape Z s h n (0 :: p) e).den = d
      generalize (shape Z s h n (0 :: p) e).res = x
      intro hf
      cases Z.un op with
      | eager =>
        show (match x.force m₁ with | some v => _ | none => _) = _
        rw [hf]
      | nest => rfl
      | pass => cases x <;> rfl
    refine ⟨m₁.put ⟨h, n, p⟩ (shape Z s h n p (.un a op e)).res, ?_, ⟨put_self _ _ _, ?_⟩, ?_⟩
    · unfold LTree.build
      rw [h1]
      simp only
      rw [hr]
      rfl
    · refine placed_congr Z s e h n (0 :: p) (fun l hl => put_other _ _ ?_) h2
      rintro rfl
      exact not_within_child hl
    · intro l hl
      rw [put_other, h3 l fun h => hl h.up]
      rintro rfl
      exact hl within_self
  | _, .bin a op l r, h, n, p, m => by
    obtain ⟨m₁, h1, h2, h3⟩ := build_ok l h n (0 :: p) m
    obtain ⟨m₂, g1, g2, g3⟩ := build_ok r h n (1 :: p) m₁
    have h2' : Placed Z s m₂ h n (0 :: p) l := placed_congr Z s l h n (0 :: p) (fun l hl =>
      g3 l fun hl' => absurd (within_disjoint hl hl') (by decide)) h2
    have hl := force_placed Z s l h n (0 :: p) h2'
    have hr := force_placed Z s r h n (1 :: p) g2
    have hb : binRes Z m₂ ⟨h, n, 0 :: p⟩ ⟨h, n, 1 :: p⟩ op (shape Z s h n (0 :: p) l).res
        (shape Z s h n (1 :: p) r).res = some (binSlot Z ⟨h, n, 0 :: p⟩ ⟨h, n, 1 :: p⟩ op
          (shape Z s h n (0 :: p) l).res (shape Z s h n (1 :: p) r).res
          (shape Z s h n (0 :: p) l).den (shape Z s h n (1 :: p) r).den) := by
      unfold binRes binSlot
      rw [hl, hr]
      cases Z.bin op <;> rfl
    refine ⟨m₂.put ⟨h, n, p⟩ (shape Z s h n p (.bin a op l r)).res, ?_, ⟨put_self _ _ _, ?_, ?_⟩, ?_⟩
    · unfold LTree.build
      rw [h1]
      simp only
      rw [g1]
      simp only
      rw [hb]
      rfl
    · refine placed_congr Z s l h n (0 :: p) (fun l hl => put_other _ _ ?_) h2'
      rintro rfl
      exact not_within_child hl
    · refine placed_congr Z s r h n (1 :: p) (fun l hl => put_other _ _ ?_) g2
      rintro rfl
      exact not_within_child hl
    · intro l hl
      rw [put_other, g3 l fun h => hl h.up, h3 l fun h => hl h.up]
      rintro rfl
      exact hl within_self
  | _, .proxy a e, h, n, p, m => by
    obtain ⟨m₁, h1, h2, h3⟩ := build_ok e true n (2 :: p) m
    have hf := force_placed Z s e true n (2 :: p) h2
    refine ⟨m₁.put ⟨h, n, p⟩ (shape Z s h n p (.proxy a e)).res, ?_, ⟨put_self _ _ _, ?_⟩, ?_⟩
    · unfold LTree.build
      rw [h1]
      simp only
      rw [hf]
      rfl
    · refine placed_congr Z s e true n (2 :: p) (fun l hl => put_other _ _ ?_) h2
      rintro rfl
      exact not_within_child hl
    · intro l hl
      rw [put_other, h3 l fun h => hl h.up]
      rintro rfl
      exact hl within_self

theorem observe_placed {m : EMem L} : {τ : L.Ty} → (e : Expr L τ) → (h : Bool) → (n : ℕ) →
    (p : List ℕ) → Placed Z s m h n p e → (shape Z s h n p e).observe m = some (ETree.mk s e)
  | _, .leaf _ _ _, _, _, _, _ => rfl
  | _, .un a op e, h, n, p, hp => by
    have h1 := observe_placed e h n (0 :: p) hp.2
    have h2 := force_placed Z s (.un a op e) h n p hp
    have h3 : (LTree.observe m (shape Z s h n p (.un a op e))) =
      (match (shape Z s h n (0 :: p) e).observe m, (shape Z s h n p (.un a op e)).res.force m with
        | some e, some v => some (.un a op e v)
        | _, _ => none) := rfl
    rw [h3, h1, h2, shape_den]
    rfl
  | _, .bin a op l r, h, n, p, hp => by
    have h1 := observe_placed l h n (0 :: p) hp.2.1
    have h1' := observe_placed r h n (1 :: p) hp.2.2
    have h2 := force_placed Z s (.bin a op l r) h n p hp
    have h3 : (LTree.observe m (shape Z s h n p (.bin a op l r))) =
      (match (shape Z s h n (0 :: p) l).observe m, (shape Z s h n (1 :: p) r).observe m,
          (shape Z s h n p (.bin a op l r)).res.force m with
        | some l, some r, some v => some (.bin a op l r v)
        | _, _, _ => none) := rfl
    rw [h3, h1, h1', h2, shape_den]
    rfl
  | _, .proxy a e, h, n, p, hp => by
    have h1 := observe_placed e true n (2 :: p) hp.2
    have h3 : (LTree.observe m (shape Z s h n p (.proxy a e))) =
      (match (shape Z s true n (2 :: p) e).observe m with
        | some e => some (.proxy a e)
        | none => none) := rfl
    rw [h3, h1]
    rfl

/-! ## After the automatic object is gone -/

theorem unevaluated_iff : {τ : L.Ty} → (e : Expr L τ) → (e.evalTypeLazy Z = true ↔ Unevaluated Z e)
  | _, .leaf _ _ _ => ⟨fun h => by simp [Expr.evalTypeLazy] at h, fun h => by cases h⟩
  | _, .un a op e => by
    have ih := unevaluated_iff e
    unfold Expr.evalTypeLazy
    cases hz : Z.un op with
    | eager => exact ⟨fun h => by simp at h, fun h => by cases h <;> simp_all⟩
    | nest => exact ⟨fun _ => .nest hz, fun _ => rfl⟩
    | pass =>
      refine ⟨fun h => .pass hz (ih.1 h), fun h => ?_⟩
      cases h with
      | nest h => simp_all
      | pass _ h => exact ih.2 h
  | _, .bin a op l r => by
    unfold Expr.evalTypeLazy
    cases hz : Z.bin op with
    | eager => exact ⟨fun h => by simp at h, fun h => by cases h <;> simp_all⟩
    | left => exact ⟨fun _ => .left hz, fun _ => rfl⟩
    | right => exact ⟨fun _ => .right hz, fun _ => rfl⟩
  | _, .proxy _ _ => ⟨fun h => by simp [Expr.evalTypeLazy] at h, fun h => by cases h⟩

/-- Whether the result is an Eigen expression. -/
def Slot.isExpr {τ : L.Ty} : Slot L τ → Bool
  | .plain _ => false
  | .expr _ => true

theorem shape_isExpr : {τ : L.Ty} → (e : Expr L τ) → (h : Bool) → (n : ℕ) → (p : List ℕ) →
    (shape Z s h n p e).res.isExpr = e.evalTypeLazy Z
  | _, .leaf _ _ _, _, _, _ => rfl
  | _, .un a op e, h, n, p => by
    have ih := shape_isExpr e h n (0 :: p)
    show (unSlot Z _ op _ _).isExpr = _
    unfold unSlot Expr.evalTypeLazy
    revert ih
    generalize (shape Z s h n (0 :: p) e).res = x
    intro ih
    cases Z.un op with
    | eager => rfl
    | nest => rfl
    | pass => cases x <;> exact ih
  | _, .bin a op l r, h, n, p => by
    show (binSlot Z _ _ op _ _ _ _).isExpr = _
    unfold binSlot Expr.evalTypeLazy
    cases Z.bin op <;> rfl
  | _, .proxy _ _, _, _, _ => rfl

theorem shape_plain : {τ : L.Ty} → (e : Expr L τ) → (h : Bool) → (n : ℕ) → (p : List ℕ) →
    e.evalTypeLazy Z = false → (shape Z s h n p e).res = .plain (shape Z s h n p e).den
  | _, .leaf _ _ _, _, _, _, _ => rfl
  | _, .un a op e, h, n, p, hl => by
    have ih := shape_plain e h n (0 :: p)
    unfold Expr.evalTypeLazy at hl
    show unSlot Z _ op _ _ = .plain (Option.bind _ _)
    unfold unSlot
    cases hz : Z.un op with
    | eager => rfl
    | nest => rw [hz] at hl; simp at hl
    | pass => rw [hz] at hl; rw [ih hl]
  | _, .bin a op l r, h, n, p, hl => by
    unfold Expr.evalTypeLazy at hl
    show binSlot Z _ _ op _ _ _ _ = .plain (Option.bind _ _)
    unfold binSlot
    cases hz : Z.bin op <;> rw [hz] at hl <;> first | rfl | simp at hl
  | _, .proxy _ _, _, _, _, _ => rfl

/-- The automatic object `n` is gone. -/
def Gone (m : EMem L) (n : ℕ) : Prop := ∀ p, m ⟨false, n, p⟩ = none

theorem nested_gone {m : EMem L} {n : ℕ} (hg : Gone m n) {τ : L.Ty} (x : Slot L τ) (p : List ℕ)
    (h : x.isExpr = true → x.force m = none) : (x.nested ⟨false, n, p⟩).force m = none := by
  cases x with
  | plain v =>
    show (Lz.ref _ : Lz L τ).force m = none
    unfold Lz.force
    rw [hg p]
  | expr z => exact h rfl

theorem force_gone {m : EMem L} {n : ℕ} (hg : Gone m n) : {τ : L.Ty} → (e : Expr L τ) →
    (p : List ℕ) → e.evalTypeLazy Z = true → (shape Z s false n p e).res.force m = none
  | _, .leaf _ _ _, _, h => by simp [Expr.evalTypeLazy] at h
  | _, .un a op e, p, hl => by
    have ih := force_gone hg e (0 :: p)
    have hx := shape_isExpr Z s e false n (0 :: p)
    unfold Expr.evalTypeLazy at hl
    show (unSlot Z _ op _ _).force m = none
    unfold unSlot
    revert ih hx
    generalize (shape Z s false n (0 :: p) e).res = x
    intro ih hx
    cases hz : Z.un op with
    | eager => rw [hz] at hl; simp at hl
    | nest =>
      show (match (x.nested _).force m with | some v => _ | none => _) = _
      rw [nested_gone hg x (0 :: p) fun h => ih (hx ▸ h)]
    | pass =>
      rw [hz] at hl
      cases x with
      | plain v => rw [← hx] at hl; simp [Slot.isExpr] at hl
      | expr z =>
        show (match z.force m with | some v => _ | none => _) = _
        have : z.force m = none := ih hl
        rw [this]
  | _, .bin a op l r, p, hl => by
    have ihl := force_gone hg l (0 :: p)
    have ihr := force_gone hg r (1 :: p)
    have hxl := shape_isExpr Z s l false n (0 :: p)
    have hxr := shape_isExpr Z s r false n (1 :: p)
    unfold Expr.evalTypeLazy at hl
    show (binSlot Z _ _ op _ _ _ _).force m = none
    unfold binSlot
    cases hz : Z.bin op with
    | eager => rw [hz] at hl; simp at hl
    | left =>
      simp only [Slot.force, Lz.force]
      rw [nested_gone hg _ (0 :: p) fun h => ihl (hxl ▸ h)]
    | right =>
      simp only [Slot.force, Lz.force]
      rw [nested_gone hg _ (1 :: p) fun h => ihr (hxr ▸ h)]
  | _, .proxy _ _, _, h => by simp [Expr.evalTypeLazy] at h

/-- An argument after the object is gone. -/
theorem argument_gone {m : EMem L} {n : ℕ} (hg : Gone m n) (b : Bool) {τ : L.Ty} (e : Expr L τ)
    (p : List ℕ) : argument m b (shape Z s false n p e).res (shape Z s false n p e).den =
      if b = true ∧ e.evalTypeLazy Z = true then none else some (ETree.mk s e).val := by
  unfold argument
  rw [← shape_den Z s e false n p]
  cases b with
  | false => simp
  | true =>
    cases h : e.evalTypeLazy Z with
    | true => simp [force_gone Z s hg e p h]
    | false => simp [shape_plain Z s e false n p h, Slot.force]

theorem argument_placed {m : EMem L} (b : Bool) {τ : L.Ty} (e : Expr L τ) (h : Bool) (n : ℕ)
    (p : List ℕ) (hp : Placed Z s m h n p e) :
    argument m b (shape Z s h n p e).res (shape Z s h n p e).den = some (ETree.mk s e).val := by
  unfold argument
  rw [force_placed Z s e h n p hp, shape_den]
  simp

/-! ## Jacobians -/

theorem shape_hasType (t : Target L) {τ : L.Ty} (e : Expr L τ) (h : Bool) (n : ℕ) (p : List ℕ) :
    (shape Z s h n p e).erase.hasType t = (ETree.mk s e).hasType t := by
  rw [(shape_erase Z s e h n p).1]

/-- The Jacobian of a unary node whose results are intact. -/
theorem unJac_placed {m : EMem L} {α β : L.Ty} (a : ℕ) (op : L.Un α β) (e : Expr L α) (h : Bool)
    (n : ℕ) (p : List ℕ) (hp : Placed Z s m h n p (.un a op e)) :
    unJac Z m op (shape Z s h n (0 :: p) e) (shape Z s h n p (.un a op e)).res
      (shape Z s h n p (.un a op e)).den =
      some (nodeJac op (ETree.mk s (.un a op e)).val (ETree.mk s e).val) := by
  unfold unJac
  rw [argument_placed Z s _ (.un a op e) h n p hp, argument_placed Z s _ e h n (0 :: p) hp.2]

theorem binJacL_placed {m : EMem L} {α β γ : L.Ty} (a : ℕ) (op : L.Bin α β γ) (l : Expr L α)
    (r : Expr L β) (h : Bool) (n : ℕ) (p : List ℕ) (hp : Placed Z s m h n p (.bin a op l r)) :
    binJacL Z m op (shape Z s h n (0 :: p) l) (shape Z s h n (1 :: p) r)
      (shape Z s h n p (.bin a op l r)).res (shape Z s h n p (.bin a op l r)).den =
      some (nodeJacL op (ETree.mk s (.bin a op l r)).val (ETree.mk s l).val (ETree.mk s r).val) := by
  unfold binJacL
  rw [argument_placed Z s _ (.bin a op l r) h n p hp, argument_placed Z s _ l h n (0 :: p) hp.2.1,
    argument_placed Z s _ r h n (1 :: p) hp.2.2]

theorem binJacR_placed {m : EMem L} {α β γ : L.Ty} (a : ℕ) (op : L.Bin α β γ) (l : Expr L α)
    (r : Expr L β) (h : Bool) (n : ℕ) (p : List ℕ) (hp : Placed Z s m h n p (.bin a op l r)) :
    binJacR Z m op (shape Z s h n (0 :: p) l) (shape Z s h n (1 :: p) r)
      (shape Z s h n p (.bin a op l r)).res (shape Z s h n p (.bin a op l r)).den =
      some (nodeJacR op (ETree.mk s (.bin a op l r)).val (ETree.mk s l).val (ETree.mk s r).val) := by
  unfold binJacR
  rw [argument_placed Z s _ (.bin a op l r) h n p hp, argument_placed Z s _ l h n (0 :: p) hp.2.1,
    argument_placed Z s _ r h n (1 :: p) hp.2.2]

theorem dyn_un_eq (m : EMem L) (t : ℕ) (σ : L.Ty) {α β : L.Ty} (a : ℕ) (op : L.Un α β) (e : Expr L α)
    (h : Bool) (n : ℕ) (p : List ℕ) : (shape Z s h n p (.un a op e)).dyn Z m t σ =
      if a = t then some (if h : β = σ then some (idBlock h) else some none)
      else chainTerm (unJac Z m op (shape Z s h n (0 :: p) e)
        (shape Z s h n p (.un a op e)).res (shape Z s h n p (.un a op e)).den)
        ((shape Z s h n (0 :: p) e).dyn Z m t σ) := rfl

theorem dyn_bin_eq (m : EMem L) (t : ℕ) (σ : L.Ty) {α β γ : L.Ty} (a : ℕ) (op : L.Bin α β γ)
    (l : Expr L α) (r : Expr L β) (h : Bool) (n : ℕ) (p : List ℕ) :
    (shape Z s h n p (.bin a op l r)).dyn Z m t σ =
      if a = t then some (if h : γ = σ then some (idBlock h) else some none)
      else sumTerms (chainTerm (binJacL Z m op (shape Z s h n (0 :: p) l) (shape Z s h n (1 :: p) r)
          (shape Z s h n p (.bin a op l r)).res (shape Z s h n p (.bin a op l r)).den)
          ((shape Z s h n (0 :: p) l).dyn Z m t σ))
        (chainTerm (binJacR Z m op (shape Z s h n (0 :: p) l) (shape Z s h n (1 :: p) r)
          (shape Z s h n p (.bin a op l r)).res (shape Z s h n p (.bin a op l r)).den)
          ((shape Z s h n (1 :: p) r).dyn Z m t σ)) := rfl

theorem fwd_un_eq (m : EMem L) (t : Target L) {α β : L.Ty} (a : ℕ) (op : L.Un α β) (e : Expr L α)
    (h : Bool) (n : ℕ) (p : List ℕ) : (shape Z s h n p (.un a op e)).fwd Z m t =
      chainTerm (unJac Z m op (shape Z s h n (0 :: p) e)
        (shape Z s h n p (.un a op e)).res (shape Z s h n p (.un a op e)).den)
        ((shape Z s h n (0 :: p) e).fwd Z m t) := rfl

theorem fwd_bin_eq (m : EMem L) (t : Target L) {α β γ : L.Ty} (a : ℕ) (op : L.Bin α β γ)
    (l : Expr L α) (r : Expr L β) (h : Bool) (n : ℕ) (p : List ℕ) :
    (shape Z s h n p (.bin a op l r)).fwd Z m t =
      if (ETree.mk s l).hasType t && (ETree.mk s r).hasType t then
        sumTerms (chainTerm (binJacL Z m op (shape Z s h n (0 :: p) l) (shape Z s h n (1 :: p) r)
          (shape Z s h n p (.bin a op l r)).res (shape Z s h n p (.bin a op l r)).den)
          ((shape Z s h n (0 :: p) l).fwd Z m t))
        (chainTerm (binJacR Z m op (shape Z s h n (0 :: p) l) (shape Z s h n (1 :: p) r)
          (shape Z s h n p (.bin a op l r)).res (shape Z s h n p (.bin a op l r)).den)
          ((shape Z s h n (1 :: p) r).fwd Z m t))
      else if (ETree.mk s l).hasType t then
        chainTerm (binJacL Z m op (shape Z s h n (0 :: p) l) (shape Z s h n (1 :: p) r)
          (shape Z s h n p (.bin a op l r)).res (shape Z s h n p (.bin a op l r)).den)
          ((shape Z s h n (0 :: p) l).fwd Z m t)
      else if (ETree.mk s r).hasType t then
        chainTerm (binJacR Z m op (shape Z s h n (0 :: p) l) (shape Z s h n (1 :: p) r)
          (shape Z s h n p (.bin a op l r)).res (shape Z s h n p (.bin a op l r)).den)
          ((shape Z s h n (1 :: p) r).fwd Z m t)
      else some none := by
  rw [← shape_hasType Z s t l h n (0 :: p), ← shape_hasType Z s t r h n (1 :: p)]
  rfl

theorem dyn_placed {m : EMem L} (t : ℕ) (σ : L.Ty) : {τ : L.Ty} → (e : Expr L τ) → (h : Bool) →
    (n : ℕ) → (p : List ℕ) → Placed Z s m h n p e →
    (shape Z s h n p e).dyn Z m t σ = some ((ETree.mk s e).dyn t σ)
  | _, .leaf _ _ _, _, _, _, _ => rfl
  | β, .un a op e, h, n, p, hp => by
    have ih := dyn_placed t σ e h n (0 :: p) hp.2
    have hj := unJac_placed Z s a op e h n p hp
    rw [dyn_un_eq, ih, hj]
    show _ = some (if a = t then _ else match (ETree.mk s e).dyn t σ with | some J => _ | none => _)
    by_cases ha : a = t
    · rw [if_pos ha, if_pos ha]
    · rw [if_neg ha, if_neg ha]
      cases (ETree.mk s e).dyn t σ <;> rfl
  | γ, .bin a op l r, h, n, p, hp => by
    have ihl := dyn_placed t σ l h n (0 :: p) hp.2.1
    have ihr := dyn_placed t σ r h n (1 :: p) hp.2.2
    have hj := binJacL_placed Z s a op l r h n p hp
    have hj' := binJacR_placed Z s a op l r h n p hp
    rw [dyn_bin_eq, ihl, ihr, hj, hj']
    show _ = some (if a = t then _ else match (ETree.mk s l).dyn t σ, (ETree.mk s r).dyn t σ with
      | some J, some K => _ | some J, none => _ | none, some K => _ | none, none => _)
    by_cases ha : a = t
    · rw [if_pos ha, if_pos ha]
    · rw [if_neg ha, if_neg ha]
      cases (ETree.mk s l).dyn t σ <;> cases (ETree.mk s r).dyn t σ <;> rfl
  | τ, .proxy a e, h, n, p, hp => by
    have ih := dyn_placed t σ e true n (2 :: p) hp.2
    unfold shape LTree.dyn
    rw [ih]
    show _ = some (if a = t then _ else (ETree.mk s e).dyn t σ)
    by_cases ha : a = t
    · rw [if_pos ha, if_pos ha]
    · rw [if_neg ha, if_neg ha]

theorem fwd_placed {m : EMem L} (t : Target L) : {τ : L.Ty} → (e : Expr L τ) → (h : Bool) →
    (n : ℕ) → (p : List ℕ) → Placed Z s m h n p e →
    (shape Z s h n p e).fwd Z m t = some ((ETree.mk s e).fwd t)
  | _, .leaf _ _ _, _, _, _, _ => rfl
  | β, .un a op e, h, n, p, hp => by
    have ih := fwd_placed t e h n (0 :: p) hp.2
    have hj := unJac_placed Z s a op e h n p hp
    rw [fwd_un_eq, ih, hj]
    show _ = some (match (ETree.mk s e).fwd t with | some J => _ | none => _)
    cases (ETree.mk s e).fwd t <;> rfl
  | γ, .bin a op l r, h, n, p, hp => by
    have ihl := fwd_placed t l h n (0 :: p) hp.2.1
    have ihr := fwd_placed t r h n (1 :: p) hp.2.2
    have hj := binJacL_placed Z s a op l r h n p hp
    have hj' := binJacR_placed Z s a op l r h n p hp
    rw [fwd_bin_eq, ihl, ihr, hj, hj']
    show _ = some (if (ETree.mk s l).hasType t && (ETree.mk s r).hasType t then _
      else if (ETree.mk s l).hasType t then _ else if (ETree.mk s r).hasType t then _ else none)
    cases (ETree.mk s l).hasType t <;> cases (ETree.mk s r).hasType t <;>
      cases (ETree.mk s l).fwd t <;> cases (ETree.mk s r).fwd t <;> rfl
  | τ, .proxy a e, h, n, p, hp => by
    have ih := dyn_placed Z s (m := m) t.addr t.ty e true n (2 :: p) hp.2
    unfold shape LTree.fwd
    rw [ih]
    show _ = some (if a = t.addr then _ else (ETree.mk s e).dyn t.addr t.ty)
    by_cases ha : a = t.addr
    · rw [if_pos ha, if_pos ha]
    · rw [if_neg ha, if_neg ha]

/-! After the object is gone. -/

/-- The Jacobian of a unary node reads an unevaluated result. -/
def unBad {α β : L.Ty} (a : ℕ) (op : L.Un α β) (e : Expr L α) : Prop :=
  ((Z.readU op).1 = true ∧ Unevaluated Z (.un a op e)) ∨ ((Z.readU op).2 = true ∧ Unevaluated Z e)

/-- The left Jacobian of a binary node reads an unevaluated result. -/
def leftBad {α β γ : L.Ty} (a : ℕ) (op : L.Bin α β γ) (l : Expr L α) (r : Expr L β) : Prop :=
  ((Z.readL op).1 = true ∧ Unevaluated Z (.bin a op l r)) ∨
    ((Z.readL op).2.1 = true ∧ Unevaluated Z l) ∨ ((Z.readL op).2.2 = true ∧ Unevaluated Z r)

/-- The right Jacobian of a binary node reads an unevaluated result. -/
def rightBad {α β γ : L.Ty} (a : ℕ) (op : L.Bin α β γ) (l : Expr L α) (r : Expr L β) : Prop :=
  ((Z.readR op).1 = true ∧ Unevaluated Z (.bin a op l r)) ∨
    ((Z.readR op).2.1 = true ∧ Unevaluated Z l) ∨ ((Z.readR op).2.2 = true ∧ Unevaluated Z r)

theorem dangles_un {t : Target L} {α β : L.Ty} {a : ℕ} {op : L.Un α β} {e : Expr L α} :
    Dangles Z t (.un a op e) ↔ Dangles Z t e ∨ (t ∈ objects e ∧ unBad Z a op e) := by
  constructor
  · intro h
    cases h with
    | unResult ht hr hu => exact .inr ⟨ht, .inl ⟨hr, hu⟩⟩
    | unOperand ht hr hu => exact .inr ⟨ht, .inr ⟨hr, hu⟩⟩
    | un h => exact .inl h
  · rintro (h | ⟨ht, ⟨hr, hu⟩ | ⟨hr, hu⟩⟩)
    · exact .un h
    · exact .unResult ht hr hu
    · exact .unOperand ht hr hu

theorem dangles_bin {t : Target L} {α β γ : L.Ty} {a : ℕ} {op : L.Bin α β γ} {l : Expr L α}
    {r : Expr L β} : Dangles Z t (.bin a op l r) ↔ (Dangles Z t l ∨ (t ∈ objects l ∧ leftBad Z a op l r))
      ∨ (Dangles Z t r ∨ (t ∈ objects r ∧ rightBad Z a op l r)) := by
  constructor
  · intro h
    cases h with
    | leftResult ht hr hu => exact .inl (.inr ⟨ht, .inl ⟨hr, hu⟩⟩)
    | leftLeft ht hr hu => exact .inl (.inr ⟨ht, .inr (.inl ⟨hr, hu⟩)⟩)
    | leftRight ht hr hu => exact .inl (.inr ⟨ht, .inr (.inr ⟨hr, hu⟩)⟩)
    | rightResult ht hr hu => exact .inr (.inr ⟨ht, .inl ⟨hr, hu⟩⟩)
    | rightLeft ht hr hu => exact .inr (.inr ⟨ht, .inr (.inl ⟨hr, hu⟩)⟩)
    | rightRight ht hr hu => exact .inr (.inr ⟨ht, .inr (.inr ⟨hr, hu⟩)⟩)
    | left h => exact .inl (.inl h)
    | right h => exact .inr (.inl h)
  · rintro ((h | ⟨ht, ⟨hr, hu⟩ | ⟨hr, hu⟩ | ⟨hr, hu⟩⟩) | (h | ⟨ht, ⟨hr, hu⟩ | ⟨hr, hu⟩ | ⟨hr, hu⟩⟩))
    · exact .left h
    · exact .leftResult ht hr hu
    · exact .leftLeft ht hr hu
    · exact .leftRight ht hr hu
    · exact .right h
    · exact .rightResult ht hr hu
    · exact .rightLeft ht hr hu
    · exact .rightRight ht hr hu

theorem dangles_occurs {t : Target L} {τ : L.Ty} {e : Expr L τ} (h : Dangles Z t e) :
    t ∈ objects e := by
  induction h <;> simp_all [objects]

open Classical in
theorem unJac_gone {m : EMem L} {n : ℕ} (hg : Gone m n) {α β : L.Ty} (a : ℕ) (op : L.Un α β)
    (e : Expr L α) (p : List ℕ) :
    unJac Z m op (shape Z s false n (0 :: p) e) (shape Z s false n p (.un a op e)).res
      (shape Z s false n p (.un a op e)).den =
      if unBad Z a op e then none else
        some (nodeJac op (ETree.mk s (.un a op e)).val (ETree.mk s e).val) := by
  unfold unJac unBad
  rw [argument_gone Z s hg _ (.un a op e) p, argument_gone Z s hg _ e (0 :: p)]
  simp only [unevaluated_iff]
  by_cases h1 : (Z.readU op).1 = true ∧ Unevaluated Z (.un a op e) <;>
    by_cases h2 : (Z.readU op).2 = true ∧ Unevaluated Z e <;>
    simp only [h1, h2, and_self, if_true, if_false, or_true, true_or, or_self]

open Classical in
theorem binJacL_gone {m : EMem L} {n : ℕ} (hg : Gone m n) {α β γ : L.Ty} (a : ℕ) (op : L.Bin α β γ)
    (l : Expr L α) (r : Expr L β) (p : List ℕ) :
    binJacL Z m op (shape Z s false n (0 :: p) l) (shape Z s false n (1 :: p) r)
      (shape Z s false n p (.bin a op l r)).res (shape Z s false n p (.bin a op l r)).den =
      if leftBad Z a op l r then none else
        some (nodeJacL op (ETree.mk s (.bin a op l r)).val (ETree.mk s l).val (ETree.mk s r).val) := by
  unfold binJacL leftBad
  rw [argument_gone Z s hg _ (.bin a op l r) p, argument_gone Z s hg _ l (0 :: p),
    argument_gone Z s hg _ r (1 :: p)]
  simp only [unevaluated_iff]
  by_cases h1 : (Z.readL op).1 = true ∧ Unevaluated Z (.bin a op l r) <;>
    by_cases h2 : (Z.readL op).2.1 = true ∧ Unevaluated Z l <;>
    by_cases h3 : (Z.readL op).2.2 = true ∧ Unevaluated Z r <;>
    simp only [h1, h2, h3, and_self, if_true, if_false, or_true, true_or, or_self]

open Classical in
theorem binJacR_gone {m : EMem L} {n : ℕ} (hg : Gone m n) {α β γ : L.Ty} (a : ℕ) (op : L.Bin α β γ)
    (l : Expr L α) (r : Expr L β) (p : List ℕ) :
    binJacR Z m op (shape Z s false n (0 :: p) l) (shape Z s false n (1 :: p) r)
      (shape Z s false n p (.bin a op l r)).res (shape Z s false n p (.bin a op l r)).den =
      if rightBad Z a op l r then none else
        some (nodeJacR op (ETree.mk s (.bin a op l r)).val (ETree.mk s l).val (ETree.mk s r).val) := by
  unfold binJacR rightBad
  rw [argument_gone Z s hg _ (.bin a op l r) p, argument_gone Z s hg _ l (0 :: p),
    argument_gone Z s hg _ r (1 :: p)]
  simp only [unevaluated_iff]
  by_cases h1 : (Z.readR op).1 = true ∧ Unevaluated Z (.bin a op l r) <;>
    by_cases h2 : (Z.readR op).2.1 = true ∧ Unevaluated Z l <;>
    by_cases h3 : (Z.readR op).2.2 = true ∧ Unevaluated Z r <;>
    simp only [h1, h2, h3, and_self, if_true, if_false, or_true, true_or, or_self]

open Classical in
/-- A chain-rule term: undefined if the operand's Jacobian is undefined, or the operand depends on
the target and the node's Jacobian is undefined. -/
theorem term_cases {m n p : Type} [Fintype n] (bad dang occ : Prop)
    (J : OMat m n) (K : Option (OMat n p)) (hK : K = none ↔ ¬ occ) :
    chainTerm (if bad then none else some J) (if dang then none else some K) =
      if dang ∨ (occ ∧ bad) then none else some (K.map (OMat.mul J)) := by
  by_cases h1 : dang
  · simp [h1, chainTerm]
  · by_cases ho : occ
    · cases K with
      | none => exact absurd ho (hK.1 rfl)
      | some K => by_cases hb : bad <;> simp [h1, ho, hb, chainTerm]
    · obtain rfl := hK.2 ho
      simp [h1, ho, chainTerm]

theorem block_none_iff (t : Target L) {τ : L.Ty} (e : Expr L τ) :
    blockOf (occurrences s t e) = none ↔ ¬ t ∈ objects e := by
  rw [blockOf_none_iff, occ_nil_iff]

/-- Both terms of a binary node. -/
theorem sum_cases {m n p q : Type} [Fintype n] [Fintype p] (P Q : Prop) [Decidable P] [Decidable Q]
    (A : OMat m n) (B : OMat m p)
    (x : Option (OMat n q)) (y : Option (OMat p q)) :
    sumTerms (if P then none else some (x.map (OMat.mul A))) (if Q then none else some (y.map (OMat.mul B)))
      = if P ∨ Q then none else some (addBlocks A B x y) := by
  by_cases hp : P <;> by_cases hq : Q <;> cases x <;> cases y <;>
    simp [hp, hq, sumTerms, addBlocks]

open Classical in
/-- The dynamic Jacobian after the object is gone. -/
theorem dyn_gone {m : EMem L} {n : ℕ} (hg : Gone m n) (t : Target L) : {τ : L.Ty} → (e : Expr L τ) →
    (p : List ℕ) → HeapPlaced Z s m n p e → Distinguished t e →
    (shape Z s false n p e).dyn Z m t.addr t.ty =
      if Dangles Z t e then none else some (blockOf (occurrences s t e))
  | τ, .leaf a c _, p, _, hd => by
    rw [if_neg (fun h => by cases h), ← dyn_eq s t _ hd]
    rfl
  | β, .un a op e, p, hp, hd => by
    obtain ⟨ha, he⟩ := distinguished_un hd
    rw [dyn_un_eq, if_neg ha, dyn_gone hg t e (0 :: p) hp he, unJac_gone Z s hg,
      term_cases _ _ _ _ _ (block_none_iff s t e), dangles_un, nodeJac_eq s op e a]
    congr 2
    exact blockOf_map _ _
  | γ, .bin a op l r, p, hp, hd => by
    obtain ⟨ha, hl, hr⟩ := distinguished_bin hd
    rw [dyn_bin_eq, if_neg ha, dyn_gone hg t l (0 :: p) hp.1 hl, dyn_gone hg t r (1 :: p) hp.2 hr,
      binJacL_gone Z s hg, binJacR_gone Z s hg,
      term_cases _ _ _ _ _ (block_none_iff s t l), term_cases _ _ _ _ _ (block_none_iff s t r),
      sum_cases, dangles_bin, nodeJacL_eq s op l r a, nodeJacR_eq s op l r a, blockOf_bin]
    congr 1
  | τ, .proxy a e, p, hp, hd => by
    obtain ⟨ha, he⟩ := distinguished_proxy hd
    rw [if_neg (fun h => by cases h)]
    show (if a = t.addr then _ else (shape Z s true n (2 :: p) e).dyn Z m t.addr t.ty) = _
    rw [if_neg ha, dyn_placed Z s t.addr t.ty e true n (2 :: p) hp, dyn_eq s t e he]
    rfl

open Classical in
/-- The static Jacobian after the object is gone. -/
theorem fwd_gone {m : EMem L} {n : ℕ} (hg : Gone m n) (t : Target L) : {τ : L.Ty} → (e : Expr L τ) →
    (p : List ℕ) → e.noProxy → (shape Z s false n p e).fwd Z m t =
      if Dangles Z t e then none else some (blockOf (occurrences s t e))
  | τ, .leaf a c _, p, hn => by
    rw [if_neg (fun h => by cases h), ← fwd_eq s t _ hn]
    rfl
  | β, .un a op e, p, hn => by
    rw [fwd_un_eq, fwd_gone hg t e (0 :: p) hn, unJac_gone Z s hg,
      term_cases _ _ _ _ _ (block_none_iff s t e), dangles_un, nodeJac_eq s op e a]
    congr 2
    exact blockOf_map _ _
  | γ, .bin a op l r, p, hn => by
    simp only [Expr.noProxy, Bool.and_eq_true] at hn
    have occL := fun h : ¬ l.hasType t = true => occ_of_not_hasType s t l hn.1 (by simpa using h)
    have occR := fun h : ¬ r.hasType t = true => occ_of_not_hasType s t r hn.2 (by simpa using h)
    have hb : blockOf (occurrences s t (.bin a op l r)) =
        addBlocks (slopeL s op l r) (slopeR s op l r) (blockOf (occurrences s t l))
          (blockOf (occurrences s t r)) := (blockOf_bin _ _ _ _).symm
    rw [fwd_bin_eq, mk_hasType, mk_hasType, fwd_gone hg t l (0 :: p) hn.1,
      fwd_gone hg t r (1 :: p) hn.2, binJacL_gone Z s hg, binJacR_gone Z s hg,
      term_cases _ _ _ _ _ (block_none_iff s t l), term_cases _ _ _ _ _ (block_none_iff s t r),
      sum_cases, nodeJacL_eq s op l r a, nodeJacR_eq s op l r a, hb]
    have nl : ¬ l.hasType t = true → ¬ t ∈ objects l := fun h => (occ_nil_iff s t l).1 (occL h)
    have nr : ¬ r.hasType t = true → ¬ t ∈ objects r := fun h => (occ_nil_iff s t r).1 (occR h)
    have nl' : ¬ l.hasType t = true → ¬ Dangles Z t l := fun h h' => nl h (dangles_occurs Z h')
    have nr' : ¬ r.hasType t = true → ¬ Dangles Z t r := fun h h' => nr h (dangles_occurs Z h')
    by_cases tl : l.hasType t = true <;> by_cases tr : r.hasType t = true
    · simp only [tl, tr, Bool.and_self, if_true, dangles_bin]
      congr 1
    · rw [if_neg (by simp [tr]), if_pos tl, dangles_bin, occR tr]
      simp only [nr tr, nr' tr, false_and, or_false]
      congr 2
      cases blockOf (occurrences s t l) <;> rfl
    · rw [if_neg (by simp [tl]), if_neg tl, if_pos tr, dangles_bin, occL tl]
      simp only [nl tl, nl' tl, false_and, false_or, or_false]
      congr 2
      cases blockOf (occurrences s t r) <;> rfl
    · rw [if_neg (by simp [tl]), if_neg tl, if_neg tr, dangles_bin, occL tl, occR tr]
      simp only [nl tl, nl' tl, nr tr, nr' tr, false_and, or_false, if_false]
      rfl
  | _, .proxy _ _, _, hn => by simp [Expr.noProxy] at hn

end WG
