import Verif.Spec.DynCache

/-! # Cached evaluators are rebuilt by every evaluation -/

namespace WG

variable {L : Lib} {s : Store L} {B : Bodies L}

open Spec

/-- The evaluator a tree gets when built afresh. -/
def ctree (s : Store L) : {τ : L.Ty} → Expr L τ → CTree L τ
  | _, .leaf a c τ => .leaf a c τ (s a τ)
  | _, .un a op e => .un a op (ctree s e) ((ctree s e).val.bind (L.evalU op))
  | _, .bin a op l r => .bin a op (ctree s l) (ctree s r)
      ((ctree s l).val.bind fun v => (ctree s r).val.bind fun w => L.evalB op v w)
  | _, .proxy n e => .proxy n _ (ctree s e).val

theorem ctree_val : {τ : L.Ty} → (E : Expr L τ) → (ctree s E).val = (ETree.mk s E).val
  | _, .leaf _ _ _ => rfl
  | _, .un _ op e => by
    show (ctree s e).val.bind _ = (ETree.mk s e).val.bind _
    rw [ctree_val e]
  | _, .bin _ op l r => by
    show (ctree s l).val.bind _ = (ETree.mk s l).val.bind _
    rw [ctree_val l, ctree_val r]
  | _, .proxy _ e => ctree_val e

theorem ctree_hasType (t : Target L) : {τ : L.Ty} → (E : Expr L τ) →
    (ctree s E).hasType t = (ETree.mk s E).hasType t
  | _, .leaf _ _ _ => rfl
  | _, .un _ _ e => ctree_hasType t e
  | _, .bin _ _ l r => by
    show ((ctree s l).hasType t || _) = ((ETree.mk s l).hasType t || _)
    rw [ctree_hasType t l, ctree_hasType t r]
  | _, .proxy _ _ => rfl

/-- Every node met by the tree holds a fresh evaluator. -/
def FreshOn (s : Store L) (C : Caches L) : {τ : L.Ty} → Expr L τ → Prop
  | _, .leaf _ _ _ => True
  | _, .un _ _ e => FreshOn s C e
  | _, .bin _ _ l r => FreshOn s C l ∧ FreshOn s C r
  | τ, .proxy n e => C n = some ⟨τ, ctree s e⟩ ∧ FreshOn s C e

/-- `C'` is `C` with some caches replaced by fresh ones. -/
def Refreshes (s : Store L) (B : Bodies L) (C C' : Caches L) : Prop :=
  ∀ n, C' n = C n ∨ ∃ (τ : L.Ty) (e : DExpr L τ) (E : Expr L τ), B n = some ⟨τ, e⟩ ∧ Unfolds B e E ∧
    C' n = some ⟨τ, ctree s E⟩

theorem Unfolds.unique {τ : L.Ty} {e : DExpr L τ} {E : Expr L τ} (h : Unfolds B e E) :
    ∀ {F}, Unfolds B e F → E = F := by
  induction h with
  | leaf => intro F h; cases h; rfl
  | un _ ih => intro F h; cases h with | un h => rw [ih h]
  | bin _ _ il ir => intro F h; cases h with | bin h k => rw [il h, ir k]
  | proxy hb _ ih =>
    intro F h
    cases h with
    | proxy hc h =>
      rw [hb] at hc
      cases hc
      rw [ih h]

theorem Refreshes.refl (C : Caches L) : Refreshes s B C C := fun _ => .inl rfl

theorem Refreshes.trans {C D F : Caches L} (h : Refreshes s B C D) (k : Refreshes s B D F) :
    Refreshes s B C F := fun n => by
  rcases k n with k | k
  · rcases h n with h | ⟨τ, e, E, a, b, c⟩
    · exact .inl (k.trans h)
    · exact .inr ⟨τ, e, E, a, b, k.trans c⟩
  · exact .inr k

theorem FreshOn.mono {C C' : Caches L} (hr : Refreshes s B C C') {τ : L.Ty} {e : DExpr L τ}
    {E : Expr L τ} (h : Unfolds B e E) : FreshOn s C E → FreshOn s C' E := by
  induction h with
  | leaf => exact id
  | un _ ih => exact ih
  | bin _ _ il ir => exact fun h => ⟨il h.1, ir h.2⟩
  | @proxy n τ e E hb hu ih =>
    rintro ⟨h, k⟩
    refine ⟨?_, ih k⟩
    rcases hr n with hn | ⟨τ', e', E', hb', hu', hn⟩
    · exact hn.trans h
    · rw [hb] at hb'
      cases hb'
      rw [hn, Unfolds.unique hu hu']

theorem pick_same {F : L.Ty → Type} (τ : L.Ty) (x : F τ) :
    pick (L := L) (some ⟨τ, x⟩) τ = some x := by
  show (if h : τ = τ then some (h ▸ x) else none) = some x
  rw [dif_pos rfl]

/-- Building an evaluator, from any caches whatever, gives the fresh one and refreshes every node the
tree meets. -/
theorem construct_ok {τ : L.Ty} {e : DExpr L τ} {E : Expr L τ} (h : Unfolds B e E) :
    ∀ (k : ℕ) (C : Caches L), nesting E ≤ k → ∃ C', construct s (dynEvaluate s B k) e C =
      some (ctree s E, C') ∧ Refreshes s B C C' ∧ FreshOn s C' E := by
  induction h with
  | leaf a c τ => exact fun k C _ => ⟨C, rfl, .refl C, trivial⟩
  | @un α β a op e E _ ih =>
    intro k C hk
    obtain ⟨C', h, r, f⟩ := ih k C hk
    refine ⟨C', ?_, r, f⟩
    show (construct s _ e C).map _ = _
    rw [h]; rfl
  | @bin α β γ a op l r E F hl hr il ir =>
    intro k C hk
    obtain ⟨C₁, h₁, r₁, f₁⟩ := il k C (le_trans (le_max_left _ _) hk)
    obtain ⟨C₂, h₂, r₂, f₂⟩ := ir k C₁ (le_trans (le_max_right _ _) hk)
    refine ⟨C₂, ?_, r₁.trans r₂, f₁.mono r₂ hl, f₂⟩
    show (construct s _ l C).bind _ = _
    rw [h₁]
    show (construct s _ r C₁).map _ = _
    rw [h₂]; rfl
  | @proxy n τ e E hb hu ih =>
    intro k C hk
    obtain ⟨j, rfl⟩ : ∃ j, k = j + 1 := ⟨k - 1, by simp only [nesting] at hk; omega⟩
    obtain ⟨C', h, r, f⟩ := ih j (C.set n none) (by simp only [nesting] at hk; omega)
    have hr : Refreshes s B C' (C'.set n (some ⟨τ, ctree s E⟩)) := fun m => by
      by_cases hm : m = n
      · exact .inr ⟨τ, e, E, hm ▸ hb, hu, if_pos hm⟩
      · exact .inl (if_neg hm)
    refine ⟨C'.set n (some ⟨τ, ctree s E⟩), ?_, fun m => ?_, if_pos rfl, f.mono hr hu⟩
    · show (((pick (B n) τ).bind fun e => (construct s (dynEvaluate s B j) e (C.set n none)).map
        fun r => (r.1.val, r.2.set n (some ⟨τ, r.1⟩))).map _ ) = _
      rw [hb, pick_same]
      show ((construct s (dynEvaluate s B j) e (C.set n none)).map _).map _ = _
      rw [h]; rfl
    · by_cases hm : m = n
      · exact .inr ⟨τ, e, E, hm ▸ hb, hu, if_pos hm⟩
      · rcases r m with r | ⟨τ', e', E', a, b, c⟩
        · exact .inl ((if_neg hm).trans (r.trans (if_neg hm)))
        · exact .inr ⟨τ', e', E', a, b, (if_neg hm).trans c⟩

theorem lazy_fresh {C : Caches L} {n : ℕ} {τ : L.Ty} {T : CTree L τ} (h : C n = some ⟨τ, T⟩) (k : ℕ) :
    lazyEvaluator s B k n τ C = some (T, C) := by
  rw [lazyEvaluator, h]
  show (pick (some ⟨τ, T⟩) τ).map _ = _
  rw [pick_same]; rfl

/-- On fresh caches the dynamic Jacobian is that of a fresh tree, and the caches stay.
(The store at the time of the call, `s'`, plays no part.) -/
theorem dyn_ok {s' : Store L} (t : ℕ) (σ : L.Ty) {C : Caches L} : {τ : L.Ty} → (E : Expr L τ) → (k : ℕ) →
    nesting E ≤ k → FreshOn s C E →
    (ctree s E).dyn t σ (dynJacobianCall s' B t σ k) C = some ((ETree.mk s E).dyn t σ, C)
  | _, .leaf _ _ _, _, _, _ => rfl
  | _, .un a op e, k, hk, f => by
    show (if a = t then _ else ((ctree s e).dyn t σ _ C).map _) = some (if a = t then _ else _, C)
    rw [dyn_ok t σ e k hk f, ctree_val]
    split_ifs
    · rfl
    · rfl
    · cases (ETree.mk s e).dyn t σ <;> rfl
  | _, .bin a op l r, k, hk, f => by
    show (if a = t then _ else ((ctree s l).dyn t σ _ C).bind _) = some (if a = t then _ else _, C)
    rw [dyn_ok t σ l k (le_trans (le_max_left _ _) hk) f.1, ctree_val, ctree_val]
    split_ifs
    · rfl
    · rfl
    · show ((ctree s r).dyn t σ _ C).map _ = _
      rw [dyn_ok t σ r k (le_trans (le_max_right _ _) hk) f.2]
      cases (ETree.mk s l).dyn t σ <;> cases (ETree.mk s r).dyn t σ <;> rfl
  | τ, .proxy n e, k, hk, f => by
    obtain ⟨j, rfl⟩ : ∃ j, k = j + 1 := ⟨k - 1, by simp only [nesting] at hk; omega⟩
    show (if n = t then _ else (lazyEvaluator s' B j n τ C).bind _) = some (if n = t then _ else _, C)
    rw [lazy_fresh f.1]
    split_ifs
    · rfl
    · rfl
    · exact dyn_ok t σ e j (by simp only [nesting] at hk; omega) f.2

/-- The same for the typed forward evaluator. -/
theorem fwd_ok (t : Target L) {C : Caches L} {k : ℕ} : {τ : L.Ty} → (E : Expr L τ) →
    nesting E ≤ k → FreshOn s C E →
    (ctree s E).fwd t (dynJacobianCall s B t.addr t.ty k) C = some ((ETree.mk s E).fwd t, C)
  | _, .leaf _ _ _, _, _ => rfl
  | _, .un a op e, hk, f => by
    show ((ctree s e).fwd t _ C).map _ = _
    rw [fwd_ok t e hk f, ctree_val]
    show _ = some ((match (ETree.mk s e).fwd t with | some J => _ | none => none), C)
    cases (ETree.mk s e).fwd t <;> rfl
  | _, .bin a op l r, hk, f => by
    show (if (ctree s l).hasType t && (ctree s r).hasType t then ((ctree s l).fwd t _ C).bind _
      else if (ctree s l).hasType t then ((ctree s l).fwd t _ C).map _
      else if (ctree s r).hasType t then ((ctree s r).fwd t _ C).map _ else _) =
      some (if (ETree.mk s l).hasType t && (ETree.mk s r).hasType t then _
      else if (ETree.mk s l).hasType t then _
      else if (ETree.mk s r).hasType t then _ else _, C)
    rw [fwd_ok t l (le_trans (le_max_left _ _) hk) f.1,
      fwd_ok t r (le_trans (le_max_right _ _) hk) f.2, ctree_val, ctree_val,
      ctree_hasType, ctree_hasType]
    split_ifs
    · show ((ctree s r).fwd t _ C).map _ = _
      rw [fwd_ok t r (le_trans (le_max_right _ _) hk) f.2]
      cases (ETree.mk s l).fwd t <;> cases (ETree.mk s r).fwd t <;> rfl
    · cases (ETree.mk s l).fwd t <;> rfl
    · cases (ETree.mk s r).fwd t <;> rfl
    · rfl
  | τ, .proxy n e, hk, f => by
    obtain ⟨j, rfl⟩ : ∃ j, k = j + 1 := ⟨k - 1, by simp only [nesting] at hk; omega⟩
    show (if n = t.addr then _ else (lazyEvaluator s B j n τ C).bind _) =
      some (if n = t.addr then _ else _, C)
    rw [lazy_fresh f.1]
    split_ifs
    · rfl
    · rfl
    · exact dyn_ok t.addr t.ty e j (by simp only [nesting] at hk; omega) f.2

/-- The same for the reverse evaluator. -/
theorem dynRev_ok {ρ : L.Ty} {C : Caches L} : {τ : L.Ty} → (E : Expr L τ) → (k : ℕ) →
    nesting E ≤ k → FreshOn s C E → (adj : OMat (L.Idx ρ) (L.Idx τ)) →
    (ctree s E).dynRev (dynReverseCall s B k) adj C = some ((ETree.mk s E).dynRev adj, C)
  | _, .leaf _ _ _, _, _, _, _ => rfl
  | _, .un a op e, k, hk, f, adj => by
    show (ctree s e).dynRev _ (adj.mul (nodeJac op (ctree s (.un a op e)).val _)) C = _
    rw [dynRev_ok e k hk f, ctree_val, ctree_val]; rfl
  | _, .bin a op l r, k, hk, f, adj => by
    show ((ctree s l).dynRev _ (adj.mul (nodeJacL op (ctree s (.bin a op l r)).val _ _)) C).bind
      (fun x => ((ctree s r).dynRev _ (adj.mul (nodeJacR op (ctree s (.bin a op l r)).val _ _))
        x.2).map _) = _
    rw [dynRev_ok l k (le_trans (le_max_left _ _) hk) f.1, ctree_val, ctree_val, ctree_val]
    show ((ctree s r).dynRev _ _ C).map _ = _
    rw [dynRev_ok r k (le_trans (le_max_right _ _) hk) f.2]; rfl
  | τ, .proxy n e, k, hk, f, adj => by
    obtain ⟨j, rfl⟩ : ∃ j, k = j + 1 := ⟨k - 1, by simp only [nesting] at hk; omega⟩
    show (lazyEvaluator s B j n τ C).bind _ = _
    rw [lazy_fresh f.1]
    exact dynRev_ok e j (by simp only [nesting] at hk; omega) f.2 adj

end WG
