import Verif.Spec.CppType
import Verif.Lemmas.Unique
import Verif.Lemmas.DiffMain

/-!
# Lemmas about C++ types of expressions, `isSame`, and sub-expressions as targets
-/

namespace WG
open Matrix Spec CExpr

variable {L : Lib}

theorem forms_length : {τ σ : L.Ty} → (e : CExpr L τ) → (f : CExpr L σ) → shape e = shape f →
    (forms e).length = (forms f).length
  | _, _, .leaf _ _ _, .leaf _ _ _, _ => rfl
  | _, _, .un _ _ _ e, .un _ _ _ f, h => by
    simp only [shape, Shape.un.injEq] at h
    simp [forms, forms_length e f h.2.2.2]
  | _, _, .bin _ _ _ l _ r, .bin _ _ _ l' _ r', h => by
    simp only [shape, Shape.bin.injEq] at h
    simp [forms, forms_length l l' h.2.2.2.1, forms_length r r' h.2.2.2.2]
  | _, _, .proxy _ _, .proxy _ _, _ => rfl
  | _, _, .leaf _ _ _, .un _ _ _ _, h | _, _, .leaf _ _ _, .bin _ _ _ _ _ _, h
  | _, _, .leaf _ _ _, .proxy _ _, h | _, _, .un _ _ _ _, .leaf _ _ _, h
  | _, _, .un _ _ _ _, .bin _ _ _ _ _ _, h | _, _, .un _ _ _ _, .proxy _ _, h
  | _, _, .bin _ _ _ _ _ _, .leaf _ _ _, h | _, _, .bin _ _ _ _ _ _, .un _ _ _ _, h
  | _, _, .bin _ _ _ _ _ _, .proxy _ _, h | _, _, .proxy _ _, .leaf _ _ _, h
  | _, _, .proxy _ _, .un _ _ _ _, h | _, _, .proxy _ _, .bin _ _ _ _ _ _, h => by
    simp [shape] at h

theorem refers_length : {τ σ : L.Ty} → (e : CExpr L τ) → (f : CExpr L σ) → shape e = shape f →
    (refers e).length = (refers f).length
  | _, _, .leaf _ _ _, .leaf _ _ _, _ => rfl
  | _, _, .un _ _ _ e, .un _ _ _ f, h => by
    simp only [shape, Shape.un.injEq] at h
    simp [refers, refers_length e f h.2.2.2]
  | _, _, .bin _ _ _ l _ r, .bin _ _ _ l' _ r', h => by
    simp only [shape, Shape.bin.injEq] at h
    simp [refers, refers_length l l' h.2.2.2.1, refers_length r r' h.2.2.2.2]
  | _, _, .proxy _ _, .proxy _ _, _ => rfl
  | _, _, .leaf _ _ _, .un _ _ _ _, h | _, _, .leaf _ _ _, .bin _ _ _ _ _ _, h
  | _, _, .leaf _ _ _, .proxy _ _, h | _, _, .un _ _ _ _, .leaf _ _ _, h
  | _, _, .un _ _ _ _, .bin _ _ _ _ _ _, h | _, _, .un _ _ _ _, .proxy _ _, h
  | _, _, .bin _ _ _ _ _ _, .leaf _ _ _, h | _, _, .bin _ _ _ _ _ _, .un _ _ _ _, h
  | _, _, .bin _ _ _ _ _ _, .proxy _ _, h | _, _, .proxy _ _, .leaf _ _ _, h
  | _, _, .proxy _ _, .un _ _ _ _, h | _, _, .proxy _ _, .bin _ _ _ _ _ _, h => by
    simp [shape] at h

/-- The C++ type is the structure together with the forms. -/
theorem ctype_eq_iff : {τ σ : L.Ty} → (e : CExpr L τ) → (f : CExpr L σ) →
    (e.ctype = f.ctype ↔ shape e = shape f ∧ forms e = forms f)
  | _, _, .leaf _ _ _, .leaf _ _ _ => by simp [ctype, shape, forms]
  | _, _, .un _ _ _ e, .un _ _ _ f => by
    simp only [ctype, shape, forms, CType.un.injEq, Shape.un.injEq, List.cons.injEq,
      ctype_eq_iff e f]
    tauto
  | _, _, .bin _ _ _ l _ r, .bin _ _ _ l' _ r' => by
    simp only [ctype, shape, forms, CType.bin.injEq, Shape.bin.injEq, List.cons.injEq,
      ctype_eq_iff l l', ctype_eq_iff r r']
    constructor
    · rintro ⟨h1, h2, h3, h4, ⟨h5, h6⟩, h7, h8, h9⟩
      exact ⟨⟨h1, h2, h3, h5, h8⟩, h4, h7, by rw [h6, h9]⟩
    · rintro ⟨⟨h1, h2, h3, h5, h8⟩, h4, h7, h⟩
      obtain ⟨h6, h9⟩ := List.append_inj h (forms_length l l' h5)
      exact ⟨h1, h2, h3, h4, ⟨h5, h6⟩, h7, h8, h9⟩
  | _, _, .proxy _ _, .proxy _ _ => by simp [ctype, shape, forms]
  | _, _, .leaf _ _ _, .un _ _ _ _ | _, _, .leaf _ _ _, .bin _ _ _ _ _ _
  | _, _, .leaf _ _ _, .proxy _ _ | _, _, .un _ _ _ _, .leaf _ _ _
  | _, _, .un _ _ _ _, .bin _ _ _ _ _ _ | _, _, .un _ _ _ _, .proxy _ _
  | _, _, .bin _ _ _ _ _ _, .leaf _ _ _ | _, _, .bin _ _ _ _ _ _, .un _ _ _ _
  | _, _, .bin _ _ _ _ _ _, .proxy _ _ | _, _, .proxy _ _, .leaf _ _ _
  | _, _, .proxy _ _, .un _ _ _ _ | _, _, .proxy _ _, .bin _ _ _ _ _ _ => by
    simp [ctype, shape]

theorem isSame_iff : {τ σ : L.Ty} → (e : CExpr L τ) → (f : CExpr L σ) →
    (e.isSame f = true ↔ e.ctype = f.ctype ∧ refers e = refers f)
  | _, _, .leaf _ _ _, .leaf _ _ _ => by simp [CExpr.isSame, ctype, refers]
  | _, _, .un _ _ _ e, .un _ _ _ f => by
    simp only [CExpr.isSame, Bool.and_eq_true, decide_eq_true_eq, isSame_iff e f]
    constructor
    · rintro ⟨h1, -, h3⟩; exact ⟨h1, h3⟩
    · rintro ⟨h1, h2⟩
      refine ⟨h1, ?_, h2⟩
      simp only [ctype, CType.un.injEq] at h1
      exact h1.2.2.2.2
  | _, _, .bin _ _ _ l _ r, .bin _ _ _ l' _ r' => by
    simp only [CExpr.isSame, Bool.and_eq_true, decide_eq_true_eq, isSame_iff l l', isSame_iff r r']
    constructor
    · rintro ⟨h1, ⟨-, h3⟩, -, h4⟩; exact ⟨h1, by simp [refers, h3, h4]⟩
    · rintro ⟨h1, h2⟩
      have h1' := h1
      simp only [ctype, CType.bin.injEq] at h1'
      obtain ⟨h3, h4⟩ := List.append_inj h2
        (refers_length l l' ((ctype_eq_iff l l').1 h1'.2.2.2.2.1).1)
      exact ⟨h1, ⟨h1'.2.2.2.2.1, h3⟩, h1'.2.2.2.2.2.2, h4⟩
  | _, _, .proxy _ _, .proxy _ _ => by simp [CExpr.isSame, ctype, refers]
  | _, _, .leaf _ _ _, .un _ _ _ _ | _, _, .leaf _ _ _, .bin _ _ _ _ _ _
  | _, _, .leaf _ _ _, .proxy _ _ | _, _, .un _ _ _ _, .leaf _ _ _
  | _, _, .un _ _ _ _, .bin _ _ _ _ _ _ | _, _, .un _ _ _ _, .proxy _ _
  | _, _, .bin _ _ _ _ _ _, .leaf _ _ _ | _, _, .bin _ _ _ _ _ _, .un _ _ _ _
  | _, _, .bin _ _ _ _ _ _, .proxy _ _ | _, _, .proxy _ _, .leaf _ _ _
  | _, _, .proxy _ _, .un _ _ _ _ | _, _, .proxy _ _, .bin _ _ _ _ _ _ => by
    simp [ctype, CExpr.isSame]

/-! ## `prepareExpr` -/

theorem kind_prepare {τ : L.Ty} (e : CExpr L τ) : e.prepare.kind = e.kind := by
  cases e <;> rfl

theorem shape_prepare : {τ : L.Ty} → (e : CExpr L τ) → shape e.prepare = shape e
  | _, .leaf _ _ _ => rfl
  | _, .un _ _ _ e => by simp [prepare, shape, shape_prepare e]
  | _, .bin _ _ _ l _ r => by simp [prepare, shape, shape_prepare l, shape_prepare r]
  | _, .proxy _ _ => rfl

theorem refers_prepare : {τ : L.Ty} → (e : CExpr L τ) → refers e.prepare = refers e
  | _, .leaf _ _ _ => rfl
  | _, .un _ _ _ e => by simp [prepare, refers, refers_prepare e]
  | _, .bin _ _ _ l _ r => by simp [prepare, refers, refers_prepare l, refers_prepare r]
  | _, .proxy _ _ => rfl

theorem expr_prepare : {τ : L.Ty} → (e : CExpr L τ) → e.prepare.expr = e.expr
  | _, .leaf _ _ _ => rfl
  | _, .un _ _ _ e => by simp [prepare, CExpr.expr, expr_prepare e]
  | _, .bin _ _ _ l _ r => by simp [prepare, CExpr.expr, expr_prepare l, expr_prepare r]
  | _, .proxy _ _ => rfl

theorem sameExpr_prepare {τ σ : L.Ty} (e : CExpr L τ) (q : CExpr L σ) :
    SameExpr e.prepare q ↔ SameExpr e q := by
  unfold SameExpr; rw [shape_prepare, refers_prepare]

theorem abstracted_prepare {σ : L.Ty} (q : CExpr L σ) (y c : ℕ) : {τ : L.Ty} → (e : CExpr L τ) →
    abstracted q y c e.prepare = abstracted q y c e
  | _, .leaf _ _ _ => rfl
  | _, .un op x f a => by
    have h := sameExpr_prepare (.un op x f a) q
    simp only [prepare] at h ⊢
    simp only [abstracted, abstracted_prepare q y c a]
    by_cases hs : SameExpr (.un op x f a) q
    · rw [if_pos hs, if_pos (h.2 hs)]
    · rw [if_neg hs, if_neg (fun h' => hs (h.1 h'))]
  | _, .bin op x f l f' r => by
    have h := sameExpr_prepare (.bin op x f l f' r) q
    simp only [prepare] at h ⊢
    simp only [abstracted, abstracted_prepare q y c l, abstracted_prepare q y c r]
    by_cases hs : SameExpr (.bin op x f l f' r) q
    · rw [if_pos hs, if_pos (h.2 hs)]
    · rw [if_neg hs, if_neg (fun h' => hs (h.1 h'))]
  | _, .proxy _ _ => rfl

theorem subterms_prepare : {τ : L.Ty} → (e : CExpr L τ) →
    subterms e.prepare = (subterms e).map fun n => ⟨n.1, n.2.prepare⟩
  | _, .leaf _ _ _ => rfl
  | _, .un op x q a => by simp [prepare, subterms, subterms_prepare a]
  | _, .bin op x _ l _ r => by simp [prepare, subterms, subterms_prepare l, subterms_prepare r]
  | _, .proxy _ _ => rfl

theorem kind_shape {τ σ : L.Ty} {e : CExpr L τ} {f : CExpr L σ} (h : shape e = shape f) :
    e.kind = f.kind := by
  cases e <;> cases f <;> first | rfl | simp [shape] at h

/-- A prepared node has the type of a flat target as soon as the structures agree. -/
theorem ctype_prepare_flat : {τ σ : L.Ty} → (e : CExpr L τ) → (q : CExpr L σ) → OnLeaves q →
    (e.prepare.ctype = q.ctype ↔ shape e = shape q) := by
  intro τ σ e q hq
  constructor
  · intro h
    have := ((ctype_eq_iff _ _).1 h).1
    rwa [shape_prepare] at this
  · intro h
    refine (ctype_eq_iff _ _).2 ⟨by rw [shape_prepare, h], ?_⟩
    cases q with
    | leaf =>
      cases e <;> first | rfl | simp [shape] at h
    | un op x f a =>
      cases e <;> first | (simp [shape] at h; done) | skip
      rename_i x' f' a' op'
      simp only [shape, Shape.un.injEq] at h
      cases a <;> simp only [OnLeaves] at hq
      subst hq
      cases a' <;> first | rfl | (simp [shape] at h; done)
    | bin op x f l f' r =>
      cases e <;> first | (simp [shape] at h; done) | skip
      rename_i x' f₁ l' f₂ r' op'
      simp only [shape, Shape.bin.injEq] at h
      cases l <;> simp only [OnLeaves] at hq
      cases r <;> simp only [OnLeaves] at hq
      obtain ⟨rfl, rfl⟩ := hq
      cases l' <;> first | (simp [shape] at h; done) | skip
      cases r' <;> first | rfl | (simp [shape] at h; done)
    | proxy => simp [OnLeaves] at hq

/-- A written target whose type is that of a prepared node (without dynamic operands) is flat. -/
theorem flat_of_ctype : {τ σ : L.Ty} → (e : CExpr L τ) → (q : CExpr L σ) → e.noProxy → q.Written →
    e.prepare.ctype = q.ctype → OnLeaves q := by
  intro τ σ e q hp hw h
  obtain ⟨h1, h2⟩ := (ctype_eq_iff _ _).1 h
  cases q with
  | leaf => simp [OnLeaves]
  | un op x f a =>
    cases e <;> first | (simp [prepare, shape] at h1; done) | skip
    rename_i x' f' a' op'
    simp only [prepare, shape, Shape.un.injEq] at h1
    simp only [prepare, forms, List.cons.injEq] at h2
    have hk := kind_shape h1.2.2.2
    rw [kind_prepare] at hk
    obtain ⟨⟨m, hm⟩, -⟩ := hw
    have hf := h2.1
    rw [hm, hk] at hf
    cases a with
    | leaf => cases m <;> simp_all [OnLeaves, CExpr.kind, argForm, preparedForm]
    | un => cases m <;> simp [CExpr.kind, argForm, preparedForm] at hf
    | bin => cases m <;> simp [CExpr.kind, argForm, preparedForm] at hf
    | proxy => cases m <;> simp [CExpr.kind, argForm, preparedForm] at hf
  | bin op x f l f' r =>
    cases e <;> first | (simp [prepare, shape] at h1; done) | skip
    rename_i x' f₁ l' f₂ r' op'
    simp only [prepare, shape, Shape.bin.injEq] at h1
    simp only [prepare, forms, List.cons.injEq] at h2
    have hk := kind_shape h1.2.2.2.1
    have hk' := kind_shape h1.2.2.2.2
    rw [kind_prepare] at hk hk'
    obtain ⟨⟨m, hm⟩, ⟨m', hm'⟩, -⟩ := hw
    have hf := h2.1
    have hf' := h2.2.1
    rw [hm, hk] at hf
    rw [hm', hk'] at hf'
    have hl : ∃ a c, l = .leaf a c _ ∧ f = .cref := by
      cases l with
      | leaf a c τ =>
        refine ⟨a, c, rfl, ?_⟩
        cases m <;> simp_all [CExpr.kind, argForm, preparedForm]
      | un => cases m <;> simp [CExpr.kind, argForm, preparedForm] at hf
      | bin => cases m <;> simp [CExpr.kind, argForm, preparedForm] at hf
      | proxy => cases m <;> simp [CExpr.kind, argForm, preparedForm] at hf
    have hr : ∃ a c, r = .leaf a c _ ∧ f' = .cref := by
      cases r with
      | leaf a c τ =>
        refine ⟨a, c, rfl, ?_⟩
        cases m' <;> simp_all [CExpr.kind, argForm, preparedForm]
      | un => cases m' <;> simp [CExpr.kind, argForm, preparedForm] at hf'
      | bin => cases m' <;> simp [CExpr.kind, argForm, preparedForm] at hf'
      | proxy => cases m' <;> simp [CExpr.kind, argForm, preparedForm] at hf'
    obtain ⟨_, _, rfl, rfl⟩ := hl
    obtain ⟨_, _, rfl, rfl⟩ := hr
    exact ⟨rfl, rfl⟩
  | proxy =>
    cases e <;> first | (simp [prepare, shape] at h1; done) | skip
    simp [CExpr.noProxy, CExpr.expr, Expr.noProxy] at hp

theorem subterm_noProxy : {τ : L.Ty} → (e : CExpr L τ) → e.noProxy → ∀ n ∈ subterms e, n.2.noProxy
  | _, .leaf _ _ _, _ => by simp [subterms, CExpr.noProxy, CExpr.expr, Expr.noProxy]
  | _, .un _ _ _ a, h => by
    intro n hn
    simp only [subterms, List.mem_cons] at hn
    rcases hn with rfl | hn
    · exact h
    · exact subterm_noProxy a h n hn
  | _, .bin _ _ _ l _ r, h => by
    intro n hn
    simp only [subterms, List.mem_cons, List.mem_append] at hn
    have h' := h
    simp only [CExpr.noProxy, CExpr.expr, Expr.noProxy, Bool.and_eq_true] at h'
    rcases hn with rfl | hn | hn
    · exact h
    · exact subterm_noProxy l h'.1 n hn
    · exact subterm_noProxy r h'.2 n hn
  | _, .proxy _ _, h => by simp [CExpr.noProxy, CExpr.expr, Expr.noProxy] at h

theorem hasNode_iff (T : CType L.Ty) : {τ : L.Ty} → (e : CExpr L τ) → e.noProxy →
    (e.hasNode T = true ↔ ∃ n ∈ subterms e, n.2.ctype = T)
  | _, .leaf _ _ _, _ => by simp [hasNode, subterms]
  | _, .un _ _ _ a, h => by
    simp [hasNode, subterms, hasNode_iff T a h]
  | _, .bin _ _ _ l _ r, h => by
    simp only [CExpr.noProxy, CExpr.expr, Expr.noProxy, Bool.and_eq_true] at h
    simp [hasNode, subterms, hasNode_iff T l h.1, hasNode_iff T r h.2, or_and_right, exists_or]
  | _, .proxy _ _, h => by simp [CExpr.noProxy, CExpr.expr, Expr.noProxy] at h

theorem fwdCompiles_iff (T : CType L.Ty) : {τ : L.Ty} → (e : CExpr L τ) → e.noProxy →
    e.expr.uniqueLeaves = false → e.fwdCompiles T = e.hasNode T
  | _, .leaf a c τ, _, h => by
    have : (Expr.leaf a c τ : Expr L τ).uniqueLeaves = true :=
      (uniqueLeaves_iff _).2 ⟨rfl, by simp [types, objects]⟩
    simp [CExpr.expr, this] at h
  | _, .un op x q a, hp, h => by
    have hu : a.expr.uniqueLeaves = false := by
      by_contra hc
      have := (uniqueLeaves_iff a.expr).1 (by simpa using hc)
      have : (CExpr.un op x q a).expr.uniqueLeaves = true := (uniqueLeaves_iff _).2 this
      rw [this] at h; cases h
    simp [fwdCompiles, hasNode, fwdCompiles_iff T a hp hu]
  | _, .bin _ _ _ l _ r, hp, h => by
    simp only [CExpr.noProxy, CExpr.expr, Expr.noProxy, Bool.and_eq_true] at hp
    simp [fwdCompiles, hasNode, CExpr.noProxy, hp.1, hp.2]
  | _, .proxy _ _, h, _ => by simp [CExpr.noProxy, CExpr.expr, Expr.noProxy] at h

/-- Acceptance, in terms of the structures of the sub-expressions. -/
theorem hasNode_prepare_iff {τ σ : L.Ty} (e : CExpr L τ) (q : CExpr L σ) (hp : e.noProxy)
    (hq : OnLeaves q) : e.prepare.hasNode q.ctype = true ↔ ∃ n ∈ subterms e, shape n.2 = shape q := by
  have hp' : e.prepare.noProxy := by unfold CExpr.noProxy; rw [expr_prepare]; exact hp
  rw [hasNode_iff _ _ hp', subterms_prepare]
  simp only [List.mem_map]
  constructor
  · rintro ⟨n, ⟨m, hm, rfl⟩, h⟩
    exact ⟨m, hm, (ctype_prepare_flat m.2 q hq).1 h⟩
  · rintro ⟨m, hm, h⟩
    exact ⟨_, ⟨m, hm, rfl⟩, (ctype_prepare_flat m.2 q hq).2 h⟩

theorem jacobianNode_isSome {τ σ : L.Ty} (s : Store L) (e : CExpr L τ) (q : CExpr L σ)
    (hp : e.noProxy) : (jacobianNode s e q).isSome = e.prepare.hasNode q.ctype := by
  have hp' : e.prepare.noProxy := by unfold CExpr.noProxy; rw [expr_prepare]; exact hp
  unfold jacobianNode
  simp only
  split_ifs with h1 h2 h3
  · simp [h2]
  · simpa using h2
  · rw [fwdCompiles_iff _ _ hp' (by simpa using h1)] at h3
    simp [h3]
  · rw [fwdCompiles_iff _ _ hp' (by simpa using h1)] at h3
    simpa using h3

/-! ## Sub-expressions and sizes -/

/-- The number of operations of a structure. -/
def Spec.Shape.size {T : Type} : Shape T → ℕ
  | .leaf _ _ => 0
  | .un _ _ _ r => r.size + 1
  | .bin _ _ _ l r => l.size + r.size + 1
  | .proxy _ => 0

theorem subterm_size : {τ : L.Ty} → (e : CExpr L τ) → ∀ n ∈ subterms e,
    (shape n.2).size ≤ (shape e).size
  | _, .leaf _ _ _ => by simp [subterms]
  | _, .un _ _ _ a => by
    intro n hn
    simp only [subterms, List.mem_cons] at hn
    rcases hn with rfl | hn
    · exact le_rfl
    · have := subterm_size a n hn
      simp only [shape, Shape.size]; omega
  | _, .bin _ _ _ l _ r => by
    intro n hn
    simp only [subterms, List.mem_cons, List.mem_append] at hn
    rcases hn with rfl | hn | hn
    · exact le_rfl
    · have := subterm_size l n hn
      simp only [shape, Shape.size]; omega
    · have := subterm_size r n hn
      simp only [shape, Shape.size]; omega
  | _, .proxy _ _ => by simp [subterms]

theorem self_mem_subterms {τ : L.Ty} (e : CExpr L τ) : ⟨τ, e⟩ ∈ subterms e := by
  cases e <;> simp [subterms]

theorem subterm_eq {τ : L.Ty} (e : CExpr L τ) : ∀ n ∈ subterms e, shape n.2 = shape e → n = ⟨τ, e⟩ := by
  intro n hn h
  cases e with
  | leaf => simpa [subterms] using hn
  | un op x f a =>
    simp only [subterms, List.mem_cons] at hn
    rcases hn with rfl | hn
    · rfl
    · have := subterm_size a n hn
      rw [h] at this
      simp only [shape, Shape.size] at this; omega
  | bin op x f l f' r =>
    simp only [subterms, List.mem_cons, List.mem_append] at hn
    rcases hn with rfl | hn | hn
    · rfl
    · have := subterm_size l n hn
      rw [h] at this
      simp only [shape, Shape.size] at this; omega
    · have := subterm_size r n hn
      rw [h] at this
      simp only [shape, Shape.size] at this; omega
  | proxy => simpa [subterms] using hn

/-- Without a sub-expression of the target's structure there is nothing to abstract. -/
theorem abstracted_eq {σ : L.Ty} (q : CExpr L σ) (y c : ℕ) : {τ : L.Ty} → (e : CExpr L τ) →
    (∀ n ∈ subterms e, ¬ SameExpr n.2 q) → abstracted q y c e = e.expr
  | _, .leaf a d τ, h => by
    have := h _ (self_mem_subterms _)
    unfold abstracted; rw [if_neg this]; rfl
  | _, .un op x f a, h => by
    have h0 := h _ (self_mem_subterms _)
    unfold abstracted; rw [if_neg h0, abstracted_eq q y c a fun n hn => h n (by simp [subterms, hn])]
    rfl
  | _, .bin op x f l f' r, h => by
    have h0 := h _ (self_mem_subterms _)
    unfold abstracted
    rw [if_neg h0, abstracted_eq q y c l fun n hn => h n (by simp [subterms, hn]),
      abstracted_eq q y c r fun n hn => h n (by simp [subterms, hn])]
    rfl
  | _, .proxy _ _, _ => rfl

theorem objects_addr : {τ : L.Ty} → (e : CExpr L τ) → e.noProxy → ∀ o ∈ objects e.expr, o.addr ∈ refers e
  | _, .leaf _ _ _, _ => by simp [CExpr.expr, objects, refers]
  | _, .un _ _ _ a, h => objects_addr a h
  | _, .bin _ _ _ l _ r, h => by
    simp only [CExpr.noProxy, CExpr.expr, Expr.noProxy, Bool.and_eq_true] at h
    intro o ho
    simp only [CExpr.expr, objects, List.mem_append] at ho
    simp only [refers, List.mem_append]
    exact ho.imp (objects_addr l h.1 o) (objects_addr r h.2 o)
  | _, .proxy _ _, h => by simp [CExpr.noProxy, CExpr.expr, Expr.noProxy] at h

theorem occurrences_fresh (s : Store L) (t : Target L) : {τ : L.Ty} → (e : Expr L τ) →
    (∀ o ∈ objects e, o ≠ t) → occurrences s t e = []
  | _, .leaf a c τ, h => by
    unfold occurrences
    rw [dif_neg]
    exact h _ (by simp [objects])
  | _, .un _ op e, h => by
    unfold occurrences; rw [occurrences_fresh s t e h]; rfl
  | _, .bin _ op l r, h => by
    unfold occurrences
    rw [occurrences_fresh s t l fun o ho => h o (by simp [objects, ho]),
      occurrences_fresh s t r fun o ho => h o (by simp [objects, ho])]
    rfl
  | _, .proxy _ e, h => by
    unfold occurrences; exact occurrences_fresh s t e h

/-- The same expressions are the same trees. -/
theorem expr_same (hL : TagsFaithful L) : {τ σ : L.Ty} → (e : CExpr L τ) → (f : CExpr L σ) →
    e.noProxy → SameExpr e f → (⟨τ, e.expr⟩ : (τ : L.Ty) × Expr L τ) = ⟨σ, f.expr⟩
  | _, _, .leaf _ _ _, .leaf _ _ _, _, h => by
    obtain ⟨h1, h2⟩ := h
    simp only [shape, Shape.leaf.injEq] at h1
    simp only [refers, List.cons.injEq, and_true] at h2
    obtain ⟨rfl, rfl⟩ := h1
    subst h2
    rfl
  | _, _, .un op x _ a, .un op' x' _ a', hp, h => by
    obtain ⟨h1, h2⟩ := h
    simp only [shape, Shape.un.injEq] at h1
    obtain ⟨h1, rfl, rfl, h4⟩ := h1
    have ih := expr_same hL a a' hp ⟨h4, h2⟩
    obtain ⟨rfl, ih⟩ := Sigma.mk.inj ih
    have := hL.un op op' h1
    subst this
    simp only [CExpr.expr, eq_of_heq ih]
  | _, _, .bin op x _ l _ r, .bin op' x' _ l' _ r', hp, h => by
    obtain ⟨h1, h2⟩ := h
    simp only [shape, Shape.bin.injEq] at h1
    obtain ⟨h1, rfl, rfl, h4, h5⟩ := h1
    simp only [CExpr.noProxy, CExpr.expr, Expr.noProxy, Bool.and_eq_true] at hp
    obtain ⟨h6, h7⟩ := List.append_inj h2 (refers_length l l' h4)
    have ih := expr_same hL l l' hp.1 ⟨h4, h6⟩
    have ih' := expr_same hL r r' hp.2 ⟨h5, h7⟩
    obtain ⟨rfl, ih⟩ := Sigma.mk.inj ih
    obtain ⟨rfl, ih'⟩ := Sigma.mk.inj ih'
    have := hL.bin op op' h1
    subst this
    simp only [CExpr.expr, eq_of_heq ih, eq_of_heq ih']
  | _, _, .proxy _ _, _, h, _ => by simp [CExpr.noProxy, CExpr.expr, Expr.noProxy] at h
  | _, _, .leaf _ _ _, .un _ _ _ _, _, h | _, _, .leaf _ _ _, .bin _ _ _ _ _ _, _, h
  | _, _, .leaf _ _ _, .proxy _ _, _, h | _, _, .un _ _ _ _, .leaf _ _ _, _, h
  | _, _, .un _ _ _ _, .bin _ _ _ _ _ _, _, h | _, _, .un _ _ _ _, .proxy _ _, _, h
  | _, _, .bin _ _ _ _ _ _, .leaf _ _ _, _, h | _, _, .bin _ _ _ _ _ _, .un _ _ _ _, _, h
  | _, _, .bin _ _ _ _ _ _, .proxy _ _, _, h => by
    simp [SameExpr, shape] at h

theorem shape_ty {τ σ : L.Ty} {e : CExpr L τ} {f : CExpr L σ} (h : shape e = shape f) : τ = σ := by
  cases e <;> cases f <;> simp [shape] at h <;> tauto

theorem value_same (hL : TagsFaithful L) (s : Store L) {τ : L.Ty} (e f : CExpr L τ)
    (hp : e.noProxy) (h : SameExpr e f) : value s e.expr = value s f.expr := by
  have := expr_same hL e f hp h
  rw [Sigma.mk.injEq] at this
  rw [eq_of_heq this.2]

/-- Replacing a sub-expression by a variable that holds its value does not change the value. -/
theorem value_abstracted (hL : TagsFaithful L) (s : Store L) {σ : L.Ty} (q : CExpr L σ) (y c : ℕ)
    {v : L.Val σ} (hv : value s q.expr = some v) : {τ : L.Ty} → (e : CExpr L τ) → e.noProxy →
    y ∉ refers e → value (s.set y σ v) (abstracted q y c e) = value s e.expr := by
  have key : ∀ {τ : L.Ty} (e : CExpr L τ), e.noProxy → SameExpr e q →
      value (s.set y σ v) (.leaf y c τ) = value s e.expr := by
    intro τ e hp h
    obtain rfl := shape_ty h.1
    rw [value_same hL s e q hp h, hv]
    simp [value, Store.set_get]
  intro τ e
  induction e with
  | leaf a d τ =>
    intro hp hy
    by_cases h : SameExpr (CExpr.leaf a d τ : CExpr L τ) q
    · unfold abstracted; rw [if_pos h, key _ hp h]
    · unfold abstracted
      rw [if_neg h]
      simp only [refers, List.mem_singleton] at hy
      simp only [value, CExpr.expr]
      rw [Store.set_of_ne]
      rintro ⟨h, -⟩; exact hy h.symm
  | un op x f a ih =>
    intro hp hy
    by_cases h : SameExpr (.un op x f a) q
    · unfold abstracted; rw [if_pos h, key _ hp h]
    · unfold abstracted
      rw [if_neg h]
      simp only [value, CExpr.expr]
      rw [ih hp hy]
  | bin op x f l f' r ihl ihr =>
    intro hp hy
    have hp' := hp
    simp only [CExpr.noProxy, CExpr.expr, Expr.noProxy, Bool.and_eq_true] at hp'
    simp only [refers, List.mem_append, not_or] at hy
    by_cases h : SameExpr (.bin op x f l f' r) q
    · unfold abstracted; rw [if_pos h, key _ hp h]
    · unfold abstracted
      rw [if_neg h]
      simp only [value, CExpr.expr]
      rw [ihl hp'.1 hy.1, ihr hp'.2 hy.2]
  | proxy => intro hp; simp [CExpr.noProxy, CExpr.expr, Expr.noProxy] at hp

theorem abstracted_un {σ : L.Ty} {q : CExpr L σ} {y c x : ℕ} {α β : L.Ty} {op : L.Un α β} {f : Form}
    {a : CExpr L α} (h : ¬ SameExpr (.un op x f a) q) :
    abstracted q y c (.un op x f a) = .un 0 op (abstracted q y c a) := by
  rw [abstracted.eq_def]
  exact if_neg h

theorem abstracted_bin {σ : L.Ty} {q : CExpr L σ} {y c x : ℕ} {α β γ : L.Ty} {op : L.Bin α β γ}
    {f f' : Form} {l : CExpr L α} {r : CExpr L β} (h : ¬ SameExpr (.bin op x f l f' r) q) :
    abstracted q y c (.bin op x f l f' r) = .bin 0 op (abstracted q y c l) (abstracted q y c r) := by
  rw [abstracted.eq_def]
  exact if_neg h

theorem blockOf_nil {m n : Type} : blockOf ([] : List (OMat m n)) = none := rfl

/-- The forward evaluator for a flat target on a prepared tree returns the total over the occurrences
of the variable that replaces the target. -/
theorem fwdNode_eq (hL : TagsFaithful L) (s : Store L) {σ : L.Ty} (q : CExpr L σ) (hq : OnLeaves q)
    (y c : ℕ) {v : L.Val σ} (hv : value s q.expr = some v) : {τ : L.Ty} → (e : CExpr L τ) →
    e.noProxy → y ∉ refers e → fwdNode s q e.prepare =
      blockOf (occurrences (s.set y σ v) ⟨y, c, σ⟩ (abstracted q y c e)) := by
  -- a node of the target's type
  have key : ∀ {τ : L.Ty} (e : CExpr L τ), e.noProxy → y ∉ refers e → shape e = shape q →
      selfBlock e.prepare q =
        blockOf (occurrences (s.set y σ v) ⟨y, c, σ⟩ (abstracted q y c e)) := by
    intro τ e hp hy h
    obtain rfl := shape_ty h
    unfold selfBlock
    rw [dif_pos rfl]
    have hs : e.prepare.isSame q = true ↔ SameExpr e q := by
      rw [isSame_iff, ctype_prepare_flat e q hq, refers_prepare]; rfl
    by_cases h' : SameExpr e q
    · rw [if_pos (hs.2 h')]
      have : abstracted q y c e = .leaf y c τ := by
        cases e <;> first
          | (unfold abstracted; rw [if_pos h'])
          | (simp [CExpr.noProxy, CExpr.expr, Expr.noProxy] at hp)
      rw [this]
      unfold occurrences
      rw [dif_pos rfl]
      exact (blockOf_singleton (idBlock rfl)).symm
    · rw [if_neg (fun h => h' (hs.1 h)), abstracted_eq, occurrences_fresh, blockOf_nil]
      · intro o ho h
        exact hy (by have := objects_addr e hp o ho; rwa [h] at this)
      · intro n hn hs
        have := subterm_eq e n hn (hs.1.trans h.symm)
        subst this
        exact h' hs
  intro τ e
  induction e with
  | leaf a d τ =>
    intro hp hy
    by_cases h : shape (CExpr.leaf a d τ : CExpr L τ) = shape q
    · rw [← key _ hp hy h]
      have := (ctype_prepare_flat _ q hq).2 h
      simp only [prepare] at this ⊢
      unfold fwdNode
      rw [if_pos this]
    · have : ¬ (CExpr.leaf a d τ : CExpr L τ).ctype = q.ctype := fun h' =>
        h ((ctype_prepare_flat (.leaf a d τ) q hq).1 h')
      simp only [prepare]
      unfold fwdNode
      rw [if_neg this, abstracted_eq, occurrences_fresh, blockOf_nil]
      · intro o ho h
        exact hy (by have := objects_addr _ hp o ho; rwa [h] at this)
      · intro n hn hs
        simp only [subterms, List.mem_singleton] at hn
        subst hn
        exact h hs.1
  | un op x f a ih =>
    intro hp hy
    by_cases h : shape (.un op x f a) = shape q
    · rw [← key _ hp hy h]
      have := (ctype_prepare_flat _ q hq).2 h
      simp only [prepare] at this ⊢
      unfold fwdNode
      rw [if_pos this]
    · have h0 : ¬ SameExpr (.un op x f a) q := fun hs => h hs.1
      have : ¬ (CExpr.un op x f a).prepare.ctype = q.ctype := fun h' =>
        h ((ctype_prepare_flat _ q hq).1 h')
      simp only [prepare] at this ⊢
      unfold fwdNode
      rw [if_neg this, ih hp hy]
      rw [abstracted_un h0]
      show _ = blockOf ((occurrences _ _ _).map _)
      rw [← blockOf_map]
      have hj : nodeJac op ((CExpr.un op x (preparedForm a.kind) a.prepare).expr.eval s)
          (a.prepare.expr.eval s) = slopeU (s.set y σ v) op (abstracted q y c a) := by
        simp only [CExpr.expr, expr_prepare, Expr.eval]
        rw [nodeJac_eq]
        simp only [slopeU, value_abstracted hL s q y c hv a hp hy]
        rfl
      rw [hj]
      cases blockOf (occurrences (s.set y σ v) ⟨y, c, σ⟩ (abstracted q y c a)) <;> rfl
  | bin op x f l f' r ihl ihr =>
    intro hp hy
    have hp' := hp
    have hy' := hy
    simp only [CExpr.noProxy, CExpr.expr, Expr.noProxy, Bool.and_eq_true] at hp'
    simp only [refers, List.mem_append, not_or] at hy'
    by_cases h : shape (.bin op x f l f' r) = shape q
    · rw [← key _ hp hy h]
      have := (ctype_prepare_flat _ q hq).2 h
      simp only [prepare] at this ⊢
      unfold fwdNode
      rw [if_pos this]
    · have h0 : ¬ SameExpr (.bin op x f l f' r) q := fun hs => h hs.1
      have : ¬ (CExpr.bin op x f l f' r).prepare.ctype = q.ctype := fun h' =>
        h ((ctype_prepare_flat _ q hq).1 h')
      have none_of : ∀ {τ : L.Ty} (e : CExpr L τ), e.noProxy → y ∉ refers e →
          e.prepare.hasNode q.ctype = false →
          occurrences (s.set y σ v) ⟨y, c, σ⟩ (abstracted q y c e) = [] := by
        intro τ e hp hy hn
        rw [abstracted_eq, occurrences_fresh]
        · intro o ho h
          exact hy (by have := objects_addr e hp o ho; rwa [h] at this)
        · intro n hm hs
          rw [(hasNode_prepare_iff e q hp hq).2 ⟨n, hm, hs.1⟩] at hn
          cases hn
      have hA : nodeJacL op ((CExpr.bin op x (preparedForm l.kind) l.prepare (preparedForm r.kind)
          r.prepare).expr.eval s) (l.prepare.expr.eval s) (r.prepare.expr.eval s) =
          slopeL (s.set y σ v) op (abstracted q y c l) (abstracted q y c r) := by
        simp only [CExpr.expr, expr_prepare, Expr.eval]
        rw [nodeJacL_eq]
        simp only [slopeL, value_abstracted hL s q y c hv l hp'.1 hy'.1,
          value_abstracted hL s q y c hv r hp'.2 hy'.2]
        rfl
      have hB : nodeJacR op ((CExpr.bin op x (preparedForm l.kind) l.prepare (preparedForm r.kind)
          r.prepare).expr.eval s) (l.prepare.expr.eval s) (r.prepare.expr.eval s) =
          slopeR (s.set y σ v) op (abstracted q y c l) (abstracted q y c r) := by
        simp only [CExpr.expr, expr_prepare, Expr.eval]
        rw [nodeJacR_eq]
        simp only [slopeR, value_abstracted hL s q y c hv l hp'.1 hy'.1,
          value_abstracted hL s q y c hv r hp'.2 hy'.2]
        rfl
      simp only [prepare] at this ⊢
      unfold fwdNode
      simp only
      rw [if_neg this, ihl hp'.1 hy'.1, ihr hp'.2 hy'.2, hA, hB]
      rw [abstracted_bin h0]
      show _ = blockOf ((occurrences _ _ _).map _ ++ (occurrences _ _ _).map _)
      rw [← blockOf_bin]
      rcases hl : l.prepare.hasNode q.ctype with _ | _ <;>
        rcases hr : r.prepare.hasNode q.ctype with _ | _
      · rw [none_of l hp'.1 hy'.1 hl, none_of r hp'.2 hy'.2 hr]; rfl
      · rw [none_of l hp'.1 hy'.1 hl]
        simp only [Bool.false_and, Bool.false_eq_true, if_false, if_true, blockOf_nil]
        cases blockOf (occurrences (s.set y σ v) ⟨y, c, σ⟩ (abstracted q y c r)) <;> rfl
      · rw [none_of r hp'.2 hy'.2 hr]
        simp only [Bool.and_false, Bool.false_eq_true, if_false, if_true, blockOf_nil]
        cases blockOf (occurrences (s.set y σ v) ⟨y, c, σ⟩ (abstracted q y c l)) <;> rfl
      · simp only [Bool.and_self, if_true]
        cases blockOf (occurrences (s.set y σ v) ⟨y, c, σ⟩ (abstracted q y c l)) <;>
          cases blockOf (occurrences (s.set y σ v) ⟨y, c, σ⟩ (abstracted q y c r)) <;> rfl
  | proxy => intro hp; simp [CExpr.noProxy, CExpr.expr, Expr.noProxy] at hp

/-! ## The typed evaluator -/

theorem subterm_types : {τ : L.Ty} → (e : CExpr L τ) → ∀ n ∈ subterms e,
    ∀ x ∈ types n.2.expr, x ∈ types e.expr
  | _, .leaf _ _ _ => by simp [subterms]
  | _, .un _ _ _ a => by
    intro n hn x hx
    simp only [subterms, List.mem_cons] at hn
    rcases hn with rfl | hn
    · exact hx
    · exact subterm_types a n hn x hx
  | _, .bin _ _ _ l _ r => by
    intro n hn x hx
    simp only [subterms, List.mem_cons, List.mem_append] at hn
    rcases hn with rfl | hn | hn
    · exact hx
    · have := subterm_types l n hn x hx
      simp only [types, CExpr.expr, objects, List.map_append, List.mem_append]
      exact .inl this
    · have := subterm_types r n hn x hx
      simp only [types, CExpr.expr, objects, List.map_append, List.mem_append]
      exact .inr this
  | _, .proxy _ _ => by simp [subterms]

theorem types_shape : {τ σ : L.Ty} → (e : CExpr L τ) → (f : CExpr L σ) → e.noProxy →
    shape e = shape f → types e.expr = types f.expr
  | _, _, .leaf _ _ _, .leaf _ _ _, _, h => by
    simp only [shape, Shape.leaf.injEq] at h
    simp [types, CExpr.expr, objects, h.1, h.2]
  | _, _, .un _ _ _ a, .un _ _ _ b, hp, h => by
    simp only [shape, Shape.un.injEq] at h
    exact types_shape a b hp h.2.2.2
  | _, _, .bin _ _ _ l _ r, .bin _ _ _ l' _ r', hp, h => by
    simp only [shape, Shape.bin.injEq] at h
    simp only [CExpr.noProxy, CExpr.expr, Expr.noProxy, Bool.and_eq_true] at hp
    have h1 := types_shape l l' hp.1 h.2.2.2.1
    have h2 := types_shape r r' hp.2 h.2.2.2.2
    simp only [types] at h1 h2
    simp only [types, CExpr.expr, objects, List.map_append, h1, h2]
  | _, _, .proxy _ _, _, h, _ => by simp [CExpr.noProxy, CExpr.expr, Expr.noProxy] at h
  | _, _, .leaf _ _ _, .un _ _ _ _, _, h | _, _, .leaf _ _ _, .bin _ _ _ _ _ _, _, h
  | _, _, .leaf _ _ _, .proxy _ _, _, h | _, _, .un _ _ _ _, .leaf _ _ _, _, h
  | _, _, .un _ _ _ _, .bin _ _ _ _ _ _, _, h | _, _, .un _ _ _ _, .proxy _ _, _, h
  | _, _, .bin _ _ _ _ _ _, .leaf _ _ _, _, h | _, _, .bin _ _ _ _ _ _, .un _ _ _ _, _, h
  | _, _, .bin _ _ _ _ _ _, .proxy _ _, _, h => by
    simp [shape] at h

theorem types_ne_nil : {τ : L.Ty} → (e : Expr L τ) → types e ≠ []
  | _, .leaf _ _ _ => by simp [types, objects]
  | _, .un _ _ a => types_ne_nil a
  | _, .bin _ _ l r => by
    have := types_ne_nil l
    simp only [types, ne_eq, List.map_eq_nil_iff] at this
    simp [types, objects, this]
  | _, .proxy _ a => types_ne_nil a

/-- In a tree with unique leaf types, sub-expressions of the same structure are the same. -/
theorem unique_subterms : {τ : L.Ty} → (e : CExpr L τ) → e.noProxy → (types e.expr).Nodup →
    ∀ n ∈ subterms e, ∀ m ∈ subterms e, shape n.2 = shape m.2 → n = m
  | _, .leaf _ _ _, _, _ => by simp [subterms]
  | _, .un op x f a, hp, hu => by
    intro n hn m hm h
    have hn' := hn
    have hm' := hm
    simp only [subterms, List.mem_cons] at hn hm
    rcases hn with rfl | hn
    · exact (subterm_eq _ m hm' h.symm).symm
    · rcases hm with rfl | hm
      · exact subterm_eq _ n hn' h
      · exact unique_subterms a hp hu n hn m hm h
  | _, .bin op x f l f' r, hp, hu => by
    intro n hn m hm h
    have hn' := hn
    have hm' := hm
    have hp' := hp
    simp only [CExpr.noProxy, CExpr.expr, Expr.noProxy, Bool.and_eq_true] at hp'
    simp only [types, CExpr.expr, objects, List.map_append, List.nodup_append] at hu
    obtain ⟨hul, hur, hd⟩ := hu
    simp only [subterms, List.mem_cons, List.mem_append] at hn hm
    have cross : ∀ n ∈ subterms l, ∀ m ∈ subterms r, shape n.2 = shape m.2 → False := by
      intro n hn m hm h
      obtain ⟨x, hx⟩ := List.exists_mem_of_ne_nil _ (types_ne_nil n.2.expr)
      have h1 := subterm_types l n hn x hx
      rw [types_shape n.2 m.2 (subterm_noProxy l hp'.1 n hn) h] at hx
      have h2 := subterm_types r m hm x hx
      exact hd x h1 x h2 rfl
    rcases hn with rfl | hn | hn
    · exact (subterm_eq _ m hm' h.symm).symm
    · rcases hm with rfl | hm | hm
      · exact subterm_eq _ n hn' h
      · exact unique_subterms l hp'.1 hul n hn m hm h
      · exact (cross n hn m hm h).elim
    · rcases hm with rfl | hm | hm
      · exact subterm_eq _ n hn' h
      · exact (cross m hm n hn h.symm).elim
      · exact unique_subterms r hp'.2 hur n hn m hm h
  | _, .proxy _ _, h, _ => by simp [CExpr.noProxy, CExpr.expr, Expr.noProxy] at h

/-- Where all sub-expressions of the target's structure are the target, the typed evaluator agrees
with the one that compares objects. -/
theorem typedNode_eq (s : Store L) {σ : L.Ty} (q : CExpr L σ) (hq : OnLeaves q) : {τ : L.Ty} →
    (e : CExpr L τ) → e.noProxy → (∀ n ∈ subterms e, shape n.2 = shape q → refers n.2 = refers q) →
    e.prepare.hasNode q.ctype = true → fwdNode s q e.prepare = some (typedNode s q e.prepare) := by
  have key : ∀ {τ : L.Ty} (e : CExpr L τ), (h : e.prepare.ctype = q.ctype) →
      (shape e = shape q → refers e = refers q) →
      ∃ hτ : τ = σ, selfBlock e.prepare q = some (idBlock hτ) := by
    intro τ e h hs
    have hsh := (ctype_prepare_flat e q hq).1 h
    refine ⟨shape_ty hsh, ?_⟩
    unfold selfBlock
    rw [dif_pos (shape_ty hsh), if_pos]
    rw [isSame_iff, refers_prepare]
    exact ⟨h, hs hsh⟩
  intro τ e
  induction e with
  | leaf a d τ =>
    intro hp hs hn
    have h : (CExpr.leaf a d τ : CExpr L τ).prepare.ctype = q.ctype := by simpa [prepare, hasNode] using hn
    obtain ⟨hτ, hk⟩ := key _ h (hs _ (self_mem_subterms _))
    simp only [prepare] at h hk ⊢
    unfold fwdNode typedNode
    rw [if_pos h, dif_pos ⟨h, hτ⟩, hk]
  | un op x f a ih =>
    intro hp hs hn
    by_cases h : (CExpr.un op x f a).prepare.ctype = q.ctype
    · obtain ⟨hτ, hk⟩ := key _ h (hs _ (self_mem_subterms _))
      simp only [prepare] at h hk ⊢
      unfold fwdNode typedNode
      rw [if_pos h, dif_pos ⟨h, hτ⟩, hk]
    · simp only [prepare] at h hn ⊢
      have hn' : a.prepare.hasNode q.ctype = true := by
        unfold hasNode at hn
        simpa [h] using hn
      have := ih hp (fun n hm => hs n (by simp [subterms, hm])) hn'
      unfold fwdNode typedNode
      rw [if_neg h, dif_neg (fun h' => h h'.1), this]
  | bin op x f l f' r ihl ihr =>
    intro hp hs hn
    have hp' := hp
    simp only [CExpr.noProxy, CExpr.expr, Expr.noProxy, Bool.and_eq_true] at hp'
    by_cases h : (CExpr.bin op x f l f' r).prepare.ctype = q.ctype
    · obtain ⟨hτ, hk⟩ := key _ h (hs _ (self_mem_subterms _))
      simp only [prepare] at h hk ⊢
      unfold fwdNode typedNode
      simp only
      rw [if_pos h, dif_pos ⟨h, hτ⟩, hk]
    · simp only [prepare] at h hn ⊢
      have hl := ihl hp'.1 (fun n hm => hs n (by simp [subterms, hm]))
      have hr := ihr hp'.2 (fun n hm => hs n (by simp [subterms, hm]))
      unfold fwdNode typedNode
      simp only
      rw [if_neg h, dif_neg (fun h' => h h'.1)]
      rcases h1 : l.prepare.hasNode q.ctype with _ | _ <;>
        rcases h2 : r.prepare.hasNode q.ctype with _ | _
      · unfold hasNode at hn
        simp [h, h1, h2] at hn
      · simp [hr h2]
      · simp [hl h1]
      · simp [hl h1, hr h2]
  | proxy => intro hp; simp [CExpr.noProxy, CExpr.expr, Expr.noProxy] at hp

/-- What `evalWithJacobians` returns for a flat target that occurs in the expression. -/
theorem jacobianNode_eq (hL : TagsFaithful L) (s : Store L) {τ σ : L.Ty} (e : CExpr L τ)
    (q : CExpr L σ) (hp : e.noProxy) (hq : OnLeaves q) (hin : ∃ n ∈ subterms e, SameExpr n.2 q)
    (y c : ℕ) (hy : y ∉ refers e) {v : L.Val σ} (hv : value s q.expr = some v) :
    jacobianNode s e q =
      some (total (occurrences (s.set y σ v) ⟨y, c, σ⟩ (abstracted q y c e))) := by
  obtain ⟨n, hn, hs⟩ := hin
  have hp' : e.prepare.noProxy := by unfold CExpr.noProxy; rw [expr_prepare]; exact hp
  have hno : e.prepare.hasNode q.ctype = true := (hasNode_prepare_iff e q hp hq).2 ⟨n, hn, hs.1⟩
  have hf := fwdNode_eq hL s q hq y c hv e hp hy
  unfold jacobianNode
  simp only
  split_ifs with h1 h2
  · have hu := (uniqueLeaves_iff _).1 h1
    rw [expr_prepare] at hu
    have := typedNode_eq s q hq e hp (fun m hm h => by
      rw [unique_subterms e hp hu.2 m hm n hn (h.trans hs.1.symm)]; exact hs.2) hno
    rw [this] at hf
    rw [← orZero_blockOf, ← hf]; rfl
  · rw [hf, orZero_blockOf]
  · rw [fwdCompiles_iff _ _ hp' (by simpa using h1)] at h2
    exact absurd hno h2

end WG
