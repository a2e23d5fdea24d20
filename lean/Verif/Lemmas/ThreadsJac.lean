import Verif.Spec.ThreadsJac
import Verif.Lemmas.DynCache

/-! # Runs of programs on the caches -/

namespace WG

variable {L : Lib} {s : Store L} {B : Bodies L} {α β : Type}

open Spec

/-- Alone, from `C`, the program makes `n` accesses, all to nodes in `S`, and ends with `a` and `C'`. -/
def Does (S : ℕ → Prop) : ℕ → Prog L α → Caches L → α → Caches L → Prop
  | 0, .done b, C, a, C' => b = a ∧ C = C'
  | p + 1, .look n k, C, a, C' => S n ∧ Does S p (k (C n)) C a C'
  | p + 1, .put n c k, C, a, C' => S n ∧ Does S p k (C.set n c) a C'
  | _, _, _, _, _ => False

theorem Does.bind {S : ℕ → Prop} {f : α → Prog L β} {a : α} {b : β} {C' C'' : Caches L} {q : ℕ}
    (hq : Does S q (f a) C' b C'') :
    ∀ {p : ℕ} {P : Prog L α} {C : Caches L}, Does S p P C a C' → Does S (p + q) (P.bind f) C b C''
  | 0, .done _, _, ⟨rfl, rfl⟩ => by
    rw [Nat.zero_add]
    exact hq
  | p + 1, .look n k, C, ⟨hn, h⟩ => by
    rw [Nat.add_right_comm]
    exact ⟨hn, Does.bind hq h⟩
  | p + 1, .put n c k, C, ⟨hn, h⟩ => by
    rw [Nat.add_right_comm]
    exact ⟨hn, Does.bind hq h⟩

theorem Does.mono {S T : ℕ → Prop} (hS : ∀ n, S n → T n) {a : α} {C' : Caches L} :
    ∀ {p : ℕ} {P : Prog L α} {C : Caches L}, Does S p P C a C' → Does T p P C a C'
  | 0, .done _, _, h => h
  | _ + 1, .look n _, _, ⟨hn, h⟩ => ⟨hS n hn, h.mono hS⟩
  | _ + 1, .put n _ _, _, ⟨hn, h⟩ => ⟨hS n hn, h.mono hS⟩

/-- Only the nodes in `S` matter. -/
theorem Does.congr {S : ℕ → Prop} {a : α} {C' : Caches L} :
    ∀ {p : ℕ} {P : Prog L α} {C D : Caches L}, Does S p P C a C' → (∀ n, S n → C n = D n) →
      ∃ D', Does S p P D a D'
  | 0, .done _, _, D, h, _ => ⟨D, h.1, rfl⟩
  | p + 1, .look n k, C, D, ⟨hn, h⟩, hD => by
    obtain ⟨D', h'⟩ := h.congr hD
    rw [hD n hn] at h'
    exact ⟨D', hn, h'⟩
  | p + 1, .put n c k, C, D, ⟨hn, h⟩, hD => by
    obtain ⟨D', h'⟩ := h.congr (D := D.set n c) fun m hm => by
      unfold Caches.set
      split_ifs
      · rfl
      · exact hD m hm
    exact ⟨D', hn, h'⟩

theorem Does.bind' {S : ℕ → Prop} {P : Prog L α} {f : α → Prog L β} {a : α} {b : β}
    {C C' C'' : Caches L} (h : ∃ p, Does S p P C a C') (hf : ∃ p, Does S p (f a) C' b C'') :
    ∃ p, Does S p (P.bind f) C b C'' := by
  obtain ⟨p, hp⟩ := h
  obtain ⟨q, hq⟩ := hf
  exact ⟨p + q, Does.bind hq hp⟩

theorem done' {S : ℕ → Prop} {a b : α} (h : a = b) (C : Caches L) :
    ∃ p, Does S p (.done a : Prog L α) C b C := ⟨0, h, rfl⟩

theorem does_readP {S : ℕ → Prop} {n : ℕ} {τ : L.Ty} {T : CTree L τ} {C : Caches L} (hS : S n)
    (h : C n = some ⟨τ, T⟩) : Does S 1 (readP n τ) C T C := by
  refine ⟨hS, ?_⟩
  rw [h]
  show Does S 0 (match pick (some ⟨τ, T⟩) τ with | some r => .done r | none => .stuck) C T C
  rw [pick_same]
  exact ⟨rfl, rfl⟩

/-- Building an evaluator, from any caches whatever, reads no stale one. -/
theorem constructP_ok {τ : L.Ty} {e : DExpr L τ} {E : Expr L τ} (h : Unfolds B e E) :
    ∀ (k : ℕ) (C : Caches L), nesting E ≤ k → ∃ C', (∃ p, Does (· ∈ nodes E) p
      (constructP s (dynEvaluateP s B k) e) C (ctree s E) C') ∧ Refreshes s B C C' ∧
      FreshOn s C' E := by
  induction h with
  | leaf a c τ => exact fun k C _ => ⟨C, done' rfl C, .refl C, trivial⟩
  | @un α β a op e E _ ih =>
    intro k C hk
    obtain ⟨C', h, r, f⟩ := ih k C hk
    exact ⟨C', Does.bind' h (done' rfl C'), r, f⟩
  | @bin α β γ a op l r E F hl hr il ir =>
    intro k C hk
    obtain ⟨C₁, ⟨p, h₁⟩, r₁, f₁⟩ := il k C (le_trans (le_max_left _ _) hk)
    obtain ⟨C₂, ⟨q, h₂⟩, r₂, f₂⟩ := ir k C₁ (le_trans (le_max_right _ _) hk)
    refine ⟨C₂, ?_, r₁.trans r₂, f₁.mono r₂ hl, f₂⟩
    exact Does.bind' ⟨p, h₁.mono fun n hn => List.mem_append_left _ hn⟩
      (Does.bind' ⟨q, h₂.mono fun n hn => List.mem_append_right _ hn⟩ (done' rfl C₂))
  | @proxy n τ e E hb hu ih =>
    intro k C hk
    obtain ⟨j, rfl⟩ : ∃ j, k = j + 1 := ⟨k - 1, by simp only [nesting] at hk; omega⟩
    obtain ⟨C', ⟨p, h⟩, r, f⟩ := ih j (C.set n none) (by simp only [nesting] at hk; omega)
    have hr : Refreshes s B C' (C'.set n (some ⟨τ, ctree s E⟩)) := fun m => by
      by_cases hm : m = n
      · exact .inr ⟨τ, e, E, hm ▸ hb, hu, if_pos hm⟩
      · exact .inl (if_neg hm)
    have hn : n ∈ nodes (Expr.proxy n E) := List.mem_cons_self
    refine ⟨C'.set n (some ⟨τ, ctree s E⟩), ?_, fun m => ?_, if_pos rfl, f.mono hr hu⟩
    · refine Does.bind' (C' := C'.set n (some ⟨τ, ctree s E⟩)) (a := (ctree s E).val) ?_ (done' rfl _)
      unfold dynEvaluateP
      rw [hb, pick_same]
      refine Does.bind' (a := ctree s E) (C' := C'.set n (some ⟨τ, ctree s E⟩)) ?_ (done' rfl _)
      have h' : ∃ q, Does (· ∈ nodes (Expr.proxy n E)) q ((constructP s (dynEvaluateP s B j) e).bind
          fun r => .put n (some ⟨τ, r⟩) (readP n τ)) (C.set n none) (ctree s E)
          (C'.set n (some ⟨τ, ctree s E⟩)) :=
        Does.bind' ⟨p, h.mono fun m hm => List.mem_cons_of_mem _ hm⟩
          ⟨2, hn, does_readP hn (if_pos rfl)⟩
      obtain ⟨q, h'⟩ := h'
      exact ⟨q + 1, hn, h'⟩
    · by_cases hm : m = n
      · exact .inr ⟨τ, e, E, hm ▸ hb, hu, if_pos hm⟩
      · rcases r m with r | ⟨τ', e', E', a, b, c⟩
        · exact .inl ((if_neg hm).trans (r.trans (if_neg hm)))
        · exact .inr ⟨τ', e', E', a, b, (if_neg hm).trans c⟩

theorem lazyP_fresh {S : ℕ → Prop} {C : Caches L} {n : ℕ} {τ : L.Ty} {T : CTree L τ} (hS : S n)
    (h : C n = some ⟨τ, T⟩) (k : ℕ) : Does S 2 (lazyEvaluatorP s B k n τ) C T C := by
  refine ⟨hS, ?_⟩
  rw [h]
  exact does_readP hS h

/-- The evaluator can be used: it is the thread's, or the node holds one. -/
def Usable (S : ℕ → Prop) (C : Caches L) (own : Option ℕ) : Prop :=
  ∀ m, own = some m → S m ∧ (C m).isSome

theorem does_touch {S : ℕ → Prop} {C : Caches L} {own : Option ℕ} (h : Usable S C own) :
    ∃ p, Does S p (touch own : Prog L Unit) C () C := by
  cases own with
  | none => exact ⟨0, rfl, rfl⟩
  | some m =>
    refine ⟨1, (h m rfl).1, ?_⟩
    show Does S 0 (if (C m).isSome then .done () else .stuck) C () C
    rw [if_pos (h m rfl).2]
    exact ⟨rfl, rfl⟩

theorem touch_bind {S : ℕ → Prop} {C C' : Caches L} {own : Option ℕ} (h : Usable S C own)
    {f : Unit → Prog L α} {a : α} (hf : ∃ p, Does S p (f ()) C a C') :
    ∃ p, Does S p ((touch own).bind f) C a C' := by
  obtain ⟨p, hp⟩ := does_touch h
  obtain ⟨q, hq⟩ := hf
  exact ⟨p + q, Does.bind hq hp⟩

/-- On fresh caches the dynamic Jacobian is that of a fresh tree, and nothing is written. -/
theorem dynP_ok (t : ℕ) (σ : L.Ty) {C : Caches L} {S : ℕ → Prop} : {τ : L.Ty} → (E : Expr L τ) →
    (k : ℕ) → (own : Option ℕ) → nesting E ≤ k → FreshOn s C E → (∀ n ∈ nodes E, S n) →
    Usable S C own →
    ∃ p, Does S p ((ctree s E).dynP t σ own (dynJacobianCallP s B t σ k)) C ((ETree.mk s E).dyn t σ) C
  | _, .leaf a _ τ, _, _, _, _, _, ho => touch_bind ho (done' rfl C)
  | β, .un a op e, k, own, hk, f, hS, ho => by
    refine touch_bind ho ?_
    show ∃ p, Does S p (if a = t then _ else _) C (if a = t then _ else _) C
    split_ifs with ha
    · exact done' rfl C
    · exact done' rfl C
    · refine Does.bind' (dynP_ok t σ e k own hk f hS ho) (touch_bind ho (done' ?_ C))
      rw [ctree_val]
      cases (ETree.mk s e).dyn t σ <;> rfl
  | γ, .bin a op l r, k, own, hk, f, hS, ho => by
    refine touch_bind ho ?_
    show ∃ p, Does S p (if a = t then _ else _) C (if a = t then _ else _) C
    split_ifs with ha
    · exact done' rfl C
    · exact done' rfl C
    · refine Does.bind' (dynP_ok t σ l k own (le_trans (le_max_left _ _) hk) f.1
        (fun n hn => hS n (List.mem_append_left _ hn)) ho) ?_
      refine Does.bind' (dynP_ok t σ r k own (le_trans (le_max_right _ _) hk) f.2
        (fun n hn => hS n (List.mem_append_right _ hn)) ho) (touch_bind ho (done' ?_ C))
      rw [ctree_val, ctree_val]
      cases (ETree.mk s l).dyn t σ <;> cases (ETree.mk s r).dyn t σ <;> rfl
  | τ, .proxy n e, k, own, hk, f, hS, ho => by
    obtain ⟨j, rfl⟩ : ∃ j, k = j + 1 := ⟨k - 1, by simp only [nesting] at hk; omega⟩
    refine touch_bind ho ?_
    show ∃ p, Does S p (if n = t then _ else _) C (if n = t then _ else _) C
    have hn : S n := hS n List.mem_cons_self
    split_ifs with ha
    · exact done' rfl C
    · exact done' rfl C
    · refine Does.bind' ⟨2, lazyP_fresh hn f.1 j⟩ ?_
      refine dynP_ok t σ e j (some n) (by simp only [nesting] at hk; omega) f.2
        (fun m hm => hS m (List.mem_cons_of_mem _ hm)) ?_
      rintro m ⟨⟩
      exact ⟨hn, by rw [f.1]; rfl⟩

/-- The same for the typed forward evaluator. -/
theorem fwdP_ok (t : Target L) {C : Caches L} {S : ℕ → Prop} {k : ℕ} : {τ : L.Ty} → (E : Expr L τ) →
    nesting E ≤ k → FreshOn s C E → (∀ n ∈ nodes E, S n) →
    ∃ p, Does S p ((ctree s E).fwdP t (dynJacobianCallP s B t.addr t.ty k)) C ((ETree.mk s E).fwd t) C
  | _, .leaf _ _ _, _, _, _ => done' rfl C
  | _, .un a op e, hk, f, hS => by
    refine Does.bind' (fwdP_ok t e hk f hS) (done' ?_ C)
    rw [ctree_val]
    show _ = (match (ETree.mk s e).fwd t with | some J => _ | none => none)
    cases (ETree.mk s e).fwd t <;> rfl
  | _, .bin a op l r, hk, f, hS => by
    have hl := fwdP_ok t l (le_trans (le_max_left _ _) hk) f.1
      (fun n hn => hS n (List.mem_append_left _ hn))
    have hr := fwdP_ok t r (le_trans (le_max_right _ _) hk) f.2
      (fun n hn => hS n (List.mem_append_right _ hn))
    show ∃ p, Does S p (if (ctree s l).hasType t && (ctree s r).hasType t then _
      else if (ctree s l).hasType t then _ else if (ctree s r).hasType t then _ else _) C
      (if (ETree.mk s l).hasType t && (ETree.mk s r).hasType t then _
      else if (ETree.mk s l).hasType t then _ else if (ETree.mk s r).hasType t then _ else _) C
    rw [ctree_val, ctree_val, ctree_hasType, ctree_hasType]
    split_ifs
    · refine Does.bind' hl (Does.bind' hr (done' ?_ C))
      cases (ETree.mk s l).fwd t <;> cases (ETree.mk s r).fwd t <;> rfl
    · refine Does.bind' hl (done' ?_ C)
      cases (ETree.mk s l).fwd t <;> rfl
    · refine Does.bind' hr (done' ?_ C)
      cases (ETree.mk s r).fwd t <;> rfl
    · exact done' rfl C
  | τ, .proxy n e, hk, f, hS => by
    obtain ⟨j, rfl⟩ : ∃ j, k = j + 1 := ⟨k - 1, by simp only [nesting] at hk; omega⟩
    show ∃ p, Does S p (if n = t.addr then _ else _) C (if n = t.addr then _ else _) C
    have hn : S n := hS n List.mem_cons_self
    split_ifs with ha
    · exact done' rfl C
    · exact done' rfl C
    · refine Does.bind' ⟨2, lazyP_fresh hn f.1 j⟩ ?_
      refine dynP_ok t.addr t.ty e j (some n) (by simp only [nesting] at hk; omega) f.2
        (fun m hm => hS m (List.mem_cons_of_mem _ hm)) ?_
      rintro m ⟨⟩
      exact ⟨hn, by rw [f.1]; rfl⟩

/-- The same for the reverse evaluator. -/
theorem dynRevP_ok {ρ : L.Ty} {C : Caches L} {S : ℕ → Prop} : {τ : L.Ty} → (E : Expr L τ) → (k : ℕ) →
    (own : Option ℕ) → nesting E ≤ k → FreshOn s C E → (∀ n ∈ nodes E, S n) → Usable S C own →
    (adj : OMat (L.Idx ρ) (L.Idx τ)) →
    ∃ p, Does S p ((ctree s E).dynRevP own (dynReverseCallP s B k) adj) C
      ((ETree.mk s E).dynRev adj) C
  | _, .leaf _ _ _, _, _, _, _, _, ho, _ => touch_bind ho (done' rfl C)
  | _, .un a op e, k, own, hk, f, hS, ho, adj => by
    refine touch_bind ho ?_
    have := dynRevP_ok e k own hk f hS ho
      (adj.mul (nodeJac op (ctree s (.un a op e)).val (ctree s e).val))
    rw [ctree_val, ctree_val] at this
    rw [ctree_val]
    exact this
  | _, .bin a op l r, k, own, hk, f, hS, ho, adj => by
    refine touch_bind ho ?_
    have hl := dynRevP_ok l k own (le_trans (le_max_left _ _) hk) f.1
      (fun n hn => hS n (List.mem_append_left _ hn)) ho
      (adj.mul (nodeJacL op (ctree s (.bin a op l r)).val (ctree s l).val (ctree s r).val))
    have hr := dynRevP_ok r k own (le_trans (le_max_right _ _) hk) f.2
      (fun n hn => hS n (List.mem_append_right _ hn)) ho
      (adj.mul (nodeJacR op (ctree s (.bin a op l r)).val (ctree s l).val (ctree s r).val))
    refine Does.bind' hl (touch_bind ho (Does.bind' hr (done' ?_ C)))
    rw [ctree_val, ctree_val, ctree_val]
    rfl
  | τ, .proxy n e, k, own, hk, f, hS, ho, adj => by
    obtain ⟨j, rfl⟩ : ∃ j, k = j + 1 := ⟨k - 1, by simp only [nesting] at hk; omega⟩
    refine touch_bind ho ?_
    have hn : S n := hS n List.mem_cons_self
    refine Does.bind' ⟨2, lazyP_fresh hn f.1 j⟩ ?_
    refine dynRevP_ok e j (some n) (by simp only [nesting] at hk; omega) f.2
      (fun m hm => hS m (List.mem_cons_of_mem _ hm)) ?_ adj
    rintro m ⟨⟩
    exact ⟨hn, by rw [f.1]; rfl⟩

/-- A call, alone and from any caches, gives its answer and goes through no other nodes. -/
theorem jacCall_ok {c : Call L} {a : Answer L} {N : List ℕ} (h : Gives B s c a N) (C : Caches L) :
    ∃ C' p, Does (· ∈ N) p (c.prog s B) C a C' := by
  cases h with
  | @eval k τ e E hu hk =>
    obtain ⟨C', h, -, -⟩ := constructP_ok (s := s) hu k C hk
    exact ⟨C', Does.bind' h (done' (congrArg (Answer.value τ) (ctree_val E)) C')⟩
  | @jacobian k t τ e E hu hk =>
    obtain ⟨C', h, -, f⟩ := constructP_ok (s := s) hu k C hk
    exact ⟨C', Does.bind' h (Does.bind' (fwdP_ok t E hk f fun n hn => hn) (done' rfl C'))⟩
  | @dynJacobian k a σ τ e E hu hk =>
    obtain ⟨C', h, -, f⟩ := constructP_ok (s := s) hu k C hk
    exact ⟨C', Does.bind' h (Does.bind' (dynP_ok a σ E k none hk f (fun n hn => hn)
      (fun m hm => by cases hm)) (done' rfl C'))⟩
  | @dynReverse k τ e E hu hk =>
    obtain ⟨C', h, -, f⟩ := constructP_ok (s := s) hu k C hk
    exact ⟨C', Does.bind' h (Does.bind' (dynRevP_ok E k none hk f (fun n hn => hn)
      (fun m hm => by cases hm) (idBlock rfl))
      (done' (congrArg (fun v => Answer.reverse τ v _) (ctree_val E)) C'))⟩

theorem thread_ok {used : List ℕ} {calls : List (Call L)} {answers : List (Answer L)}
    (h : GivesAll B s used calls answers) :
    ∀ C : Caches L, ∃ C' p, Does (· ∈ used) p (threadP s B calls) C answers C' := by
  induction h with
  | nil => exact fun C => ⟨C, done' rfl C⟩
  | cons h _ ih =>
    intro C
    obtain ⟨N, hN, h⟩ := h
    obtain ⟨C₁, p, h₁⟩ := jacCall_ok h C
    obtain ⟨C₂, h₂⟩ := ih C₁
    exact ⟨C₂, Does.bind' ⟨p, h₁.mono fun n hn => hN hn⟩ (Does.bind' h₂ (done' rfl C₂))⟩

section schedules

/-- Accesses of a program, one after the other, by one thread alone. -/
def Prog.steps {α : Type} : ℕ → Prog L α × Caches L → Prog L α × Caches L
  | 0, x => x
  | p + 1, x => Prog.steps p (x.1.step x.2)

theorem steps_add {α : Type} (p q : ℕ) (x : Prog L α × Caches L) :
    Prog.steps (p + q) x = Prog.steps q (Prog.steps p x) := by
  induction p generalizing x with
  | zero => rw [Nat.zero_add]; rfl
  | succ p ih => rw [Nat.succ_add]; exact ih _

/-- The program gets there. -/
def Leads {α : Type} (P : Prog L α) (C : Caches L) (Q : Prog L α) (D : Caches L) : Prop :=
  ∃ p, Prog.steps p (P, C) = (Q, D)

theorem Leads.refl {α : Type} (P : Prog L α) (C : Caches L) : Leads P C P C := ⟨0, rfl⟩

theorem Leads.trans {α : Type} {P Q R : Prog L α} {C D E : Caches L} (h : Leads P C Q D)
    (k : Leads Q D R E) : Leads P C R E := by
  obtain ⟨p, h⟩ := h
  obtain ⟨q, k⟩ := k
  exact ⟨p + q, by rw [steps_add, h, k]⟩

theorem Leads.put {α : Type} (n : ℕ) (c : Option (Entry L)) (P : Prog L α) (C : Caches L) :
    Leads (.put n c P) C P (C.set n c) := ⟨1, rfl⟩

theorem Leads.look {α : Type} (n : ℕ) (k : Option (Entry L) → Prog L α) (C : Caches L) :
    Leads (.look n k) C (k (C n)) C := ⟨1, rfl⟩

theorem step_bind {α β : Type} (P : Prog L α) (f : α → Prog L β) (C : Caches L)
    (h : ∀ a, P ≠ .done a) :
    (P.bind f).step C = ((P.step C).1.bind f, (P.step C).2) := by
  cases P with
  | done a => exact absurd rfl (h a)
  | stuck => rfl
  | look n k => rfl
  | put n c k => rfl

theorem steps_done {α : Type} (p : ℕ) (a : α) (C : Caches L) :
    Prog.steps p (.done a, C) = (.done a, C) := by
  induction p with
  | zero => rfl
  | succ p ih => exact ih

theorem Leads.bind {α β : Type} {P Q : Prog L α} {C D : Caches L} (h : Leads P C Q D)
    (f : α → Prog L β) : Leads (P.bind f) C (Q.bind f) D := by
  obtain ⟨p, h⟩ := h
  induction p generalizing P C with
  | zero => cases h; exact .refl _ _
  | succ p ih =>
    by_cases hd : ∃ a, P = .done a
    · obtain ⟨a, rfl⟩ := hd
      rw [steps_done] at h
      cases h
      exact .refl _ _
    · have hd' : ∀ a, P ≠ .done a := fun a ha => hd ⟨a, ha⟩
      refine Leads.trans ⟨1, step_bind P f C hd'⟩ (ih h)

theorem Does.steps {S : ℕ → Prop} {α : Type} {a : α} {C' : Caches L} :
    ∀ {p : ℕ} {P : Prog L α} {C : Caches L}, Does S p P C a C' →
      Prog.steps p (P, C) = (.done a, C')
  | 0, .done _, _, ⟨rfl, rfl⟩ => rfl
  | _ + 1, .look _ _, _, ⟨_, h⟩ => h.steps
  | _ + 1, .put _ _ _, _, ⟨_, h⟩ => h.steps

theorem Does.leads {S : ℕ → Prop} {α : Type} {a : α} {C C' : Caches L} {P : Prog L α}
    (h : ∃ p, Does S p P C a C') : Leads P C (.done a) C' := by
  obtain ⟨p, h⟩ := h
  exact ⟨p, h.steps⟩

theorem Does.steps_bind {S : ℕ → Prop} {α β γ : Type} {a : α} {C' : Caches L} (f : α → Prog L β)
    (g : β → Prog L γ) :
    ∀ {p : ℕ} {P : Prog L α} {C : Caches L}, Does S p P C a C' →
      Prog.steps p ((P.bind f).bind g, C) = ((f a).bind g, C')
  | 0, .done _, _, ⟨rfl, rfl⟩ => rfl
  | _ + 1, .look _ _, _, ⟨_, h⟩ => h.steps_bind f g
  | _ + 1, .put _ _ _, _, ⟨_, h⟩ => h.steps_bind f g

/-- One access less to make. -/
theorem Does.step {S : ℕ → Prop} {α : Type} {a : α} {C C' : Caches L} :
    ∀ {p : ℕ} {P : Prog L α}, Does S p P C a C' → Does S (p - 1) (P.step C).1 (P.step C).2 a C'
  | 0, .done _, h => h
  | _ + 1, .look _ _, h => h.2
  | _ + 1, .put _ _ _, h => h.2

/-- Other nodes are left alone. -/
theorem Does.step_other {S : ℕ → Prop} {α : Type} {a : α} {C C' : Caches L} {n : ℕ} (hn : ¬ S n) :
    ∀ {p : ℕ} {P : Prog L α}, Does S p P C a C' → C n = (P.step C).2 n
  | 0, .done _, _ => rfl
  | _ + 1, .look _ _, _ => rfl
  | _ + 1, .put _ _ _, h => (if_neg (fun e : n = _ => hn (e ▸ h.1))).symm

/-- The program is about to use the evaluator of node `n`. -/
def AboutToUse {α : Type} (n : ℕ) (P : Prog L α) : Prop := ∃ k, P = .look n k ∧ k none = .stuck

theorem AboutToUse.bind {α β : Type} {n : ℕ} {P : Prog L α} (h : AboutToUse n P) (f : α → Prog L β) :
    AboutToUse n (P.bind f) := by
  obtain ⟨k, rfl, hk⟩ := h
  exact ⟨fun c => (k c).bind f, rfl, congrArg (fun P => P.bind f) hk⟩

theorem aboutToUse_readP (n : ℕ) (τ : L.Ty) : AboutToUse n (readP (L := L) n τ) := ⟨_, rfl, rfl⟩

/-- Evaluation destroys the evaluator of every node of the tree at some time. -/
theorem clears {τ : L.Ty} {e : DExpr L τ} {E : Expr L τ} (h : Unfolds B e E) :
    ∀ (k : ℕ) (C : Caches L) (n : ℕ), nesting E ≤ k → n ∈ nodes E →
      ∃ Q D, Leads (constructP s (dynEvaluateP s B k) e) C Q D ∧ D n = none := by
  induction h with
  | leaf a c τ => exact fun k C n _ hn => by cases hn
  | @un α β a op e E _ ih =>
    intro k C n hk hn
    obtain ⟨Q, D, h, hD⟩ := ih k C n hk hn
    exact ⟨_, D, h.bind _, hD⟩
  | @bin α β γ a op l r E F hl hr il ir =>
    intro k C n hk hn
    rcases List.mem_append.1 hn with hn | hn
    · obtain ⟨Q, D, h, hD⟩ := il k C n (le_trans (le_max_left _ _) hk) hn
      exact ⟨_, D, h.bind _, hD⟩
    · obtain ⟨C₁, h₁, -, -⟩ := constructP_ok (s := s) hl k C (le_trans (le_max_left _ _) hk)
      obtain ⟨Q, D, h, hD⟩ := ir k C₁ n (le_trans (le_max_right _ _) hk) hn
      exact ⟨_, D, ((Does.leads h₁).bind _).trans (h.bind _), hD⟩
  | @proxy m τ e E hb hu ih =>
    intro k C n hk hn
    obtain ⟨j, rfl⟩ : ∃ j, k = j + 1 := ⟨k - 1, by simp only [nesting] at hk; omega⟩
    have hj : nesting E ≤ j := by simp only [nesting] at hk; omega
    have hstart : dynEvaluateP s B (j + 1) m τ =
        (constructEvaluatorP s (dynEvaluateP s B j) m e).bind fun r => .done r.val := by
      rw [dynEvaluateP, hb, pick_same]
    have hput := Leads.put m none ((constructP s (dynEvaluateP s B j) e).bind fun r =>
      .put m (some ⟨τ, r⟩) (readP m τ)) C
    show ∃ Q D, Leads ((dynEvaluateP s B (j + 1) m τ).bind _) C Q D ∧ D n = none
    rw [hstart]
    rcases List.mem_cons.1 hn with rfl | hn
    · exact ⟨_, _, (hput.bind _).bind _, if_pos rfl⟩
    · obtain ⟨Q, D, h, hD⟩ := ih j (C.set m none) n hj hn
      exact ⟨_, D, ((hput.trans (h.bind _)).bind _).bind _, hD⟩

/-- Evaluation uses the evaluator of every node of the tree at some time. -/
theorem uses {τ : L.Ty} {e : DExpr L τ} {E : Expr L τ} (h : Unfolds B e E) :
    ∀ (k : ℕ) (C : Caches L) (n : ℕ), nesting E ≤ k → n ∈ nodes E →
      ∃ Q D, Leads (constructP s (dynEvaluateP s B k) e) C Q D ∧ AboutToUse n Q := by
  induction h with
  | leaf a c τ => exact fun k C n _ hn => by cases hn
  | @un α β a op e E _ ih =>
    intro k C n hk hn
    obtain ⟨Q, D, h, hD⟩ := ih k C n hk hn
    exact ⟨_, D, h.bind _, hD.bind _⟩
  | @bin α β γ a op l r E F hl hr il ir =>
    intro k C n hk hn
    rcases List.mem_append.1 hn with hn | hn
    · obtain ⟨Q, D, h, hD⟩ := il k C n (le_trans (le_max_left _ _) hk) hn
      exact ⟨_, D, h.bind _, hD.bind _⟩
    · obtain ⟨C₁, h₁, -, -⟩ := constructP_ok (s := s) hl k C (le_trans (le_max_left _ _) hk)
      obtain ⟨Q, D, h, hD⟩ := ir k C₁ n (le_trans (le_max_right _ _) hk) hn
      exact ⟨_, D, ((Does.leads h₁).bind _).trans (h.bind _), hD.bind _⟩
  | @proxy m τ e E hb hu ih =>
    intro k C n hk hn
    obtain ⟨j, rfl⟩ : ∃ j, k = j + 1 := ⟨k - 1, by simp only [nesting] at hk; omega⟩
    have hj : nesting E ≤ j := by simp only [nesting] at hk; omega
    have hstart : dynEvaluateP s B (j + 1) m τ =
        (constructEvaluatorP s (dynEvaluateP s B j) m e).bind fun r => .done r.val := by
      rw [dynEvaluateP, hb, pick_same]
    have hput := Leads.put m none ((constructP s (dynEvaluateP s B j) e).bind fun r =>
      .put m (some ⟨τ, r⟩) (readP m τ)) C
    show ∃ Q D, Leads ((dynEvaluateP s B (j + 1) m τ).bind _) C Q D ∧ AboutToUse n Q
    rw [hstart]
    rcases List.mem_cons.1 hn with rfl | hn
    · obtain ⟨C', h, -, -⟩ := constructP_ok (s := s) hu j (C.set n none) hj
      exact ⟨_, _, ((hput.trans (((Does.leads h).bind _).trans (Leads.put _ _ _ _))).bind _).bind _,
        ((aboutToUse_readP n τ).bind _).bind _⟩
    · obtain ⟨Q, D, h, hD⟩ := ih j (C.set m none) n hj hn
      exact ⟨_, D, ((hput.trans (h.bind _)).bind _).bind _, ((hD.bind _).bind _).bind _⟩

/-- The reverse sweep uses the evaluator of every node of the tree at some time. -/
theorem sweep_uses {ρ : L.Ty} {C : Caches L} : {τ : L.Ty} → (E : Expr L τ) → (k : ℕ) →
    (own : Option ℕ) → nesting E ≤ k → FreshOn s C E → Usable (fun _ => True) C own →
    (adj : OMat (L.Idx ρ) (L.Idx τ)) → (n : ℕ) → n ∈ nodes E →
    ∃ Q D, Leads ((ctree s E).dynRevP own (dynReverseCallP s B k) adj) C Q D ∧ AboutToUse n Q
  | _, .leaf _ _ _, _, _, _, _, _, _, _, hn => by cases hn
  | _, .un a op e, k, own, hk, f, ho, adj, n, hn => by
    obtain ⟨Q, D, h, hQ⟩ := sweep_uses e k own hk f ho
      (adj.mul (nodeJac op (ctree s (.un a op e)).val (ctree s e).val)) n hn
    exact ⟨_, D, ((Does.leads (does_touch ho)).bind _).trans h, hQ⟩
  | _, .bin a op l r, k, own, hk, f, ho, adj, n, hn => by
    have ht : Leads (touch own : Prog L Unit) C (.done ()) C := Does.leads (does_touch ho)
    rcases List.mem_append.1 hn with hn | hn
    · obtain ⟨Q, D, h, hQ⟩ := sweep_uses l k own (le_trans (le_max_left _ _) hk) f.1 ho
        (adj.mul (nodeJacL op (ctree s (.bin a op l r)).val (ctree s l).val (ctree s r).val)) n hn
      exact ⟨_, D, (ht.bind _).trans (h.bind _), hQ.bind _⟩
    · have hl := Does.leads (dynRevP_ok (B := B) (S := fun _ => True) l k own (le_trans (le_max_left _ _) hk)
        f.1 (fun _ _ => trivial) ho
        (adj.mul (nodeJacL op (ctree s (.bin a op l r)).val (ctree s l).val (ctree s r).val)))
      obtain ⟨Q, D, h, hQ⟩ := sweep_uses r k own (le_trans (le_max_right _ _) hk) f.2 ho
        (adj.mul (nodeJacR op (ctree s (.bin a op l r)).val (ctree s l).val (ctree s r).val)) n hn
      exact ⟨_, D, (ht.bind _).trans ((hl.bind _).trans ((ht.bind _).trans (h.bind _))), hQ.bind _⟩
  | τ, .proxy m e, k, own, hk, f, ho, adj, n, hn => by
    obtain ⟨j, rfl⟩ : ∃ j, k = j + 1 := ⟨k - 1, by simp only [nesting] at hk; omega⟩
    have ht : Leads (touch own : Prog L Unit) C (.done ()) C := Does.leads (does_touch ho)
    rcases List.mem_cons.1 hn with rfl | hn
    · have h1 := Leads.look n (fun c => match c with
        | some _ => readP n τ
        | none =>
          match pick (B n) τ with
          | none => Prog.stuck
          | some e => constructEvaluatorP s (dynEvaluateP s B j) n e) C
      rw [f.1] at h1
      exact ⟨_, C, (ht.bind _).trans (h1.bind _), (aboutToUse_readP n τ).bind _⟩
    · have h1 := Does.leads ⟨2, lazyP_fresh (s := s) (B := B) (S := fun _ => True) trivial f.1 j⟩
      obtain ⟨Q, D, h, hQ⟩ := sweep_uses e j (some m) (by simp only [nesting] at hk; omega)
        f.2 (by rintro i ⟨⟩; exact ⟨trivial, by rw [f.1]; rfl⟩) adj n hn
      exact ⟨Q, D, (ht.bind _).trans ((h1.bind _).trans h), hQ⟩

end schedules

end WG
