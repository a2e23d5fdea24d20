import Verif.Lemmas.Threads
import Verif.Props.Differentiation

/-!
# C48: concurrent evaluation of dynamic expressions

The claim is false of the code whenever the two expressions share a node, and true when they do not.
-/

namespace WG

variable {L : Lib} {s : Store L} {τ υ : L.Ty} {e : Expr L τ} {f : Expr L υ}

open Spec

/-- **C48 is false.**  Whatever the expressions and the leaves: if they share a node, some schedule of
the two evaluations makes one thread read an evaluator that the other has destroyed. -/
theorem c48_false (n : ℕ) (he : n ∈ nodes e) (hf : n ∈ nodes f) (M : Shared L) :
    ∃ sched, Two.run s sched (Two.start e f M) = none := by
  obtain ⟨p, q, hp⟩ := List.append_of_mem (mem_compile n e he).2
  obtain ⟨p', q', hp'⟩ := List.append_of_mem (mem_compile n f hf).1
  obtain ⟨M₁, h₁⟩ := exec_compile (s := s) e [] M
  rw [hp, exec_append] at h₁
  obtain ⟨o, ho, -⟩ := Option.bind_eq_some_iff.1 h₁
  obtain ⟨M₂, h₂⟩ := exec_compile (s := s) f [] o.2
  rw [hp', exec_append] at h₂
  obtain ⟨o', ho', -⟩ := Option.bind_eq_some_iff.1 h₂
  refine ⟨List.replicate p.length false ++ (List.replicate p'.length true ++ [true, false]), ?_⟩
  rw [run_alone false p (.read n :: q) (Two.start e f M) hp ho]
  refine (run_alone (s := s) true p' (.clear n :: q') _ hp' (o := o') ho' _).trans ?_
  · simp [Two.run, Two.step, Instr.step]

/-- The two evaluations race in the sense of the C++ memory model exactly when they share a node. -/
theorem c48_race : Race (compile e) (compile f) ↔ ∃ n, n ∈ nodes e ∧ n ∈ nodes f := by
  constructor
  · rintro ⟨n, x, hx, y, hy, tx, ty, -⟩
    exact ⟨n, touches_compile n e x hx tx, touches_compile n f y hy ty⟩
  · rintro ⟨n, he, hf⟩
    exact ⟨n, _, (mem_compile n e he).1, _, (mem_compile n f hf).1, by simp [touches],
      by simp [touches], .inl (by simp [writes])⟩

/-- **C48, partial.**  Missing: schedules that let one thread start a call on a node while the other
is inside a call on it (there the claim is false, `c48_false`).  For all other schedules — any
interleaving in which calls on one and the same node do not overlap — no step is undefined, and when
both threads are done both have the value of the leaves. -/
theorem c48_apart_partial (M : Shared L) (sched : List Bool)
    (h : Apart s sched (Two.start e f M)) :
    ∃ w, Two.run s sched (Two.start e f M) = some w ∧
      ((∀ i, (w.thr i).todo = []) → Finished w (e.eval s) (f.eval s)) := by
  obtain ⟨w, hw, ho⟩ := onTrack_run sched (onTrack_start (s := s) e f M) h
  refine ⟨w, hw, fun hd => ⟨?_, ?_⟩⟩
  · have h1 := (ho false).2
    have hd' := hd false
    cases hv : w.thr false with
    | mk a b =>
      simp only [hv] at h1 hd'
      subst hd'
      exact congrArg (Thread.mk []) (Option.some.inj h1)
  · have h1 := (ho true).2
    have hd' := hd true
    cases hv : w.thr true with
    | mk a b =>
      simp only [hv] at h1 hd'
      subst hd'
      exact congrArg (Thread.mk []) (Option.some.inj h1)

theorem todo_suffix (sched : List Bool) {w w' : Two L} (h : Two.run s sched w = some w') (i : Bool) :
    (w'.thr i).todo <:+ (w.thr i).todo := by
  induction sched generalizing w with
  | nil => cases h; exact List.suffix_rfl
  | cons j js ih =>
    obtain ⟨w₁, h₁, h₂⟩ := Option.bind_eq_some_iff.1 h
    refine (ih h₂).trans ?_
    unfold Two.step at h₁
    cases ht : (w.thr j).todo with
    | nil => rw [ht] at h₁; cases h₁; exact List.suffix_rfl
    | cons x r =>
      rw [ht] at h₁
      obtain ⟨o, -, rfl⟩ := Option.map_eq_some_iff.1 h₁
      by_cases hij : i = j
      · subst hij
        simp only [if_true, ht]
        exact List.suffix_cons x r
      · simp only [if_neg hij]
        exact List.suffix_rfl

theorem apart_of_disjoint (hd : ∀ n, n ∈ nodes e → n ∉ nodes f) (sched : List Bool) (w : Two L)
    (h0 : (w.thr false).todo <:+ compile e) (h1 : (w.thr true).todo <:+ compile f) :
    Apart s sched w := by
  induction sched generalizing w with
  | nil => trivial
  | cons i is ih =>
    have quiet : ∀ {n : ℕ} {p : List (Instr L)} {st}, (∀ x ∈ p, touches n x = true → False) →
        ¬ Inside n ⟨p, st⟩ := fun {n p st} h hi => by
      have : reads n p = 0 := List.countP_eq_zero.2 fun x hx hr => h x hx (by
        cases x <;> simp_all [touches])
      simp only [Inside, this, Nat.not_lt_zero] at hi
    refine ⟨fun x r n ht hx => ?_, fun w' hw => ?_⟩
    · cases i
      · have : n ∈ nodes e := touches_compile n e x (h0.subset (ht ▸ List.mem_cons_self)) hx
        exact quiet fun y hy hn => hd n this (touches_compile n f y (h1.subset hy) hn)
      · have : n ∈ nodes f := touches_compile n f x (h1.subset (ht ▸ List.mem_cons_self)) hx
        exact quiet fun y hy hn => hd n (touches_compile n e y (h0.subset hy) hn) this
    · have hr : Two.run s [i] w = some w' := by
        show (w.step s i).bind _ = _
        rw [hw]; rfl
      exact ih w' ((todo_suffix [i] hr false).trans h0) ((todo_suffix [i] hr true).trans h1)

/-- **C48, partial.**  Missing: expressions that share a node.  Expressions that share only leaves can
be evaluated at the same time in any interleaving. -/
theorem c48_disjoint_partial (hd : ∀ n, n ∈ nodes e → n ∉ nodes f) (M : Shared L)
    (sched : List Bool) :
    ∃ w, Two.run s sched (Two.start e f M) = some w ∧
      ((∀ i, (w.thr i).todo = []) → Finished w (e.eval s) (f.eval s)) :=
  c48_apart_partial M sched (apart_of_disjoint hd sched _ List.suffix_rfl List.suffix_rfl)

theorem apart_append (is js : List Bool) (w : Two L) (h : Apart s is w)
    (k : ∀ w', Two.run s is w = some w' → Apart s js w') : Apart s (is ++ js) w := by
  induction is generalizing w with
  | nil => exact k w rfl
  | cons i is ih =>
    refine ⟨h.1, fun w' hw => ih w' (h.2 w' hw) fun w'' hw'' => k w'' ?_⟩
    show (w.step s i).bind _ = _
    rw [hw]; exact hw''

theorem apart_replicate (k : ℕ) (i : Bool) (w : Two L) (h : ∀ n, ¬ Inside n (w.thr !i)) :
    Apart s (List.replicate k i) w := by
  induction k generalizing w with
  | zero => trivial
  | succ k ih =>
    refine ⟨fun x r n _ _ => h n, fun w' hw => ih w' ?_⟩
    have : w'.thr (!i) = w.thr (!i) := by
      unfold Two.step at hw
      cases ht : (w.thr i).todo with
      | nil => rw [ht] at hw; cases hw; rfl
      | cons x r =>
        rw [ht] at hw
        obtain ⟨o, -, rfl⟩ := Option.map_eq_some_iff.1 hw
        cases i <;> rfl
    rw [this]; exact h

/-! ## Cases -/

/-- Both threads evaluate `R * (dynamic node holding R * v)`. -/
example (ε : ℝ) : (50 : ℕ) ∈ nodes (exDyn ε) := by simp [exDyn, nodes]

/-- One after the other, through the same node: a schedule of `c48_apart_partial` that finishes. -/
example (s : Store L) (M : Shared L) :
    let sched := List.replicate (compile e).length false ++ List.replicate (compile f).length true
    Apart s sched (Two.start e f M) ∧
      ∃ w, Two.run s sched (Two.start e f M) = some w ∧ ∀ i, (w.thr i).todo = [] := by
  obtain ⟨M₁, h₁⟩ := exec_compile (s := s) e [] M
  obtain ⟨M₂, h₂⟩ := exec_compile (s := s) f [] M₁
  have h1 := run_alone (s := s) false (compile e) [] (Two.start e f M) (List.append_nil _).symm h₁
  refine ⟨apart_append _ _ _ (apart_replicate _ _ _ fun n => ?_) fun w' hw' => ?_, ?_⟩
  · exact not_lt_of_ge ((bal_compile f).1 n).ge
  · rw [← List.append_nil (List.replicate _ _), h1] at hw'
    cases hw'
    exact apart_replicate _ _ _ fun n => Nat.not_lt_zero _
  · rw [h1, ← List.append_nil (List.replicate _ true)]
    refine ⟨_, run_alone (s := s) true (compile f) [] _ (List.append_nil _).symm h₂ [], fun i => ?_⟩
    cases i <;> rfl

/-- Leaves may be shared: the same expression held by two nodes. -/
example (ε : ℝ) : ∀ n, n ∈ nodes (exDyn ε) → n ∉ nodes (Expr.proxy 51 (exUnique ε)) := by
  simp [exDyn, exUnique, nodes]

end WG
