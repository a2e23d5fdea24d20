import Verif.Spec.Threads

/-! # Evaluation as a sequence of steps -/

namespace WG

variable {L : Lib} {s : Store L}

open Spec

/-- Run the steps of one thread without interruption. -/
def exec (s : Store L) : List (Instr L) → List (Cell L) → Shared L →
    Option (List (Cell L) × Shared L)
  | [], st, M => some (st, M)
  | x :: p, st, M => (x.step s M st).bind fun o => exec s p o.1 o.2

theorem exec_append (p q : List (Instr L)) (st : List (Cell L)) (M : Shared L) :
    exec s (p ++ q) st M = (exec s p st M).bind fun o => exec s q o.1 o.2 := by
  induction p generalizing st M with
  | nil => rfl
  | cons x p ih =>
    show (x.step s M st).bind _ = ((x.step s M st).bind _).bind _
    cases x.step s M st with
    | none => rfl
    | some o => exact ih o.1 o.2

/-- Evaluating leaves the value on top of the stack. -/
theorem exec_compile : {τ : L.Ty} → (e : Expr L τ) → (st : List (Cell L)) → (M : Shared L) →
    ∃ M', exec s (compile e) st M = some (⟨τ, e.eval s⟩ :: st, M')
  | _, .leaf a c τ, st, M => ⟨M, rfl⟩
  | _, @Expr.un _ α β a op e, st, M => by
    obtain ⟨M', h⟩ := exec_compile e st M
    refine ⟨M', ?_⟩
    show exec s (compile e ++ [.un op]) st M = _
    rw [exec_append, h]
    show ((if h : α = α then _ else none : Option (List (Cell L) × Shared L)).bind _) = _
    rw [dif_pos rfl]; rfl
  | _, @Expr.bin _ α β γ a op l r, st, M => by
    obtain ⟨M₁, h₁⟩ := exec_compile l st M
    obtain ⟨M₂, h₂⟩ := exec_compile r (⟨α, l.eval s⟩ :: st) M₁
    refine ⟨M₂, ?_⟩
    show exec s (compile l ++ compile r ++ [.bin op]) st M = _
    rw [exec_append, exec_append, h₁]
    show ((exec s (compile r) (⟨α, l.eval s⟩ :: st) M₁).bind _) = _
    rw [h₂]
    show ((if h : α = α then if k : β = β then _ else none else none :
      Option (List (Cell L) × Shared L)).bind _) = _
    rw [dif_pos rfl, dif_pos rfl]; rfl
  | τ, .proxy n e, st, M => by
    obtain ⟨M', h⟩ := exec_compile e st (fun m => if m = n then none else M m)
    refine ⟨fun m => if m = n then some ⟨τ, e.eval s⟩ else M' m, ?_⟩
    show exec s (compile e ++ [.build n, .read n]) st (fun m => if m = n then none else M m) = _
    rw [exec_append, h]
    show (((if n = n then some (⟨τ, e.eval s⟩ : Cell L) else M' n).map _).bind _) = _
    rw [if_pos rfl]; rfl

theorem clears_append (n : ℕ) (p q : List (Instr L)) :
    clears n (p ++ q) = clears n p + clears n q := List.countP_append
theorem reads_append (n : ℕ) (p q : List (Instr L)) :
    reads n (p ++ q) = reads n p + reads n q := List.countP_append

/-- Calls that have begun, end. -/
def Bal : List (Instr L) → Prop
  | [] => True
  | x :: p => (∀ n, clears n (x :: p) ≤ reads n (x :: p)) ∧ Bal p

theorem Bal.le {p : List (Instr L)} (h : Bal p) (n : ℕ) : clears n p ≤ reads n p := by
  cases p with
  | nil => exact le_rfl
  | cons x p => exact h.1 n

theorem Bal.append {p q : List (Instr L)} (hp : Bal p) (hq : Bal q) : Bal (p ++ q) := by
  induction p with
  | nil => exact hq
  | cons x p ih =>
    refine ⟨fun n => ?_, ih hp.2⟩
    show clears n ((x :: p) ++ q) ≤ reads n ((x :: p) ++ q)
    rw [clears_append, reads_append]
    exact Nat.add_le_add (hp.1 n) (hq.le n)

theorem bal_compile : {τ : L.Ty} → (e : Expr L τ) →
    (∀ n, clears n (compile e) = reads n (compile e)) ∧ Bal (compile e)
  | _, .leaf a c τ => ⟨fun _ => rfl, fun _ => le_rfl, trivial⟩
  | _, .un a op e => by
    obtain ⟨h, b⟩ := bal_compile e
    refine ⟨fun n => ?_, b.append ⟨fun _ => le_rfl, trivial⟩⟩
    show clears n (compile e ++ _) = reads n (compile e ++ _)
    rw [clears_append, reads_append, h]; rfl
  | _, .bin a op l r => by
    obtain ⟨h, b⟩ := bal_compile l
    obtain ⟨k, c⟩ := bal_compile r
    refine ⟨fun n => ?_, (b.append c).append ⟨fun _ => le_rfl, trivial⟩⟩
    show clears n (compile l ++ compile r ++ _) = reads n (compile l ++ compile r ++ _)
    rw [clears_append, reads_append, clears_append, reads_append, h, k]; rfl
  | _, .proxy m e => by
    obtain ⟨h, b⟩ := bal_compile e
    have key : ∀ n, clears n (.clear m :: compile e ++ [.build m, .read m]) =
        reads n (.clear m :: compile e ++ [.build m, .read m]) := fun n => by
      rw [List.cons_append, ← List.singleton_append, clears_append, reads_append, clears_append,
        reads_append, h]
      by_cases hm : m = n <;> simp [clears, reads, hm] <;> omega
    refine ⟨key, fun n => (key n).le, ?_⟩
    refine b.append ⟨fun n => ?_, fun n => ?_, trivial⟩ <;> simp [clears, reads]

/-- The thread depends only on the evaluators of the calls it is inside of. -/
theorem exec_congr (p : List (Instr L)) (hb : Bal p) (st : List (Cell L)) (M N : Shared L)
    (h : ∀ n, Inside n (⟨p, st⟩ : Thread L) → M n = N n) :
    (exec s p st M).map Prod.fst = (exec s p st N).map Prod.fst := by
  induction p generalizing st M N with
  | nil => rfl
  | cons x p ih =>
    show ((x.step s M st).bind fun o => exec s p o.1 o.2).map _ =
      ((x.step s N st).bind fun o => exec s p o.1 o.2).map _
    have same : (∀ n, clears n (x :: p) = clears n p) → (∀ n, reads n (x :: p) = reads n p) →
        ∀ (st' : List (Cell L)) n, Inside n (⟨p, st'⟩ : Thread L) → M n = N n := fun h1 h2 st' n hi =>
      h n (show clears n (x :: p) < reads n (x :: p) by rw [h1, h2]; exact hi)
    cases x with
    | leaf a τ => exact ih hb.2 _ _ _ (same (fun _ => rfl) (fun _ => rfl) _)
    | @un α β op =>
      cases st with
      | nil => rfl
      | cons y st =>
        simp only [Instr.step]
        split_ifs
        · exact ih hb.2 _ _ _ (same (fun _ => rfl) (fun _ => rfl) _)
        · rfl
    | @bin α β γ op =>
      match st with
      | [] => rfl
      | [_] => rfl
      | y :: z :: st =>
        simp only [Instr.step]
        split_ifs
        · exact ih hb.2 _ _ _ (same (fun _ => rfl) (fun _ => rfl) _)
        · rfl
        · rfl
    | clear n =>
      refine ih hb.2 _ _ _ fun m hm => ?_
      dsimp only
      by_cases hmn : m = n
      · rw [if_pos hmn, if_pos hmn]
      · rw [if_neg hmn, if_neg hmn]
        refine h m ?_
        have : clears m (.clear n :: p) = clears m p := by simp [clears, Ne.symm hmn]
        show clears m (.clear n :: p) < reads m (.clear n :: p)
        rw [this]; exact hm
    | build n =>
      cases st with
      | nil => rfl
      | cons y st =>
        refine ih hb.2 _ _ _ fun m hm => ?_
        dsimp only
        by_cases hmn : m = n
        · rw [if_pos hmn, if_pos hmn]
        · rw [if_neg hmn, if_neg hmn]
          exact h m hm
    | read n =>
      have hn : M n = N n := h n (by
        have h1 : clears n (.read n :: p) = clears n p := rfl
        have h2 : reads n (.read n :: p) = reads n p + 1 := by simp [reads]
        show clears n (.read n :: p) < reads n (.read n :: p)
        rw [h1, h2]
        exact Nat.lt_succ_of_le (hb.2.le n))
      show (((M n).map _).bind _).map _ = (((N n).map _).bind _).map _
      rw [← hn]
      cases M n with
      | none => rfl
      | some y =>
        refine ih hb.2 _ _ _ fun m hm => h m ?_
        have h1 : clears m (.read n :: p) = clears m p := rfl
        have h2 : reads m p ≤ reads m (.read n :: p) := (List.sublist_cons_self _ p).countP_le
        show clears m (.read n :: p) < reads m (.read n :: p)
        rw [h1]
        exact lt_of_lt_of_le hm h2

/-- A step changes only the evaluator it touches. -/
theorem step_other {x : Instr L} {M : Shared L} {st : List (Cell L)} {o : List (Cell L) × Shared L}
    (h : x.step s M st = some o) (n : ℕ) (hn : touches n x = false) : o.2 n = M n := by
  cases x with
  | leaf a τ => cases h; rfl
  | un op =>
    cases st with
    | nil => cases h
    | cons y st =>
      simp only [Instr.step] at h
      split_ifs at h
      cases h; rfl
  | bin op =>
    match st with
    | [] => cases h
    | [_] => cases h
    | y :: z :: st =>
      simp only [Instr.step] at h
      split_ifs at h
      cases h; rfl
  | clear m =>
    cases h
    exact if_neg fun e => by simp [touches, e] at hn
  | build m =>
    cases st with
    | nil => cases h
    | cons y st =>
      cases h
      exact if_neg fun e => by simp [touches, e] at hn
  | read m =>
    obtain ⟨y, -, rfl⟩ := Option.map_eq_some_iff.1 h
    rfl

/-- Every thread, left alone from here, ends with its value. -/
def OnTrack (s : Store L) (v : Bool → Cell L) (w : Two L) : Prop :=
  ∀ i, Bal (w.thr i).todo ∧
    (exec s (w.thr i).todo (w.thr i).stack w.mem).map Prod.fst = some [v i]

theorem onTrack_step {v : Bool → Cell L} {w : Two L} (h : OnTrack s v w) (i : Bool)
    (ha : ∀ x r n, (w.thr i).todo = x :: r → touches n x = true → ¬ Inside n (w.thr !i)) :
    ∃ w', w.step s i = some w' ∧ OnTrack s v w' := by
  unfold Two.step
  cases ht : (w.thr i).todo with
  | nil => exact ⟨w, rfl, h⟩
  | cons x r =>
    obtain ⟨hb, he⟩ := h i
    rw [ht] at hb he
    change ((x.step s w.mem (w.thr i).stack).bind fun o => exec s r o.1 o.2).map _ = _ at he
    cases hs : x.step s w.mem (w.thr i).stack with
    | none => rw [hs] at he; cases he
    | some o =>
      rw [hs] at he
      refine ⟨⟨fun j => if j = i then ⟨r, o.1⟩ else w.thr j, o.2⟩, ?_, fun j => ?_⟩
      · show (x.step s w.mem (w.thr i).stack).map _ = _
        rw [hs]; rfl
      by_cases hj : j = i
      · subst hj
        simp only [if_true]
        exact ⟨hb.2, he⟩
      · have hj' : j = !i := by cases i <;> cases j <;> simp_all
        simp only [if_neg hj]
        refine ⟨(h j).1, ?_⟩
        rw [← (h j).2]
        refine exec_congr _ (h j).1 _ _ _ fun n hn => ?_
        refine step_other hs n ?_
        cases hx : touches n x with
        | false => rfl
        | true => exact absurd (hj' ▸ hn) (ha x r n ht hx)

theorem onTrack_run {v : Bool → Cell L} (is : List Bool) {w : Two L} (h : OnTrack s v w)
    (ha : Apart s is w) : ∃ w', Two.run s is w = some w' ∧ OnTrack s v w' := by
  induction is generalizing w with
  | nil => exact ⟨w, rfl, h⟩
  | cons i is ih =>
    obtain ⟨w', hw, hw'⟩ := onTrack_step h i ha.1
    obtain ⟨w'', hr, ho⟩ := ih hw' (ha.2 w' hw)
    refine ⟨w'', ?_, ho⟩
    show (w.step s i).bind _ = _
    rw [hw]; exact hr

theorem onTrack_start {τ υ : L.Ty} (e : Expr L τ) (f : Expr L υ) (M : Shared L) :
    OnTrack s (fun i => if i then ⟨υ, f.eval s⟩ else ⟨τ, e.eval s⟩) (Two.start e f M) := fun i => by
  cases i
  · obtain ⟨M', h⟩ := exec_compile (s := s) e [] M
    exact ⟨(bal_compile e).2, (congrArg (Option.map Prod.fst) h)⟩
  · obtain ⟨M', h⟩ := exec_compile (s := s) f [] M
    exact ⟨(bal_compile f).2, (congrArg (Option.map Prod.fst) h)⟩

/-- The nodes touched are the nodes of the tree. -/
theorem touches_compile (n : ℕ) : {τ : L.Ty} → (e : Expr L τ) → ∀ x ∈ compile e,
    touches n x = true → n ∈ nodes e
  | _, .leaf a c τ, x, hx, ht => by
    rw [List.mem_singleton.1 hx] at ht; cases ht
  | _, .un a op e, x, hx, ht => by
    rcases List.mem_append.1 hx with hx | hx
    · exact touches_compile n e x hx ht
    · rw [List.mem_singleton.1 hx] at ht; cases ht
  | _, .bin a op l r, x, hx, ht => by
    rcases List.mem_append.1 hx with hx | hx
    · rcases List.mem_append.1 hx with hx | hx
      · exact List.mem_append_left _ (touches_compile n l x hx ht)
      · exact List.mem_append_right _ (touches_compile n r x hx ht)
    · rw [List.mem_singleton.1 hx] at ht; cases ht
  | _, .proxy m e, x, hx, ht => by
    rcases List.mem_append.1 hx with hx | hx
    · rcases List.mem_cons.1 hx with rfl | hx
      · simp only [touches, decide_eq_true_eq] at ht
        exact ht ▸ List.mem_cons_self
      · exact List.mem_cons_of_mem _ (touches_compile n e x hx ht)
    · have : m = n := by
        rcases List.mem_cons.1 hx with rfl | hx
        · simpa [touches] using ht
        · rw [List.mem_singleton.1 hx] at ht
          simpa [touches] using ht
      exact this ▸ List.mem_cons_self

theorem mem_compile (n : ℕ) : {τ : L.Ty} → (e : Expr L τ) → n ∈ nodes e →
    Instr.clear n ∈ compile e ∧ Instr.read n ∈ compile e
  | _, .leaf _ _ _, h => by cases h
  | _, .un _ op e, h => by
    obtain ⟨a, b⟩ := mem_compile n e h
    exact ⟨List.mem_append_left _ a, List.mem_append_left _ b⟩
  | _, .bin _ op l r, h => by
    rcases List.mem_append.1 h with h | h
    · obtain ⟨a, b⟩ := mem_compile n l h
      exact ⟨List.mem_append_left _ (List.mem_append_left _ a),
        List.mem_append_left _ (List.mem_append_left _ b)⟩
    · obtain ⟨a, b⟩ := mem_compile n r h
      exact ⟨List.mem_append_left _ (List.mem_append_right _ a),
        List.mem_append_left _ (List.mem_append_right _ b)⟩
  | _, .proxy m e, h => by
    rcases List.mem_cons.1 h with rfl | h
    · exact ⟨List.mem_append_left _ List.mem_cons_self,
        List.mem_append_right _ (List.mem_cons_of_mem _ List.mem_cons_self)⟩
    · obtain ⟨a, b⟩ := mem_compile n e h
      exact ⟨List.mem_append_left _ (List.mem_cons_of_mem _ a),
        List.mem_append_left _ (List.mem_cons_of_mem _ b)⟩

/-- Scheduling only one thread runs its steps in order. -/
theorem run_alone (i : Bool) (p q : List (Instr L)) (w : Two L) (hw : (w.thr i).todo = p ++ q)
    {o : List (Cell L) × Shared L} (h : exec s p (w.thr i).stack w.mem = some o) (rest : List Bool) :
    Two.run s (List.replicate p.length i ++ rest) w =
      Two.run s rest ⟨fun j => if j = i then ⟨q, o.1⟩ else w.thr j, o.2⟩ := by
  induction p generalizing w with
  | nil =>
    cases h
    refine congrArg (Two.run s rest) ?_
    cases w with
    | mk thr mem =>
    refine congrArg (Two.mk · mem) (funext fun j => ?_)
    by_cases hj : j = i
    · subst hj
      simp only [if_true]
      cases hv : thr j with
      | mk a b => simp only [hv] at hw ⊢; simp only [hw, List.nil_append]
    · simp only [if_neg hj]
  | cons x p ih =>
    obtain ⟨o₁, h₁, h₂⟩ := Option.bind_eq_some_iff.1 h
    show (w.step s i).bind _ = _
    have hst : w.step s i = some ⟨fun j => if j = i then ⟨p ++ q, o₁.1⟩ else w.thr j, o₁.2⟩ := by
      unfold Two.step
      rw [hw]
      show (x.step s w.mem (w.thr i).stack).map _ = _
      rw [h₁]; rfl
    rw [hst]
    refine (ih ⟨fun j => if j = i then ⟨p ++ q, o₁.1⟩ else w.thr j, o₁.2⟩ (by simp) ?_).trans ?_
    · simpa using h₂
    · refine congrArg (fun f => Two.run s rest ⟨f, o.2⟩) (funext fun j => ?_)
      by_cases hj : j = i <;> simp [hj]

end WG
