import Verif.Lemmas.ThreadsJac
import Verif.Props.DynCache

/-! # C69: concurrent evaluation and differentiation of dynamic expressions -/

namespace WG

variable {L : Lib} {s : Store L} {B : Bodies L} {ι : Type} [DecidableEq ι]

open Spec

/-- While the others do what they do, a thread whose nodes are its own is where it would be alone. -/
theorem run_ok {used : ι → List ℕ} (hd : ∀ i j, i ≠ j → (used i).Disjoint (used j))
    {answers : ι → List (Answer L)} (sched : List ι) :
    ∀ (w : Threads L ι) (left : ι → ℕ),
      (∀ i, ∃ C', Does (· ∈ used i) (left i) (w.thr i) w.mem (answers i) C') →
      ∀ i, ∃ C', Does (· ∈ used i) (left i - sched.count i) ((w.run sched).thr i) (w.run sched).mem
        (answers i) C' := by
  induction sched with
  | nil => exact fun w left h i => h i
  | cons j js ih =>
    intro w left h i
    have := ih (w.step j) (fun i => if i = j then left i - 1 else left i) (fun i => by
      by_cases hi : i = j
      · subst hi
        obtain ⟨C', h⟩ := h i
        refine ⟨C', ?_⟩
        rw [if_pos rfl]
        show Does _ _ (if i = i then _ else _) _ _ _
        rw [if_pos rfl]
        show Does _ _ ((w.thr i).step w.mem).1 ((w.thr i).step w.mem).2 _ _
        exact h.step
      · obtain ⟨C', hi'⟩ := h i
        obtain ⟨D, hj⟩ := h j
        rw [if_neg hi]
        show ∃ C', Does _ _ (if i = j then _ else _) _ _ _
        rw [if_neg hi]
        refine hi'.congr fun n hn => ?_
        exact hj.step_other (fun h' => hd i j hi hn h')) i
    obtain ⟨C', this⟩ := this
    refine ⟨C', ?_⟩
    have hc : (if i = j then left i - 1 else left i) - js.count i = left i - (j :: js).count i := by
      rw [List.count_cons]
      by_cases hi : i = j
      · subst hi; simp; omega
      · rw [if_neg hi, if_neg (by simpa using Ne.symm hi)]; rfl
    rw [hc] at this
    exact this

/-- **C69 (separate nodes).** Any number of threads each make any number of calls — evaluations and
Jacobians of every kind — on dynamic expressions, with any schedule and whatever the caches held.  If
no node is in the expressions of two threads, no thread meets undefined behaviour, and each thread,
once it has made its accesses (a number that does not depend on the others), has for every call the
answer for the leaf values. -/
theorem c69_separate (calls : ι → List (Call L)) (answers : ι → List (Answer L)) (used : ι → List ℕ)
    (hg : ∀ i, GivesAll B s (used i) (calls i) (answers i))
    (hd : ∀ i j, i ≠ j → (used i).Disjoint (used j)) (C : Caches L) :
    ∃ accesses : ι → ℕ, ∀ sched : List ι, ∀ i,
      ((Threads.start s B calls C).run sched).thr i ≠ .stuck ∧
      (accesses i ≤ sched.count i →
        ((Threads.start s B calls C).run sched).thr i = .done (answers i)) := by
  choose C' p h using fun i => thread_ok (hg i) C
  refine ⟨p, fun sched i => ?_⟩
  obtain ⟨D, hD⟩ := run_ok hd sched (Threads.start s B calls C) p (fun i => ⟨C' i, h i⟩) i
  generalize ((Threads.start s B calls C).run sched).thr i = P at *
  generalize ((Threads.start s B calls C).run sched).mem = M at *
  constructor
  · rintro rfl
    cases hp : p i - sched.count i with
    | zero => rw [hp] at hD; exact hD
    | succ q => rw [hp] at hD; exact hD
  · intro hc
    rw [Nat.sub_eq_zero_of_le hc] at hD
    cases P with
    | done b => rw [hD.1]
    | stuck => exact hD.elim
    | look n k => exact hD.elim
    | put n c k => exact hD.elim

theorem run_append (is js : List ι) (w : Threads L ι) : w.run (is ++ js) = (w.run is).run js := by
  induction is generalizing w with
  | nil => rfl
  | cons i is ih => exact ih _

/-- A thread that runs on its own for a while. -/
theorem run_replicate (p : ℕ) (i : ι) (w : Threads L ι) :
    (w.run (List.replicate p i)).thr i = (Prog.steps p (w.thr i, w.mem)).1 ∧
      (w.run (List.replicate p i)).mem = (Prog.steps p (w.thr i, w.mem)).2 ∧
      ∀ j, j ≠ i → (w.run (List.replicate p i)).thr j = w.thr j := by
  induction p generalizing w with
  | zero => exact ⟨rfl, rfl, fun _ _ => rfl⟩
  | succ p ih =>
    obtain ⟨h1, h2, h3⟩ := ih (w.step i)
    have e1 : ((w.step i).thr i, (w.step i).mem) = (w.thr i).step w.mem :=
      Prod.ext (if_pos rfl) rfl
    refine ⟨?_, ?_, fun j hj => ?_⟩
    · show ((w.step i).run _).thr i = _
      rw [h1, e1]; rfl
    · show ((w.step i).run _).mem = _
      rw [h2, e1]; rfl
    · show ((w.step i).run _).thr j = _
      rw [h3 j hj]
      exact if_neg hj

/-- Thread `i` gets to a use of the evaluator of node `n`, then `j` destroys it. -/
theorem run_stuck {i j : ι} (hij : i ≠ j) {n : ℕ} {w : Threads L ι} {p : ℕ}
    (hi : AboutToUse n (Prog.steps p (w.thr i, w.mem)).1)
    (hj : ∀ C, ∃ Q D, Leads (w.thr j) C Q D ∧ D n = none) :
    ∃ q, (w.run (List.replicate p i ++ List.replicate q j ++ [i])).thr i = .stuck := by
  obtain ⟨a1, a2, a3⟩ := run_replicate p i w
  set w₁ := w.run (List.replicate p i) with hw₁
  obtain ⟨Q, D, ⟨q, hq⟩, hD⟩ := hj w₁.mem
  obtain ⟨b1, b2, b3⟩ := run_replicate q j w₁
  refine ⟨q, ?_⟩
  rw [run_append, run_append, ← hw₁]
  set w₂ := w₁.run (List.replicate q j) with hw₂
  have hm : w₂.mem = D := by
    rw [b2, a3 j (Ne.symm hij), hq]
  have ht : w₂.thr i = (Prog.steps p (w.thr i, w.mem)).1 := by
    rw [b3 i hij, a1]
  obtain ⟨k, hk, hs⟩ := hi
  show (w₂.step i).thr i = _
  show (if i = i then ((w₂.thr i).step w₂.mem).1 else _) = _
  rw [if_pos rfl, ht, hk, hm]
  show k (D n) = _
  rw [hD, hs]

theorem bind_done {α : Type} : (P : Prog L α) → P.bind (fun a => .done a) = P
  | .done _ => rfl
  | .stuck => rfl
  | .look n k => congrArg (Prog.look n) (funext fun c => bind_done (k c))
  | .put n c k => congrArg (Prog.put n c) (bind_done k)

/-- Every call begins with an evaluation. -/
theorem call_eval {c : Call L} {a : Answer L} {N : List ℕ} (h : Gives B s c a N) :
    ∃ (k : ℕ) (τ : L.Ty) (e : DExpr L τ) (E : Expr L τ) (f : CTree L τ → Prog L (Answer L)),
      Unfolds B e E ∧ nesting E ≤ k ∧ N = nodes E ∧
      c.prog s B = (constructP s (dynEvaluateP s B k) e).bind f := by
  cases h with
  | eval hu hk => exact ⟨_, _, _, _, _, hu, hk, rfl, rfl⟩
  | jacobian hu hk => exact ⟨_, _, _, _, _, hu, hk, rfl, rfl⟩
  | dynJacobian hu hk => exact ⟨_, _, _, _, _, hu, hk, rfl, rfl⟩
  | dynReverse hu hk => exact ⟨_, _, _, _, _, hu, hk, rfl, rfl⟩

/-- The calls before are made first. -/
theorem thread_leads {used : List ℕ} {pre : List (Call L)} {answers : List (Answer L)}
    (h : GivesAll B s used pre answers) {rest : List (Call L)} {R : Prog L (List (Answer L)) → Prop}
    (hR : ∀ (P : Prog L (List (Answer L))) (f : List (Answer L) → Prog L (List (Answer L))),
      R P → R (P.bind f)) {T : Caches L → Prop}
    (hr : ∀ C, ∃ Q D, Leads (threadP s B rest) C Q D ∧ R Q ∧ T D) :
    ∀ C, ∃ Q D, Leads (threadP s B (pre ++ rest)) C Q D ∧ R Q ∧ T D := by
  induction h with
  | nil => exact hr
  | @cons c a cs as h _ ih =>
    intro C
    obtain ⟨N, -, h⟩ := h
    obtain ⟨C₁, h₁⟩ := jacCall_ok h C
    obtain ⟨Q, D, h₂, hQ, hD⟩ := ih C₁
    exact ⟨_, D, ((Does.leads h₁).bind _).trans (h₂.bind _), hR _ _ hQ, hD⟩

/-- A thread whose calls go through `n` gets to a use of its evaluator. -/
theorem thread_uses {used : List ℕ} {calls : List (Call L)} {answers : List (Answer L)}
    (h : GivesAll B s used calls answers) {n : ℕ} (hn : Reaches B s calls n) (C : Caches L) :
    ∃ Q D, Leads (threadP s B calls) C Q D ∧ AboutToUse n Q := by
  obtain ⟨c, hc, a, N, hg, hN⟩ := hn
  obtain ⟨pre, cs, rfl⟩ := List.append_of_mem hc
  obtain ⟨k, τ, e, E, f, hu, hk, rfl, hp⟩ := call_eval hg
  have hpre : GivesAll B s used pre (answers.take pre.length) := by
    have := List.forall₂_take pre.length h
    rwa [List.take_left] at this
  obtain ⟨Q, D, h1, h2, -⟩ := thread_leads (R := AboutToUse n) (T := fun _ => True) hpre (rest := c :: cs)
    (fun P f h => AboutToUse.bind (n := n) h f) (fun C => by
      obtain ⟨Q, D, h, hQ⟩ := uses (s := s) hu k C n hk hN
      refine ⟨(Q.bind f).bind fun a => (threadP s B cs).bind fun as => .done (a :: as), D, ?_,
        (hQ.bind f).bind _, trivial⟩
      rw [threadP, hp]
      exact (h.bind _).bind _) C
  exact ⟨Q, D, h1, h2⟩

/-- A thread whose calls go through `n` gets to a state in which its evaluator is destroyed. -/
theorem thread_clears {used : List ℕ} {calls : List (Call L)} {answers : List (Answer L)}
    (h : GivesAll B s used calls answers) {n : ℕ} (hn : Reaches B s calls n) (C : Caches L) :
    ∃ Q D, Leads (threadP s B calls) C Q D ∧ D n = none := by
  obtain ⟨c, hc, a, N, hg, hN⟩ := hn
  obtain ⟨pre, cs, rfl⟩ := List.append_of_mem hc
  obtain ⟨k, τ, e, E, f, hu, hk, rfl, hp⟩ := call_eval hg
  have hpre : GivesAll B s used pre (answers.take pre.length) := by
    have := List.forall₂_take pre.length h
    rwa [List.take_left] at this
  obtain ⟨Q, D, h1, -, h2⟩ := thread_leads (R := fun _ => True) (T := fun D => D n = none) hpre
    (rest := c :: cs) (fun P f h => trivial) (fun C => by
      obtain ⟨Q, D, h, hD⟩ := clears (s := s) hu k C n hk hN
      refine ⟨(Q.bind f).bind fun a => (threadP s B cs).bind fun as => .done (a :: as), D, ?_,
        trivial, hD⟩
      rw [threadP, hp]
      exact (h.bind _).bind _) C
  exact ⟨Q, D, h1, h2⟩

/-- **C69 (shared node).** Whatever calls are made by two threads, if a node is in an expression of
each there is a schedule on which one thread uses an evaluator the other has destroyed. -/
theorem c69_shared {i j : ι} (hij : i ≠ j) (calls : ι → List (Call L)) {used used' : List ℕ}
    {as bs : List (Answer L)} (hi : GivesAll B s used (calls i) as)
    (hj : GivesAll B s used' (calls j) bs) {n : ℕ} (hM : Reaches B s (calls i) n)
    (hN : Reaches B s (calls j) n) (C : Caches L) :
    ∃ sched, ((Threads.start s B calls C).run sched).thr i = .stuck := by
  obtain ⟨Q, D, ⟨p, h⟩, hQ⟩ := thread_uses hi hM C
  obtain ⟨q, hq⟩ := run_stuck (w := Threads.start s B calls C) (p := p) hij (n := n) (by
      show AboutToUse n (Prog.steps p (threadP s B (calls i), C)).1
      rw [h]
      exact hQ) (thread_clears hj hN)
  exact ⟨_, hq⟩

/-- The nodes gone through, and no more. -/
theorem used_reached {used : List ℕ} {calls : List (Call L)} {answers : List (Answer L)}
    (h : GivesAll B s used calls answers) :
    ∃ u, GivesAll B s u calls answers ∧ ∀ n ∈ u, Reaches B s calls n := by
  induction h with
  | nil => exact ⟨[], .nil, fun n hn => by cases hn⟩
  | @cons c a cs as h _ ih =>
    obtain ⟨N, -, h⟩ := h
    obtain ⟨u, hu, hr⟩ := ih
    refine ⟨N ++ u, .cons ⟨N, List.subset_append_left _ _, h⟩ ?_, fun n hn => ?_⟩
    · exact hu.imp fun c a ⟨M, hM, hg⟩ => ⟨M, fun x hx => List.mem_append_right _ (hM hx), hg⟩
    · rcases List.mem_append.1 hn with hn | hn
      · exact ⟨c, List.mem_cons_self, a, N, h, hn⟩
      · obtain ⟨d, hd, r⟩ := hr n hn
        exact ⟨d, List.mem_cons_of_mem _ hd, r⟩

/-- **C69.** Threads are safe under every schedule exactly when no node is reached from two of them. -/
theorem c69_iff (calls : ι → List (Call L)) (answers : ι → List (Answer L)) (used : ι → List ℕ)
    (hg : ∀ i, GivesAll B s (used i) (calls i) (answers i)) (C : Caches L) :
    (∀ sched i, ((Threads.start s B calls C).run sched).thr i ≠ .stuck) ↔
      ∀ i j n, Reaches B s (calls i) n → Reaches B s (calls j) n → i = j := by
  constructor
  · intro h i j n hi hj
    by_contra hij
    obtain ⟨sched, hs⟩ := c69_shared hij calls (hg i) (hg j) hi hj C
    exact h sched i hs
  · intro h sched i
    choose u hu hr using fun i => used_reached (hg i)
    obtain ⟨_, ha⟩ := c69_separate calls answers u hu (fun i j hij n hi hj =>
      hij (h i j n (hr i n hi) (hr j n hj))) C
    exact (ha sched i).1

/-- **C69 (locked evaluations).** It is not enough to keep evaluations apart: for all Jacobians by
reverse mode on one side and any call on the other, there is a schedule on which the first thread has
completed its evaluation before the other starts, and uses a destroyed evaluator in the sweep. -/
theorem c69_sweep {i j : ι} (hij : i ≠ j) (calls : ι → List (Call L)) {k : ℕ} {τ : L.Ty}
    {e : DExpr L τ} {E : Expr L τ} (hu : Unfolds B e E) (hk : nesting E ≤ k) {d : Call L}
    {cs ds : List (Call L)} (hi : calls i = .dynReverse k e :: cs) (hj : calls j = d :: ds)
    {b : Answer L} {N : List ℕ} (hd : Gives B s d b N) {n : ℕ} (hM : n ∈ nodes E) (hN : n ∈ N)
    (C : Caches L) :
    ∃ p₀ p q, p₀ ≤ p ∧
      (Prog.steps p₀ ((Call.eval k e).prog s B, C)).1 = .done (.value τ (E.eval s)) ∧
      ((Threads.start s B calls C).run
        (List.replicate p i ++ List.replicate q j ++ [i])).thr i = .stuck := by
  obtain ⟨k', τ', e', E', f', hu', hk', rfl, hp'⟩ := call_eval hd
  obtain ⟨C', ⟨p₀, h⟩, -, f⟩ := constructP_ok (s := s) hu k C hk
  obtain ⟨Q, D, ⟨p₁, hQ⟩, hQ'⟩ := sweep_uses (B := B) (ρ := τ) E k none hk f (fun m hm => by cases hm)
    (idBlock rfl) n hM
  have hti : (Threads.start s B calls C).thr i = ((Call.dynReverse k e).prog s B).bind fun a =>
      (threadP s B cs).bind fun as => .done (a :: as) := by
    show threadP s B (calls i) = _
    rw [hi]; rfl
  have htj : (Threads.start s B calls C).thr j = (d.prog s B).bind fun a =>
      (threadP s B ds).bind fun as => .done (a :: as) := by
    show threadP s B (calls j) = _
    rw [hj]; rfl
  have h0 := h.steps_bind (fun r => (r.dynRevP none (dynReverseCallP s B k) (idBlock rfl)).bind fun x =>
    .done (Answer.reverse τ r.val x)) fun a => (threadP s B cs).bind fun as => .done (a :: as)
  obtain ⟨p₂, h2⟩ := ((Leads.bind ⟨p₁, hQ⟩ fun x =>
    .done (Answer.reverse τ (ctree s E).val x)).bind fun a =>
      (threadP s B cs).bind fun as => .done (a :: as))
  have h3 : Prog.steps (p₀ + p₂) ((Threads.start s B calls C).thr i, C) =
      ((Q.bind fun x => Prog.done (Answer.reverse τ (ctree s E).val x)).bind fun a =>
        (threadP s B cs).bind fun as => Prog.done (a :: as), D) := by
    rw [hti, steps_add]
    exact (congrArg (Prog.steps p₂) h0).trans h2
  obtain ⟨q, hq⟩ := run_stuck (w := Threads.start s B calls C) (p := p₀ + p₂) hij (n := n) (by
      show AboutToUse n (Prog.steps _ (_, C)).1
      rw [h3]
      exact (hQ'.bind _).bind _) (fun D => by
      obtain ⟨Q, D', h, hD⟩ := clears (s := s) hu' k' D n hk' hN
      rw [htj, hp']
      exact ⟨_, D', (h.bind _).bind _, hD⟩)
  refine ⟨p₀, p₀ + p₂, q, Nat.le_add_right _ _, ?_, hq⟩
  have h4 := h.steps_bind (fun r => .done (Answer.value τ r.val)) (fun a => (.done a : Prog L _))
  have h5 : ((constructP s (dynEvaluateP s B k) e).bind fun r =>
      (.done (Answer.value τ r.val) : Prog L _)).bind (fun a => .done a) =
      (Call.eval k e).prog s B := bind_done _
  rw [h5] at h4
  rw [h4]
  exact congrArg (fun v => Prog.done (Answer.value τ v)) (ctree_val E)

/-- Nodes 50 and 60 wrapping `R * v` each. -/
def twoNodes (ε : ℝ) : Bodies (geoLib ε) := fun n =>
  if n = 50 ∨ n = 60 then some ⟨.vec .trans, exNode ε⟩ else none

/-- `R * handle` with the handle to node `n`. -/
def handleTo (ε : ℝ) (n : ℕ) : DExpr (geoLib ε) (.vec .trans) :=
  .bin 100 Bin.rotateQ (DExpr.leaf (L := geoLib ε) 1 0 (Ty.rot .quat))
    (DExpr.proxy (L := geoLib ε) n (Ty.vec .trans))

/-- The tree it stands for. -/
def treeTo (ε : ℝ) (n : ℕ) : Expr (geoLib ε) (.vec .trans) :=
  .bin 100 Bin.rotateQ (Expr.leaf (L := geoLib ε) 1 0 (Ty.rot .quat))
    (.proxy n (.bin 101 Bin.rotateQ (Expr.leaf (L := geoLib ε) 1 0 (Ty.rot .quat))
      (Expr.leaf (L := geoLib ε) 3 0 (Ty.vec .trans))))

theorem handleTo_unfolds (ε : ℝ) (n : ℕ) (h : n = 50 ∨ n = 60) :
    Unfolds (twoNodes ε) (handleTo ε n) (treeTo ε n) :=
  .bin (.leaf _ _ _) (.proxy (e := exNode ε) (if_pos h) (.bin (.leaf _ _ _) (.leaf _ _ _)))

/-- One thread evaluates and differentiates through node 50, the other through node 60: whatever the
schedule, each gets its answers. -/
example (ε : ℝ) (s : Store (geoLib ε)) (C : Caches (geoLib ε)) :
    ∃ accesses : Bool → ℕ, ∀ sched : List Bool, ∀ i,
      accesses i ≤ sched.count i →
      ((Threads.start s (twoNodes ε) (fun i : Bool =>
          [.eval 1 (handleTo ε (if i then 60 else 50)),
            .dynReverse 1 (handleTo ε (if i then 60 else 50))]) C).run sched).thr i =
        .done [.value _ ((treeTo ε (if i then 60 else 50)).eval s),
          .reverse _ ((treeTo ε (if i then 60 else 50)).eval s)
            ((ETree.mk s (treeTo ε (if i then 60 else 50))).dynRev (idBlock rfl))] := by
  have hu : ∀ i : Bool, Unfolds (twoNodes ε) (handleTo ε (if i then 60 else 50))
      (treeTo ε (if i then 60 else 50)) := fun i =>
    handleTo_unfolds ε _ (by cases i <;> simp)
  obtain ⟨a, h⟩ := c69_separate (B := twoNodes ε) (s := s) _ (fun i : Bool =>
      [.value _ ((treeTo ε (if i then 60 else 50)).eval s),
        .reverse _ ((treeTo ε (if i then 60 else 50)).eval s)
          ((ETree.mk s (treeTo ε (if i then 60 else 50))).dynRev (idBlock rfl))])
    (fun i : Bool => [if i then 60 else 50])
    (fun i => .cons ⟨_, fun _ h => h, .eval (hu i) le_rfl⟩
      (.cons ⟨_, fun _ h => h, .dynReverse (hu i) le_rfl⟩ .nil))
    (by intro i j hij; cases i <;> cases j <;> simp_all) C
  exact ⟨a, fun sched i => (h sched i).2⟩

/-- Both go through node 50: there is a schedule on which the first thread, its evaluation completed,
uses a destroyed evaluator. -/
example (ε : ℝ) (s : Store (geoLib ε)) (C : Caches (geoLib ε)) : ∃ sched,
    ((Threads.start s (twoNodes ε) (fun i : Bool =>
      if i then [.eval 1 (handleTo ε 50)] else [.dynReverse 1 (handleTo ε 50)]) C).run sched).thr
        false = .stuck := by
  have hu := handleTo_unfolds ε 50 (.inl rfl)
  obtain ⟨_, p, q, -, -, h⟩ := c69_sweep (s := s) (i := false) (j := true) (by simp)
    (fun i : Bool => if i then [.eval 1 (handleTo ε 50)] else [.dynReverse 1 (handleTo ε 50)])
    hu le_rfl rfl rfl (.eval hu le_rfl) (n := 50) List.mem_cons_self List.mem_cons_self C
  exact ⟨_, h⟩

/-- A call on node 50 and, later, one on node 60 by one thread, a call on node 60 by another. -/
example (ε : ℝ) (s : Store (geoLib ε)) (C : Caches (geoLib ε)) :
    ¬ ∀ sched i, ((Threads.start s (twoNodes ε) (fun i : Bool =>
      if i then [.eval 1 (handleTo ε 60)] else [.eval 1 (handleTo ε 50), .dynReverse 1 (handleTo ε 60)])
        C).run sched).thr i ≠ .stuck := by
  have hu := handleTo_unfolds ε 50 (.inl rfl)
  have hv := handleTo_unfolds ε 60 (.inr rfl)
  rw [c69_iff (B := twoNodes ε) _ (fun i : Bool => if i then [.value _ ((treeTo ε 60).eval s)] else
      [.value _ ((treeTo ε 50).eval s), .reverse _ ((treeTo ε 60).eval s)
        ((ETree.mk s (treeTo ε 60)).dynRev (idBlock rfl))]) (fun i : Bool => [50, 60])
    (fun i => by
      cases i
      · exact .cons ⟨_, by simp [treeTo, nodes], .eval hu le_rfl⟩
          (.cons ⟨_, by simp [treeTo, nodes], .dynReverse hv le_rfl⟩ .nil)
      · exact .cons ⟨_, by simp [treeTo, nodes], .eval hv le_rfl⟩ .nil)]
  intro h
  have := h true false 60
    ⟨_, List.mem_cons_self, _, _, .eval hv le_rfl, List.mem_cons_self⟩
    ⟨_, List.mem_cons_of_mem _ List.mem_cons_self, _, _, .dynReverse hv le_rfl, List.mem_cons_self⟩
  cases this

end WG
