import Verif.Lemmas.StorageSafe
import Verif.Model.Geo
import Verif.Props.Evaluation

/-!
# C37, C38, C39: handles, lifetimes, and late reading of named objects
-/

namespace WG
open Spec

variable {L : Lib} [DecidableEq L.Ty]

/-! ## C38 -/

/-- What an expression object built by a statement refers to, when no operand is a temporary of const
type and `ref` is applied to variables: variables that were lvalues in the expression, and what moved
objects and copied handles referred to before.  The heap nodes made on the way likewise. -/
theorem c38_auto_partial {a : ℕ} {τ : L.Ty} {s : Src L τ} {st st' : Machine L}
    (hc : Tidy s) (hm : MoveOnce st.cells s) (hv : ¬ IsVariable s)
    (h : (Stmt.auto a s).run st = some st') :
    ∃ o, st'.cells (.var a) = some ⟨τ, o⟩ ∧ (∀ i ∈ borrowed o, MayBorrow st.cells s i) ∧
      ∀ k, st.nHeap ≤ k → k < st'.nHeap → ∀ σ (x : XObj L σ), st'.cells (.heap k) = some ⟨σ, x⟩ →
        ∀ i ∈ borrowed x, MayBorrow st.cells s i := by
  obtain ⟨hd, r, st1, x, st2, h1, h2, rfl⟩ := auto_form h
  obtain ⟨-, hh, g⟩ := eval_spec st.cells s hc hm (fun _ _ => rfl) h1
  cases r with
  | object i rv => exact absurd h1 (eval_prvalue hc hv)
  | prvalue o c =>
    cases h2
    refine ⟨x, set_cells st1 (.var a) x, g.2.2, fun k hk hk' σ y hy => ?_⟩
    refine hh k hk hk' σ y ?_
    exact (set_other (i := .var a) (j := .heap k) st1 x (by simp)).symm.trans hy

/-- In every state reached by a program whose expressions have no operand that is a temporary of const
type (and apply `ref` to variables only), whatever else it does, no object refers to a temporary: what
objects refer to without owning it are declared variables. -/
theorem c38_program_partial {cs : List (Stmt L)} {st : Machine L} (hc : ∀ c ∈ cs, c.Tidy)
    (h : runStmts cs (Machine.start L) = some st) {i : Id} {τ : L.Ty} {o : XObj L τ}
    (ho : st.cells i = some ⟨τ, o⟩) : ∀ j ∈ borrowed o, ∃ a ∈ st.declared, j = .var a := by
  intro j hj
  have hclean := clean_stmts (P := fun _ => True) cs hc (fun _ _ _ _ => trivial) (st := Machine.start L) (fun _ _ _ h => by cases h) h
  obtain ⟨a, -, rfl⟩ := hclean i τ o ho j hj
  obtain ⟨b, -⟩ := stmts_wf cs between_start h
  refine ⟨a, ?_, rfl⟩
  rcases borrowed_sub o _ hj with k | k
  · exact ((b.wf.obj i τ o ho).ref _ k).1
  · exact (b.wf.obj i τ o ho).target _ k

/-- If moreover no object holding a `Proxy` is moved from and no scope ends, every object can be
evaluated at any time: nothing is dangling. -/
theorem c38_evaluable_partial {cs : List (Stmt L)} {st : Machine L}
    (h : TameRun cs (Machine.start L) st) {i : Id} {τ : L.Ty} {o : XObj L τ}
    (ho : st.cells i = some ⟨τ, o⟩) : ∃ v, Reads st.cells o v := by
  obtain ⟨b, w⟩ := alive_stmts cs between_start (fun i _ _ h => by cases i <;> cases h) h
  have e : st.endFull.cells = st.cells := by
    funext j
    cases j with
    | tmp k => exact (b.tmp k).symm
    | var k => rfl
    | heap k => rfl
  have := w i τ o
  rw [e] at this
  exact this ho

/-- The claim without the restriction is false: a function result of const-qualified class type binds
to the `const &` overload, so `auto e = op(f());` with `const T f();` stores a reference to a dead
temporary, and evaluating `e` is undefined. -/
theorem c38_false {α β : L.Ty} (op : L.Un α β) (x : L.Val α) :
    ∃ st, runStmts [Stmt.auto 0 (.un op (.constResult (.temp α x)))] (Machine.start L) = some st ∧
      ∃ o : XObj L β, st.cells (.var 0) = some ⟨β, o⟩ ∧ ∀ v, ¬ Reads st.cells o v := by
  let sb : Machine L := ((Res.prvalue (XObj.leaf α x) true).bind (Machine.start L)).2.2
  have hc : sb.cells (.tmp 0) = some ⟨α, .leaf α x⟩ :=
    set_cells (Machine.start L) (.tmp 0) (XObj.leaf α x)
  have he : (Src.un op (.constResult (.temp α x))).eval (Machine.start L) =
      some (.prvalue (.un op (.ref (.tmp 0) α)) false, sb) := by
    change Option.map _ (member (.tmp 0) false α sb) = _
    rw [member_named hc id]
    rfl
  have hr := auto_run (a := 0) (st := Machine.start L) (by intro h; cases h) he
  refine ⟨_, congrArg (fun z => Option.bind z (runStmts [])) hr, .un op (.ref (.tmp 0) α),
    set_cells sb (.var 0) (XObj.un op (.ref (.tmp 0) α)), fun v h => ?_⟩
  obtain ⟨w, hw, -⟩ := reads_un.mp h
  obtain ⟨o, ho, -⟩ := reads_ref.mp hw
  cases ho

/-- Nor may `ref` be applied to a temporary: the parameter `const DynamicBase &` binds to it
(contrary to the note at RefProxy.hpp:45). -/
theorem c38_ref_false {α : L.Ty} (x : L.Val α) :
    ∃ st, runStmts [Stmt.auto 0 (.temp α x), .auto 1 (.makeRef (.makeDynamic (.named 0 α)))]
        (Machine.start L) = some st ∧
      ∃ o : XObj L α, st.cells (.var 1) = some ⟨α, o⟩ ∧ ∀ v, ¬ Reads st.cells o v := by
  let s1 : Machine L := { ((Machine.start L).set (.var 0) (XObj.leaf α x)).endFull with declared := [0] }
  have h1 : (Stmt.auto 0 (.temp α x)).run (Machine.start L) = some s1 := rfl
  have hc : s1.cells (.var 0) = some ⟨α, .leaf α x⟩ :=
    set_cells (Machine.start L) (.var 0) (XObj.leaf α x)
  have he : (Src.makeDynamic (.named 0 α)).eval s1 = some (.prvalue (.dyn (.ref (.var 0) α)) false, s1) := by
    change Option.map _ (member (.var 0) false α s1) = _
    rw [member_named hc id]
    rfl
  let s2 : Machine L := ((Res.prvalue (XObj.dyn (.ref (.var 0) α)) false).bind s1).2.2
  have he' : (Src.makeRef (.makeDynamic (.named 0 α))).eval s1 =
      some (.prvalue (.handle .plain (some (.tmp 0)) α) false, s2) := by
    unfold Src.eval
    rw [he]
    change Option.bind (s2.cells.get (.tmp 0) α) _ = _
    have hg : s2.cells.get (.tmp 0) α = some (XObj.dyn (.ref (.var 0) α)) :=
      get_iff.mpr (set_cells s1 (.tmp 0) (XObj.dyn (.ref (.var 0) α)))
    rw [hg]
    rfl
  have hr := auto_run (a := 1) (st := s1) (by simp [s1]) he'
  refine ⟨_, (congrArg (fun z => Option.bind z (runStmts [_])) h1).trans
      (congrArg (fun z => Option.bind z (runStmts [])) hr),
    .handle .plain (some (.tmp 0)) α, set_cells s2 (.var 1) (XObj.handle .plain (some (.tmp 0)) α),
    fun v h => ?_⟩
  obtain ⟨i, y, e, hy, -⟩ := reads_handle.mp h
  cases e
  cases hy

/-! ## C39 -/

/-- A stored expression evaluated later, after any further statements, has the value its source
expression denotes then: named objects are read at that time; temporaries, moved objects and the
targets of handles are those of the time of construction. -/
theorem c39_later_partial {a : ℕ} {τ : L.Ty} {s : Src L τ} {cs₀ cs : List (Stmt L)} {st st1 st2 : Machine L}
    (h₀ : runStmts cs₀ (Machine.start L) = some st) (hc : Tidy s) (hm : MoveOnce st.cells s) (hv : ¬ IsVariable s)
    (h : (Stmt.auto a s).run st = some st1) (h' : runStmts cs st1 = some st2) :
    ∃ o, st1.cells (.var a) = some ⟨τ, o⟩ ∧
      ∀ v, Reads st2.cells o v ↔ Denotes st.cells st2.cells s v := by
  obtain ⟨hd, r, sA, x, sB, h1, h2, rfl⟩ := auto_form h
  obtain ⟨-, -, g⟩ := eval_spec st.cells s hc hm (fun _ _ => rfl) h1
  obtain ⟨b1, -⟩ := stmt_wf (stmts_wf cs₀ between_start h₀).1 h
  obtain ⟨-, -, hh, -⟩ := stmts_wf cs b1 h'
  cases r with
  | object i rv => exact absurd h1 (eval_prvalue hc hv)
  | prvalue o c =>
    cases h2
    refine ⟨x, set_cells sA (.var a) x, g.2.1 st2.cells fun i hi => (hh i hi).trans ?_⟩
    exact set_other (i := .var a) (j := .heap i) sA x (by simp)

/-- In particular, as long as the variable itself is not moved from or destroyed, its value later is
what the source expression denotes later. -/
theorem c39_variable_partial {a : ℕ} {τ : L.Ty} {s : Src L τ} {cs₀ cs : List (Stmt L)} {st st1 st2 : Machine L}
    (h₀ : runStmts cs₀ (Machine.start L) = some st) (hc : Tidy s) (hm : MoveOnce st.cells s) (hv : ¬ IsVariable s)
    (h : (Stmt.auto a s).run st = some st1) (h' : runStmts cs st1 = some st2)
    (ht : ∀ c ∈ cs, ¬ c.touches a) (v : Option (L.Val τ)) :
    ValueOf st2.cells a τ v ↔ Denotes st.cells st2.cells s v := by
  obtain ⟨o, ho, hr⟩ := c39_later_partial h₀ hc hm hv h h'
  obtain ⟨b1, -⟩ := stmt_wf (stmts_wf cs₀ between_start h₀).1 h
  obtain ⟨-, -, -, hk⟩ := stmts_wf cs b1 h'
  have hcell := (hk a (b1.wf.known _ _ ho) ht).trans ho
  rw [← hr v]
  constructor
  · rintro ⟨o', ho', hv'⟩
    rw [hcell] at ho'
    cases ho'
    exact hv'
  · exact fun k => ⟨o, hcell, k⟩

/-- Initialising from a variable copies it: nothing done later to the source affects the copy of a
leaf. -/
theorem c39_copy {a c : ℕ} {τ : L.Ty} {x : L.Val τ} {cs₀ cs : List (Stmt L)}
    {st st1 st2 : Machine L} (h₀ : runStmts cs₀ (Machine.start L) = some st) (hx : st.cells (.var c) = some ⟨τ, .leaf τ x⟩)
    (h : (Stmt.auto a (.named c τ)).run st = some st1) (h' : runStmts cs st1 = some st2)
    (ht : ∀ c ∈ cs, ¬ c.touches a) (v : Option (L.Val τ)) :
    ValueOf st2.cells a τ v ↔ v = some x := by
  obtain ⟨hd, r, sA, y, sB, h1, h2, rfl⟩ := auto_form h
  cases h1
  obtain ⟨o, ho, h2⟩ := Option.map_eq_some_iff.mp h2
  cases h2
  have := (get_iff.mp ho).symm.trans hx
  cases this
  obtain ⟨b1, -⟩ := stmt_wf (stmts_wf cs₀ between_start h₀).1 h
  obtain ⟨-, -, -, hk⟩ := stmts_wf cs b1 h'
  have hcell := (hk a List.mem_cons_self ht).trans (set_cells st (.var a) (XObj.leaf τ x))
  constructor
  · rintro ⟨o', ho', hv'⟩
    rw [hcell] at ho'
    cases ho'
    exact reads_leaf.mp hv'
  · exact fun k => ⟨_, hcell, reads_leaf.mpr k⟩

/-- An expression over leaf objects depends on the objects named in it and on nothing else: in any two
later situations in which those have the same values, it has the same value. -/
theorem c39_only_named_partial {a : ℕ} {τ : L.Ty} {s : Src L τ} {cs₀ cs cs' : List (Stmt L)}
    {st st1 st2 st3 : Machine L} (h₀ : runStmts cs₀ (Machine.start L) = some st) (hc : Tidy s) (hn : NoHandles s)
    (hl : ∀ c ∈ vars s, ∃ (σ : L.Ty) (x : L.Val σ), st.cells (.var c) = some ⟨σ, .leaf σ x⟩)
    (hv : ¬ IsVariable s) (h : (Stmt.auto a s).run st = some st1)
    (h2 : runStmts cs st1 = some st2) (h3 : runStmts cs' st1 = some st3)
    (hsame : ∀ c ∈ lvalues s, ∀ σ v, ValueOf st2.cells c σ v ↔ ValueOf st3.cells c σ v) :
    ∃ o : XObj L τ, st1.cells (.var a) = some ⟨τ, o⟩ ∧
      ∀ v, Reads st2.cells o v ↔ Reads st3.cells o v := by
  have hown : ∀ c ∈ vars s, ¬ OwnsAt st.cells c := by
    rintro c hcv ⟨σ, o, ho, k⟩
    obtain ⟨σ', x, hx⟩ := hl c hcv
    rw [hx] at ho
    cases ho
    exact k
  have hm : MoveOnce st.cells s := moveOnce_of _ s fun c hcm => hown c (movedVars_sub s c hcm)
  obtain ⟨o, ho, hr⟩ := c39_later_partial h₀ hc hm hv h h2
  obtain ⟨o', ho', hr'⟩ := c39_later_partial h₀ hc hm hv h h3
  rw [ho] at ho'
  cases ho'
  exact ⟨o, ho, fun v => by rw [hr v, hr' v]; exact denotes_congr s hn hl hsame⟩

/-! ## C37 -/

/-- Assigning to a handle (`Proxy` or `RefProxy`), in any reachable state, from an expression that
moves nothing: every other object keeps its contents and its value. -/
theorem c37_rebind {cs : List (Stmt L)} {p : ℕ} {τ : L.Ty} {s : Src L τ} {st st' : Machine L}
    (h : runStmts cs (Machine.start L) = some st) (hr : (Stmt.rebind p s).run st = some st')
    (hm : movedVars s = []) {i : Id} (hi : i ≠ .var p) {σ : L.Ty} {o : XObj L σ}
    (ho : st.cells i = some ⟨σ, o⟩) :
    st'.cells i = some ⟨σ, o⟩ ∧ ∀ v, Reads st'.cells o v ↔ Reads st.cells o v := by
  obtain ⟨b, -⟩ := stmts_wf cs between_start h
  obtain ⟨b', kn, hh, hv⟩ := stmt_wf b hr
  obtain ⟨k, n, n', r, st1, st2, h0, h1, h2, e⟩ := rebind_form hr
  have hcell : ∀ j, Known st j → j ≠ .var p → st'.cells j = st.cells j := by
    intro j hj hne
    cases j with
    | tmp q => exact (b'.tmp q).trans (b.tmp q).symm
    | heap q => exact hh q hj
    | var q =>
      refine hv q hj ?_
      rintro (rfl | k)
      · exact hne rfl
      · rw [hm] at k
        cases k
  refine ⟨(hcell i (b.wf.known _ _ ho) hi).trans ho, fun v => ?_⟩
  refine reads_same b.wf (p := .var p) ⟨τ, _, h0, trivial⟩ ⟨τ, .handle k n' τ, ?_, trivial⟩ hcell
    (b.wf.obj _ _ _ ho)
  subst e
  exact set_cells st2 (.var p) (XObj.handle k n' τ)

/-- From then on the handle denotes what was assigned to it. -/
theorem c37_denotes {cs : List (Stmt L)} {p : ℕ} {τ : L.Ty} {s : Src L τ} {st st' : Machine L}
    (h : runStmts cs (Machine.start L) = some st) (hr : (Stmt.rebind p s).run st = some st')
    (hc : Tidy s) (hm : MoveOnce st.cells s) (hv : ¬ IsVariable s) (v : Option (L.Val τ)) :
    ValueOf st'.cells p τ v ↔ Denotes st.cells st'.cells s v := by
  obtain ⟨k, n, n', r, st1, st2, h0, h1, h2, rfl⟩ := rebind_form hr
  obtain ⟨-, -, g⟩ := eval_spec st.cells s hc hm (fun _ _ => rfl) h1
  have hcell : (st2.set (.var p) (XObj.handle (L := L) k n' τ)).endFull.cells (.var p) =
      some ⟨τ, .handle k n' τ⟩ := set_cells st2 (.var p) _
  cases r with
  | object i rv => exact absurd h1 (eval_prvalue hc hv)
  | prvalue o c =>
    cases h2
    have := g.2.1 (st1.set (.var p) (XObj.handle (L := L) k n' τ)).endFull.cells
      (fun i hi => set_other (i := .var p) (j := .heap i) st1 (XObj.handle (L := L) k n' τ) (by simp)) v
    rw [← this]
    constructor
    · rintro ⟨o', ho', hv'⟩
      rw [hcell] at ho'
      cases ho'
      exact hv'
    · exact fun k => ⟨_, hcell, k⟩

/-- Assigning one handle to another makes the first refer to what the second refers to. -/
theorem c37_copy {cs : List (Stmt L)} {p q : ℕ} {τ : L.Ty} {st st' : Machine L} (hpq : q ≠ p)
    (h : runStmts cs (Machine.start L) = some st)
    (hr : (Stmt.rebind p (.named q τ)).run st = some st') :
    st'.cells (.var p) = st.cells (.var q) ∧ st'.cells (.var q) = st.cells (.var q) ∧
      ∀ v, ValueOf st'.cells p τ v ↔ ValueOf st.cells q τ v := by
  obtain ⟨k, n, n', r, st1, st2, h0, h1, h2, e⟩ := rebind_form hr
  cases h1
  obtain ⟨o, ho, h2⟩ := Option.map_eq_some_iff.mp h2
  cases h2
  have hq := get_iff.mp ho
  have hp : st'.cells (.var p) = some ⟨τ, .handle k n' τ⟩ := by
    rw [e]; exact set_cells st (.var p) (XObj.handle k n' τ)
  obtain ⟨h3, h4⟩ := c37_rebind h hr rfl (i := .var q) (by simpa using hpq) hq
  refine ⟨hp.trans hq.symm, h3.trans hq.symm, fun v => ?_⟩
  constructor
  · rintro ⟨o', ho', hv'⟩
    rw [hp] at ho'
    cases ho'
    exact ⟨_, hq, (h4 v).mp hv'⟩
  · rintro ⟨o', ho', hv'⟩
    rw [hq] at ho'
    cases ho'
    exact ⟨_, hp, (h4 v).mpr hv'⟩

/-! ## Examples -/

section Examples

/-- The scalar class. -/
abbrev scl : (geoLib dblEps).Ty := Ty.vec .scalar

/-- `x` is 0, `d₁ = makeDynamic(x)` is 1, `d₂ = makeDynamic(-x)` is 2, `p = ref(d₁)` is 3, `f = -p` is 4
(the documentation's example, RefProxy.hpp:18-25), and `g = (-x) + makeProxy(temporary)` is 5. -/
noncomputable def exProg (x : ℝ) : List (Stmt (geoLib dblEps)) :=
  [.auto 0 (.temp scl fun _ => x),
   .auto 1 (.makeDynamic (.named 0 scl)),
   .auto 2 (.makeDynamic (.un (Un.minus .scalar) (.named 0 scl))),
   .auto 3 (.makeRef (.named 1 scl)),
   .auto 4 (.un (Un.minus .scalar) (.named 3 scl)),
   .auto 5 (.bin (Bin.sum .scalar) (.un (Un.minus .scalar) (.named 0 scl))
     (.makeProxy (.temp scl fun _ => 7)))]

/-- The program runs without const temporaries, moves of `Proxy`s, or ends of scope. -/
theorem exProg_tame (x : ℝ) : ∃ st, TameRun (exProg x) (Machine.start _) st ∧
    runStmts (exProg x) (Machine.start _) = some st := by
  refine ⟨_, ⟨⟨trivial, ?_⟩, _, rfl, ⟨trivial, ?_⟩, _, rfl, ⟨trivial, ?_⟩, _, rfl, ⟨trivial, ?_⟩, _, rfl,
    ⟨trivial, ?_⟩, _, rfl, ⟨⟨trivial, trivial⟩, ?_⟩, _, rfl, rfl⟩, rfl⟩ <;> exact fun a h => by cases h

example : ∃ (st : Machine (geoLib dblEps)) (o : XObj (geoLib dblEps) scl),
    runStmts (exProg 2) (Machine.start _) = some st ∧
    st.cells (.var 5) = some ⟨scl, o⟩ ∧ ∃ v, Reads st.cells o v := by
  obtain ⟨st, ht, hr⟩ := exProg_tame 2
  obtain ⟨o, ho⟩ : ∃ o : XObj (geoLib dblEps) scl, st.cells (.var 5) = some ⟨scl, o⟩ := by
    cases hr; exact ⟨_, rfl⟩
  exact ⟨st, o, hr, ho, c38_evaluable_partial ht ho⟩

/-- Everything borrowed after the program is a variable (`c38_program_partial`). -/
example : ∃ (st : Machine (geoLib dblEps)) (o : XObj (geoLib dblEps) scl),
    runStmts (exProg 2) (Machine.start _) = some st ∧ st.cells (.var 5) = some ⟨scl, o⟩ ∧
    borrowed o ≠ [] ∧ ∀ j ∈ borrowed o, ∃ a ∈ st.declared, j = .var a := by
  obtain ⟨st, -, hr⟩ := exProg_tame 2
  have hc : ∀ c ∈ exProg 2, c.Tidy := by
    intro c hc
    simp only [exProg, List.mem_cons, List.not_mem_nil, or_false] at hc
    rcases hc with rfl | rfl | rfl | rfl | rfl | rfl <;>
      simp [Stmt.Tidy, Spec.Tidy, Spec.IsVariable]
  obtain ⟨o, ho, hb⟩ : ∃ o : XObj (geoLib dblEps) scl, st.cells (.var 5) = some ⟨scl, o⟩ ∧
      borrowed o ≠ [] := by
    cases hr
    exact ⟨_, rfl, List.cons_ne_nil _ _⟩
  exact ⟨st, o, hr, ho, hb, c38_program_partial hc hr ho⟩

/-- `auto g = -x;` and then `x = 3`: the stored expression reads the new value (`c39_variable_partial`). -/
example : ∃ st : Machine (geoLib dblEps), runStmts ([.auto 0 (.temp scl fun _ => (2 : ℝ))] ++
      [.auto 1 (.un (Un.minus .scalar) (.named 0 scl)), .write 0 scl fun _ => (3 : ℝ)])
      (Machine.start _) = some st ∧
    ∀ v, ValueOf st.cells 1 scl v ↔ v = some fun _ => (-3 : ℝ) := by
  refine ⟨_, rfl, fun v => ?_⟩
  refine (c39_variable_partial (cs₀ := [Stmt.auto 0 (.temp scl fun _ => (2 : ℝ))])
    (cs := [Stmt.write 0 scl fun _ => (3 : ℝ)]) (s := Src.un (L := geoLib dblEps) (Un.minus .scalar) (.named 0 scl)) rfl trivial
    trivial id rfl rfl ?_ v).trans ?_
  · intro c hc
    cases List.mem_singleton.mp hc
    exact Nat.one_ne_zero
  · constructor
    · rintro ⟨x, ⟨o, ho, hx⟩, rfl⟩
      cases ho
      rcases hx with ⟨k, -⟩ | ⟨-, o', ho', hx⟩
      · exact k.elim
      · cases ho'
        rw [reads_leaf.mp hx]
        rfl
    · rintro rfl
      exact ⟨some fun _ => 3, ⟨_, rfl, .inr ⟨id, _, rfl, .leaf _ _⟩⟩, rfl⟩

/-- The documentation's example: after `p = ref(d₂)` the expression `f = -p` still has its old value
`-x`, not `-(-x)`; the comment "Changes the eventual result and derivatives of f" (RefProxy.hpp:23) is
not what the code does. -/
theorem c37_documentation (x : ℝ) : ∃ st st' : Machine (geoLib dblEps),
    runStmts (exProg x) (Machine.start _) = some st ∧
    (Stmt.rebind 3 (.makeRef (.named 2 scl))).run st = some st' ∧
    (∀ v, ValueOf st.cells 3 scl v ↔ v = some fun _ => x) ∧
    (∀ v, ValueOf st'.cells 3 scl v ↔ v = some fun _ => -x) ∧
    (∀ v, ValueOf st.cells 4 scl v ↔ v = some fun _ => -x) ∧
    (∀ v, ValueOf st'.cells 4 scl v ↔ v = some fun _ => -x) := by
  have key : ∀ (m : Cells (geoLib dblEps)) (a : ℕ) (o : XObj (geoLib dblEps) scl) (w : scl.Val),
      m (.var a) = some ⟨scl, o⟩ → Reads m o (some w) → ∀ v, ValueOf m a scl v ↔ v = some w := by
    intro m a o w h1 h2 v
    constructor
    · rintro ⟨o', h3, h4⟩
      rw [h1] at h3
      cases h3
      exact reads_unique h4 h2
    · rintro rfl
      exact ⟨o, h1, h2⟩
  refine ⟨_, _, rfl, rfl, key _ _ _ _ rfl ?_, key _ _ _ _ rfl ?_, key _ _ _ _ rfl ?_, key _ _ _ _ rfl ?_⟩
  · exact .handle rfl (.ref rfl (.leaf _ _))
  · exact .handle rfl (.un (.ref rfl (.leaf _ _)))
  · exact .un (.handle rfl (.ref rfl (.leaf _ _)))
  · exact .un (.handle rfl (.ref rfl (.leaf _ _)))

end Examples

end WG
