import Verif.Lemmas.StorageWf

/-! Stored expressions built without const temporaries refer to variables only, and can be
evaluated. -/

namespace WG
open Spec

variable {L : Lib}

/-- Everything the object borrows is a variable of `P`. -/
def VarsOnly (P : ℕ → Prop) {τ : L.Ty} (o : XObj L τ) : Prop := ∀ i ∈ borrowed o, ∃ a, P a ∧ i = .var a

theorem borrowed_movedFrom : {τ : L.Ty} → (o : XObj L τ) → borrowed o.movedFrom = borrowed o
  | _, .leaf _ _ => rfl
  | _, .ref _ _ => rfl
  | _, .un _ x => borrowed_movedFrom x
  | _, .bin _ x y => congrArg₂ (· ++ ·) (borrowed_movedFrom x) (borrowed_movedFrom y)
  | _, .handle .owning _ _ => rfl
  | _, .handle .plain _ _ => rfl
  | _, .dyn x => borrowed_movedFrom x

theorem borrowed_sub : {τ : L.Ty} → (o : XObj L τ) → ∀ i ∈ borrowed o, i ∈ refs o ∨ i ∈ targets o
  | _, .leaf _ _ => fun _ h => by cases h
  | _, .ref _ _ => fun _ h => .inl h
  | _, .un _ x => borrowed_sub x
  | _, .bin _ x y => fun i h => by
    rcases List.mem_append.mp h with h | h
    · exact (borrowed_sub x i h).imp (List.mem_append_left _) (List.mem_append_left _)
    · exact (borrowed_sub y i h).imp (List.mem_append_right _) (List.mem_append_right _)
  | _, .handle .owning _ _ => fun _ h => by cases h
  | _, .handle .plain _ _ => fun _ h => .inr h
  | _, .dyn x => borrowed_sub x

variable {P : ℕ → Prop}

/-- All objects borrow variables of `P` only. -/
def Clean (P : ℕ → Prop) (st : Machine L) : Prop :=
  ∀ i τ (o : XObj L τ), st.cells i = some ⟨τ, o⟩ → VarsOnly P o

theorem clean_set {st : Machine L} (h : Clean P st) (i : Id) {τ : L.Ty} {o : XObj L τ}
    (ho : VarsOnly P o) : Clean P (st.set i o) := by
  intro j σ x hx
  by_cases e : j = i
  · subst e
    rw [set_cells] at hx
    cases hx
    exact ho
  · rw [set_other st o e] at hx
    exact h j σ x hx

variable [DecidableEq L.Ty]

/-- The result of a careful expression: a variable, or a non-const prvalue borrowing variables. -/
def CleanRes (P : ℕ → Prop) {τ : L.Ty} : Res L τ → Prop
  | .object i rv => ∃ a, (rv = false → P a) ∧ i = .var a
  | .prvalue o c => c = false ∧ VarsOnly P o

theorem clean_bind {τ : L.Ty} {st : Machine L} {r : Res L τ} (h : Clean P st) (hr : CleanRes P r) :
    Clean P (r.bind st).2.2 ∧ ((r.bind st).2.1 = false → ∃ a, P a ∧ (r.bind st).1 = .var a) := by
  cases r with
  | object i rv => exact ⟨h, fun e => let ⟨a, ha, hi⟩ := hr; ⟨a, ha e, hi⟩⟩
  | prvalue o c =>
    obtain ⟨rfl, ho⟩ := hr
    exact ⟨fun i σ x hx => clean_set h (.tmp st.nTmp) ho i σ x hx, fun h => by cases h⟩

theorem clean_member {τ : L.Ty} {st st' : Machine L} {i : Id} {rv : Bool} {x : XObj L τ}
    (h : Clean P st) (hi : rv = false → ∃ a, P a ∧ i = .var a) (hm : member i rv τ st = some (x, st')) :
    Clean P st' ∧ VarsOnly P x := by
  obtain ⟨o, ho, hf⟩ := member_form hm
  rcases hf with ⟨h1, rfl, rfl⟩ | ⟨-, -, rfl, rfl⟩ | ⟨h1, h2, rfl, rfl⟩
  · refine ⟨clean_set h i ?_, h i _ _ ho⟩
    unfold VarsOnly
    rw [borrowed_movedFrom]
    exact h i _ _ ho
  · exact ⟨h, h i _ _ ho⟩
  · refine ⟨h, fun j hj => ?_⟩
    cases List.mem_singleton.mp hj
    exact hi h1

theorem clean_eval : {τ : L.Ty} → (s : Src L τ) → Tidy s → (∀ a ∈ lvalues s, P a) → {st st' : Machine L} → {r : Res L τ} →
    Clean P st → s.eval st = some (r, st') → Clean P st' ∧ CleanRes P r
  | _, .named a τ, _, hl, st, st', r, w, h => by
    cases h; exact ⟨w, a, fun _ => hl a List.mem_cons_self, rfl⟩
  | _, .moved a τ, _, _, st, st', r, w, h => by
    cases h; exact ⟨w, a, (fun e => by cases e), rfl⟩
  | _, .movedConst a τ, _, hl, st, st', r, w, h => by
    cases h; exact ⟨w, a, fun _ => hl a List.mem_cons_self, rfl⟩
  | _, .temp τ v, _, _, st, st', r, w, h => by cases h; exact ⟨w, rfl, fun j hj => by cases hj⟩
  | _, .constResult s, hc, _, _, _, _, _, _ => hc.elim
  | _, .un op s, hc, hl, st, st', r, w, h => by
    obtain ⟨⟨r1, st1⟩, h1, h⟩ := Option.bind_eq_some_iff.mp h
    obtain ⟨⟨x, st2⟩, h2, h⟩ := Option.map_eq_some_iff.mp h
    cases h
    obtain ⟨w1, g1⟩ := clean_eval s hc hl w h1
    obtain ⟨wb, hb⟩ := clean_bind w1 g1
    obtain ⟨w2, g2⟩ := clean_member wb hb h2
    exact ⟨w2, rfl, g2⟩
  | _, .makeDynamic s, hc, hl, st, st', r, w, h => by
    obtain ⟨⟨r1, st1⟩, h1, h⟩ := Option.bind_eq_some_iff.mp h
    obtain ⟨⟨x, st2⟩, h2, h⟩ := Option.map_eq_some_iff.mp h
    cases h
    obtain ⟨w1, g1⟩ := clean_eval s hc hl w h1
    obtain ⟨wb, hb⟩ := clean_bind w1 g1
    obtain ⟨w2, g2⟩ := clean_member wb hb h2
    exact ⟨w2, rfl, g2⟩
  | _, .bin op s t, hc, hl, st, st', r, w, h => by
    obtain ⟨⟨r1, st1⟩, h1, h⟩ := Option.bind_eq_some_iff.mp h
    obtain ⟨⟨r2, st2⟩, h2, h⟩ := Option.bind_eq_some_iff.mp h
    obtain ⟨⟨x, st3⟩, h3, h⟩ := Option.bind_eq_some_iff.mp h
    obtain ⟨⟨y, st4⟩, h4, h⟩ := Option.map_eq_some_iff.mp h
    cases h
    obtain ⟨w1, g1⟩ := clean_eval s hc.1 (fun a ha => hl a (List.mem_append_left _ ha)) w h1
    obtain ⟨wb, hb⟩ := clean_bind w1 g1
    obtain ⟨w2, g2⟩ := clean_eval t hc.2 (fun a ha => hl a (List.mem_append_right _ ha)) wb h2
    obtain ⟨wb', hb'⟩ := clean_bind w2 g2
    obtain ⟨w3, g3⟩ := clean_member wb' hb h3
    obtain ⟨w4, g4⟩ := clean_member w3 hb' h4
    refine ⟨w4, rfl, fun i hi => ?_⟩
    rcases List.mem_append.mp hi with hi | hi
    · exact g3 i hi
    · exact g4 i hi
  | τ, .makeRef s, hc, hl, st, st', r, w, h => by
    obtain ⟨⟨r1, st1⟩, h1, h⟩ := Option.bind_eq_some_iff.mp h
    obtain ⟨o, ho, h⟩ := Option.bind_eq_some_iff.mp h
    have key : ∀ a rv, P a → r1 = .object (.var a) rv → st1 = st → Clean P st' ∧ CleanRes P r := by
      rintro a rv hP rfl rfl
      cases o with
      | dyn x =>
        cases h
        exact ⟨w, rfl, fun i hi => ⟨a, hP, List.mem_singleton.mp hi⟩⟩
      | _ => cases h
    cases s with
    | named a => cases h1; exact key a _ (hl a List.mem_cons_self) rfl rfl
    | moved a => cases h1; exact key a _ (hl a List.mem_cons_self) rfl rfl
    | movedConst a => cases h1; exact key a _ (hl a List.mem_cons_self) rfl rfl
    | _ => exact hc.elim
  | τ, .makeProxy s, hc, hl, st, st', r, w, h => by
    obtain ⟨⟨r1, st1⟩, h1, h⟩ := Option.bind_eq_some_iff.mp h
    dsimp only at h
    split at h
    · obtain ⟨o, ho, h⟩ := Option.map_eq_some_iff.mp h
      obtain ⟨w1, g1⟩ := clean_eval s hc hl w h1
      obtain ⟨wb, hb⟩ := clean_bind w1 g1
      have ok := wb _ _ _ (get_iff.mp ho)
      have hcase : (r, st') = (.prvalue o false, (r1.bind st1).2.2.set (r1.bind st1).1 o.movedFrom) ∨
          (r, st') = (.prvalue (.handle .owning (some (.heap (r1.bind st1).2.2.nHeap)) τ) false,
            { (r1.bind st1).2.2.set (.heap (r1.bind st1).2.2.nHeap) (.dyn o) with
                nHeap := (r1.bind st1).2.2.nHeap + 1 }) := by
        rw [← h]
        cases o with
        | handle kk n =>
          cases kk
          · exact .inl rfl
          · exact .inr rfl
        | _ => exact .inr rfl
      rcases hcase with hcase | hcase
      · cases hcase
        exact ⟨clean_set wb _ (by unfold VarsOnly; rw [borrowed_movedFrom]; exact ok), rfl, ok⟩
      · cases hcase
        exact ⟨fun i σ x hx => clean_set (o := XObj.dyn o) wb _ ok i σ x hx, rfl,
          fun i hi => by cases hi⟩
    · cases h

theorem clean_init {τ : L.Ty} {st st' : Machine L} {r : Res L τ} {x : XObj L τ} (h : Clean P st)
    (hr : CleanRes P r) (hi : r.init st = some (x, st')) : Clean P st' ∧ VarsOnly P x := by
  cases r with
  | prvalue o c => cases hi; exact ⟨h, hr.2⟩
  | object i rv =>
    obtain ⟨o, ho, hi⟩ := Option.map_eq_some_iff.mp hi
    have ok := h _ _ _ (get_iff.mp ho)
    cases hi
    cases rv with
    | false => exact ⟨h, ok⟩
    | true => exact ⟨clean_set h _ (by unfold VarsOnly; rw [borrowed_movedFrom]; exact ok), ok⟩

theorem clean_endFull {st : Machine L} (h : Clean P st) : Clean P st.endFull := by
  intro i σ x hx
  cases i with
  | tmp a => cases hx
  | var a => exact h _ σ x hx
  | heap a => exact h _ σ x hx

/-- The lvalues of a statement. -/
def Stmt.lvalues : Stmt L → List ℕ
  | .auto _ s => Spec.lvalues s
  | .rebind _ s => Spec.lvalues s
  | .write _ _ _ => []
  | .destroy _ => []

theorem clean_stmt {c : Stmt L} (hc : c.Tidy) (hl : ∀ a ∈ c.lvalues, P a) {st st' : Machine L} (w : Clean P st)
    (h : c.run st = some st') : Clean P st' := by
  cases c with
  | @auto a τ s =>
    obtain ⟨hd, r, st1, x, st2, h1, h2, rfl⟩ := auto_form h
    obtain ⟨w1, g1⟩ := clean_eval s hc hl w h1
    obtain ⟨w2, g2⟩ := clean_init w1 g1 h2
    exact fun i σ y hy => clean_endFull (clean_set w2 (.var a) g2) i σ y hy
  | write a τ v =>
    obtain ⟨w0, h0, rfl⟩ := write_form h
    exact clean_set w _ fun i hi => by cases hi
  | @rebind a τ s =>
    obtain ⟨k, n, n', r, st1, st2, h0, h1, h2, rfl⟩ := rebind_form h
    obtain ⟨w1, g1⟩ := clean_eval s hc hl w h1
    obtain ⟨w2, g2⟩ := clean_init w1 g1 h2
    exact clean_endFull (clean_set w2 (.var a) g2)
  | destroy a =>
    obtain ⟨c, hc, h⟩ := Option.map_eq_some_iff.mp h
    subst h
    intro i σ y hy
    dsimp only at hy
    split at hy
    · cases hy
    · exact w i σ y hy

theorem clean_stmts : (cs : List (Stmt L)) → (∀ c ∈ cs, c.Tidy) →
    (∀ c ∈ cs, ∀ a ∈ c.lvalues, P a) → {st st' : Machine L} →
    Clean P st → runStmts cs st = some st' → Clean P st'
  | [], _, _, st, st', w, h => by cases h; exact w
  | c :: cs, hc, hl, st, st', w, h => by
    obtain ⟨st1, h1, h2⟩ := Option.bind_eq_some_iff.mp h
    exact clean_stmts cs (fun c' hc' => hc c' (List.mem_cons_of_mem _ hc'))
      (fun c' hc' => hl c' (List.mem_cons_of_mem _ hc'))
      (clean_stmt (hc c List.mem_cons_self) (hl c List.mem_cons_self) w h1) h2

/-! ## Evaluation is defined -/

omit [DecidableEq L.Ty] in
theorem reads_mono {m m' : Cells L} (h : ∀ i c, m i = some c → m' i = some c) {τ : L.Ty}
    {o : XObj L τ} {v : Option (L.Val τ)} (hr : Reads m o v) : Reads m' o v := by
  induction hr with
  | leaf τ v => exact .leaf τ v
  | ref hi _ ih => exact .ref (h _ _ hi) ih
  | un _ ih => exact .un ih
  | bin _ _ ih ih' => exact .bin ih ih'
  | handle hi _ ih => exact .handle (h _ _ hi) ih
  | dyn _ ih => exact .dyn ih

/-- All objects except temporaries can be evaluated without looking at temporaries. -/
def AllOk (st : Machine L) : Prop :=
  ∀ i τ (o : XObj L τ), st.endFull.cells i = some ⟨τ, o⟩ → ∃ v, Reads st.endFull.cells o v

/-- The result can be evaluated. -/
def ResAlive {τ : L.Ty} (st : Machine L) : Res L τ → Prop
  | .object i _ => ∃ a, i = .var a
  | .prvalue o c => c = false ∧ ∃ v, Reads st.endFull.cells o v

omit [DecidableEq L.Ty] in
theorem moveOnce_of : {τ : L.Ty} → (m : Cells L) → (s : Src L τ) →
    (∀ a ∈ movedVars s, ¬ OwnsAt m a) → MoveOnce m s
  | _, _, .named _ _, _ => trivial
  | _, _, .moved _ _, _ => trivial
  | _, _, .movedConst _ _, _ => trivial
  | _, _, .temp _ _, _ => trivial
  | _, m, .constResult s, h => moveOnce_of m s h
  | _, m, .un _ s, h => moveOnce_of m s h
  | _, m, .makeDynamic s, h => moveOnce_of m s h
  | _, m, .makeRef s, h => moveOnce_of m s h
  | _, m, .makeProxy s, h => moveOnce_of m s h
  | _, m, .bin _ s t, h =>
    ⟨moveOnce_of m s fun a ha => h a (List.mem_append_left _ ha),
      moveOnce_of m t fun a ha => h a (List.mem_append_right _ ha),
      fun a ha _ => h a (List.mem_append_left _ ha), fun a ha _ => h a (List.mem_append_right _ ha)⟩

theorem keeps_of_notOwn {τ : L.Ty} {s : Src L τ} {st st' : Machine L} {r : Res L τ} (hc : Tidy s)
    (hm : ∀ a ∈ movedVars s, ¬ OwnsAt st.cells a) (h : s.eval st = some (r, st')) :
    Keeps (fun _ => False) st st' :=
  (eval_spec st.cells s hc (moveOnce_of _ s hm) (fun _ _ => rfl) h).1.trans (Keeps.refl (fun _ => False) _)
    (fun a ha => hm a ha.1 ha.2) (fun _ h => h)

/-- An argument that can be evaluated: a variable (not a `Proxy` holder if moved from), or a
temporary of non-const type. -/
def ArgAlive (τ : L.Ty) (st : Machine L) (i : Id) (rv : Bool) : Prop :=
  (∃ a, i = .var a ∧ (rv = true → ¬ OwnsAt st.cells a)) ∨
  ∃ k o, i = .tmp k ∧ rv = true ∧ k < st.nTmp ∧ st.cells (.tmp k) = some ⟨τ, o⟩ ∧
    ∃ v, Reads st.endFull.cells o v

/-- A moved object result is not a `Proxy` holder. -/
def MoveOk {τ : L.Ty} (st : Machine L) : Res L τ → Prop
  | .object i rv => rv = true → ∀ a, i = .var a → ¬ OwnsAt st.cells a
  | .prvalue _ _ => True

theorem alive_bind {τ : L.Ty} {st : Machine L} {r : Res L τ} (hr : ResAlive st r)
    (hm : MoveOk st r) :
    (r.bind st).2.2.endFull.cells = st.endFull.cells ∧
    Keeps (fun _ => False) st (r.bind st).2.2 ∧
    ArgAlive τ (r.bind st).2.2 (r.bind st).1 (r.bind st).2.1 ∧
    ∀ k, (r.bind st).1 = .tmp k → st.nTmp ≤ k := by
  cases r with
  | object i rv =>
    obtain ⟨a, rfl⟩ := hr
    exact ⟨rfl, Keeps.refl _ _, .inl ⟨a, rfl, fun h => hm h a rfl⟩, fun k hk => by cases hk⟩
  | prvalue o c =>
    obtain ⟨rfl, hv⟩ := hr
    have e : ∀ j, j ≠ .tmp st.nTmp → ((Res.prvalue o false).bind st).2.2.cells j = st.cells j :=
      fun j hj => set_other st o hj
    have hperm : ((Res.prvalue o false).bind st).2.2.endFull.cells = st.endFull.cells := by
      funext j
      cases j with
      | tmp a => rfl
      | var a => exact e (.var a) (by simp)
      | heap a => exact e (.heap a) (by simp)
    refine ⟨hperm, ⟨fun a _ => e _ (by simp), fun i hi => e _ (by simp; omega), fun i _ => e _ (by simp),
      Nat.le_succ _, le_rfl, rfl⟩, .inr ⟨st.nTmp, o, rfl, rfl, Nat.lt_succ_self _, set_cells st _ o, ?_⟩,
      fun k hk => by cases hk; exact le_rfl⟩
    rw [hperm]
    exact hv

/-- Initialising a member keeps the permanent objects and gives something that can be evaluated. -/
theorem alive_member {τ : L.Ty} {st st' : Machine L} {i : Id} {rv : Bool} {x : XObj L τ}
    (h : AllOk st) (hi : ArgAlive τ st i rv) (hm : member i rv τ st = some (x, st')) :
    st'.endFull.cells = st.endFull.cells ∧ (∃ v, Reads st.endFull.cells x v) ∧
      (∀ j, j ≠ i → st'.cells j = st.cells j) ∧ (∀ a, st'.cells (.var a) = st.cells (.var a)) ∧
      st'.nTmp = st.nTmp := by
  obtain ⟨o, ho, hf⟩ := member_form hm
  rcases hi with ⟨a, rfl, hna⟩ | ⟨k, o', rfl, rfl, -, ho', hv⟩
  · have hperm : st.endFull.cells (.var a) = some ⟨τ, o⟩ := ho
    obtain ⟨v, hv⟩ := h _ _ _ hperm
    rcases hf with ⟨h1, rfl, rfl⟩ | ⟨-, -, rfl, rfl⟩ | ⟨-, h2, rfl, rfl⟩
    · have hmv : x.movedFrom = x := movedFrom_eq x fun k => hna h1 ⟨τ, x, ho, k⟩
      have hc : ∀ j, (st.set (.var a) x.movedFrom).cells j = st.cells j := by
        intro j
        by_cases e : j = .var a
        · subst e
          rw [set_cells, hmv, ho]
        · exact set_other st _ e
      refine ⟨?_, ⟨v, hv⟩, fun j _ => hc j, fun b => hc _, rfl⟩
      funext j
      cases j with
      | tmp b => rfl
      | var b => exact hc (.var b)
      | heap b => exact hc (.heap b)
    · exact ⟨rfl, ⟨v, hv⟩, fun _ _ => rfl, fun _ => rfl, rfl⟩
    · exact ⟨rfl, ⟨v, .ref hperm hv⟩, fun _ _ => rfl, fun _ => rfl, rfl⟩
  · rw [ho'] at ho
    cases ho
    rcases hf with ⟨-, rfl, rfl⟩ | ⟨h1, -⟩ | ⟨h1, -⟩
    · refine ⟨?_, hv, fun j hj => set_other st _ hj, fun b => set_other st _ (by simp), rfl⟩
      funext j
      cases j with
      | tmp b => rfl
      | var b => exact set_other (i := .tmp k) (j := .var b) st x.movedFrom (by simp)
      | heap b => exact set_other (i := .tmp k) (j := .heap b) st x.movedFrom (by simp)
    · cases h1
    · cases h1

omit [DecidableEq L.Ty] in
theorem allOk_congr {st st' : Machine L} (h : AllOk st)
    (e : st'.endFull.cells = st.endFull.cells) : AllOk st' := by
  intro i τ o ho
  rw [e] at ho ⊢
  exact h i τ o ho

omit [DecidableEq L.Ty] in
theorem ownsAt_congr {m m' : Cells L} {a : ℕ} (h : m' (.var a) = m (.var a)) :
    OwnsAt m' a ↔ OwnsAt m a := by
  unfold OwnsAt
  rw [h]

omit [DecidableEq L.Ty] in
theorem ArgAlive.mono {τ : L.Ty} {st st' : Machine L} {i : Id} {rv : Bool} (h : ArgAlive τ st i rv)
    (hv : ∀ a, st'.cells (.var a) = st.cells (.var a)) (hn : st.nTmp ≤ st'.nTmp)
    (ht : ∀ k, i = .tmp k → k < st.nTmp → st'.cells (.tmp k) = st.cells (.tmp k))
    (e : ∀ i c, st.endFull.cells i = some c → st'.endFull.cells i = some c) : ArgAlive τ st' i rv := by
  rcases h with ⟨a, rfl, h⟩ | ⟨k, o, rfl, h1, h2, h3, v, h4⟩
  · exact .inl ⟨a, rfl, fun q => (ownsAt_congr (hv a)).not.mpr (h q)⟩
  · exact .inr ⟨k, o, rfl, h1, lt_of_lt_of_le h2 hn, (ht k rfl h2).trans h3, v, reads_mono e h4⟩

/-- Building an expression without const temporaries and without moving from `Proxy` holders keeps
everything evaluable, and its result is evaluable. -/
theorem alive_eval : {τ : L.Ty} → (s : Src L τ) → Tidy s → {st st' : Machine L} → {r : Res L τ} →
    (∀ a ∈ movedVars s, ¬ OwnsAt st.cells a) → Wf st → AllOk st → s.eval st = some (r, st') →
    (∀ i c, st.endFull.cells i = some c → st'.endFull.cells i = some c) ∧ AllOk st' ∧ ResAlive st' r ∧
      MoveOk st' r
  | _, .named a τ, _, st, st', r, _, _, w, h => by
    cases h; exact ⟨fun _ _ h => h, w, ⟨a, rfl⟩, fun h => by cases h⟩
  | _, .moved a τ, _, st, st', r, hm, _, w, h => by
    cases h
    refine ⟨fun _ _ h => h, w, ⟨a, rfl⟩, fun _ b hb => ?_⟩
    cases hb
    exact hm a List.mem_cons_self
  | _, .movedConst a τ, _, st, st', r, _, _, w, h => by
    cases h; exact ⟨fun _ _ h => h, w, ⟨a, rfl⟩, fun h => by cases h⟩
  | _, .temp τ v, _, st, st', r, _, _, w, h => by
    cases h
    exact ⟨fun _ _ h => h, w, ⟨rfl, _, .leaf _ _⟩, trivial⟩
  | _, .constResult s, hc, _, _, _, _, _, _, _ => hc.elim
  | _, .un op s, hc, st, st', r, hm, wf, w, h => by
    obtain ⟨⟨r1, st1⟩, h1, h⟩ := Option.bind_eq_some_iff.mp h
    obtain ⟨⟨x, st2⟩, h2, h⟩ := Option.map_eq_some_iff.mp h
    cases h
    obtain ⟨e1, w1, g1, m1⟩ := alive_eval s hc hm wf w h1
    obtain ⟨pb, -, ab, -⟩ := alive_bind g1 m1
    obtain ⟨p2, ⟨v, hv⟩, -⟩ := alive_member (allOk_congr w1 pb) ab h2
    have p := p2.trans pb
    refine ⟨fun i c hc => ?_, allOk_congr w1 p, ⟨rfl, _, .un (v := v) ?_⟩, trivial⟩
    · rw [p]; exact e1 i c hc
    · rw [p, ← pb]; exact hv
  | _, .makeDynamic s, hc, st, st', r, hm, wf, w, h => by
    obtain ⟨⟨r1, st1⟩, h1, h⟩ := Option.bind_eq_some_iff.mp h
    obtain ⟨⟨x, st2⟩, h2, h⟩ := Option.map_eq_some_iff.mp h
    cases h
    obtain ⟨e1, w1, g1, m1⟩ := alive_eval s hc hm wf w h1
    obtain ⟨pb, -, ab, -⟩ := alive_bind g1 m1
    obtain ⟨p2, ⟨v, hv⟩, -⟩ := alive_member (allOk_congr w1 pb) ab h2
    have p := p2.trans pb
    refine ⟨fun i c hc => ?_, allOk_congr w1 p, ⟨rfl, v, .dyn ?_⟩, trivial⟩
    · rw [p]; exact e1 i c hc
    · rw [p, ← pb]; exact hv
  | _, @Src.bin _ α β γ op s t, hc, st, st', r, hm, wf, w, h => by
    obtain ⟨⟨r1, st1⟩, h1, h⟩ := Option.bind_eq_some_iff.mp h
    obtain ⟨⟨r2, st2⟩, h2, h⟩ := Option.bind_eq_some_iff.mp h
    obtain ⟨⟨x, st3⟩, h3, h⟩ := Option.bind_eq_some_iff.mp h
    obtain ⟨⟨y, st4⟩, h4, h⟩ := Option.map_eq_some_iff.mp h
    cases h
    dsimp only at h2 h3 h4
    have hms : ∀ a ∈ movedVars s, ¬ OwnsAt st.cells a := fun a ha => hm a (List.mem_append_left _ ha)
    have hmt : ∀ a ∈ movedVars t, ¬ OwnsAt st.cells a := fun a ha => hm a (List.mem_append_right _ ha)
    have k1 := keeps_of_notOwn hc.1 hms h1
    obtain ⟨e1, w1, g1, m1⟩ := alive_eval s hc.1 hms wf w h1
    obtain ⟨wf1, -, -, q1⟩ := eval_wf s wf h1
    obtain ⟨wfb, -, -, -⟩ := bind_wf wf1 q1
    obtain ⟨pb, kb, ab, tb⟩ := alive_bind g1 m1
    have hmt' : ∀ a ∈ movedVars t, ¬ OwnsAt (r1.bind st1).2.2.cells a := fun a ha =>
      (ownsAt_congr ((kb.var a id).trans (k1.var a id))).not.mpr (hmt a ha)
    have k2 := keeps_of_notOwn hc.2 hmt' h2
    obtain ⟨e2, w2, g2, m2⟩ := alive_eval t hc.2 hmt' wfb (allOk_congr w1 pb) h2
    obtain ⟨pb', kb', ab', tb'⟩ := alive_bind g2 m2
    have kk := k2.trans kb' (C := fun _ => False) (fun _ h => h) (fun _ h => h)
    have e2' : ∀ i c, (r1.bind st1).2.2.endFull.cells i = some c →
        (r2.bind st2).2.2.endFull.cells i = some c := fun i c hc => by rw [pb']; exact e2 i c hc
    have a1 := ab.mono (fun a => kk.var a id) kk.nT (fun k _ hk => kk.tmp k hk) e2'
    have wb' := allOk_congr w2 pb'
    obtain ⟨p3, ⟨v, hv⟩, c3, v3, n3⟩ := alive_member wb' a1 h3
    have a2 : ArgAlive β st3 (r2.bind st2).1 (r2.bind st2).2.1 := by
      refine ab'.mono v3 n3.ge (fun k hk hlt => c3 _ fun e => ?_) fun i c hc => by rw [p3]; exact hc
      have h1 := tb' k hk
      rcases ab with ⟨a, ha, -⟩ | ⟨k', o', hk', -, hlt', -⟩
      · rw [ha] at e; cases e
      · rw [hk'] at e
        cases e
        exact absurd (lt_of_lt_of_le hlt' (k2.nT.trans h1)) (lt_irrefl _)
    obtain ⟨p4, ⟨v', hv'⟩, -⟩ := alive_member (allOk_congr wb' p3) a2 h4
    have p := p4.trans p3
    refine ⟨fun i c hc => ?_, allOk_congr wb' p, ⟨rfl, _, .bin (v := v) (w := v') ?_ ?_⟩, trivial⟩
    · rw [p]
      refine e2' i c ?_
      rw [pb]
      exact e1 i c hc
    · rw [p]; exact hv
    · rw [p4]; exact hv'
  | τ, .makeRef s, hc, st, st', r, hm, wf, w, h => by
    obtain ⟨⟨r1, st1⟩, h1, h⟩ := Option.bind_eq_some_iff.mp h
    obtain ⟨o, ho, h⟩ := Option.bind_eq_some_iff.mp h
    have key : ∀ a rv, r1 = .object (.var a) rv → st1 = st →
        (∀ i c, st.endFull.cells i = some c → st'.endFull.cells i = some c) ∧ AllOk st' ∧
          ResAlive st' r ∧ MoveOk st' r := by
      rintro a rv rfl rfl
      cases o with
      | dyn x =>
        cases h
        have hp : st1.endFull.cells (.var a) = some ⟨τ, .dyn x⟩ := get_iff.mp ho
        obtain ⟨v, hv⟩ := w _ _ _ hp
        exact ⟨fun _ _ h => h, w, ⟨rfl, v, .handle hp (reads_dyn.mp hv)⟩, trivial⟩
      | _ => cases h
    cases s with
    | named a => cases h1; exact key a _ rfl rfl
    | moved a => cases h1; exact key a _ rfl rfl
    | movedConst a => cases h1; exact key a _ rfl rfl
    | _ => exact hc.elim
  | τ, .makeProxy s, hc, st, st', r, hm, wf, w, h => by
    obtain ⟨⟨r1, st1⟩, h1, h⟩ := Option.bind_eq_some_iff.mp h
    dsimp only at h
    split at h
    · rename_i hrv
      obtain ⟨o, ho, h⟩ := Option.map_eq_some_iff.mp h
      obtain ⟨e1, w1, g1, m1⟩ := alive_eval s hc hm wf w h1
      obtain ⟨wf1, -, -, q1⟩ := eval_wf s wf h1
      obtain ⟨wfb, -, -, -⟩ := bind_wf wf1 q1
      obtain ⟨pb, -, ab, -⟩ := alive_bind g1 m1
      have wb := allOk_congr w1 pb
      rw [hrv] at ab
      obtain ⟨p2, ⟨v, hv⟩, -⟩ := alive_member wb ab (member_moved ho)
      have e1' : ∀ i c, st.endFull.cells i = some c → (r1.bind st1).2.2.endFull.cells i = some c :=
        fun i c hc => by rw [pb]; exact e1 i c hc
      have hcase : (r, st') = (.prvalue o false, (r1.bind st1).2.2.set (r1.bind st1).1 o.movedFrom) ∨
          (r, st') = (.prvalue (.handle .owning (some (.heap (r1.bind st1).2.2.nHeap)) τ) false,
            { (r1.bind st1).2.2.set (.heap (r1.bind st1).2.2.nHeap) (.dyn o) with
                nHeap := (r1.bind st1).2.2.nHeap + 1 }) := by
        rw [← h]
        cases o with
        | handle kk n =>
          cases kk
          · exact .inl rfl
          · exact .inr rfl
        | _ => exact .inr rfl
      rcases hcase with hcase | hcase
      · cases hcase
        refine ⟨fun i c hc => ?_, allOk_congr wb p2, ⟨rfl, v, ?_⟩, trivial⟩
        · rw [p2]; exact e1' i c hc
        · rw [p2]; exact hv
      · cases hcase
        clear ho h ab hrv p2 pb
        generalize (r1.bind st1).2.2 = sb at *
        have e : ∀ j, j ≠ Id.heap sb.nHeap →
            (sb.set (.heap sb.nHeap) (XObj.dyn o)).cells j = sb.cells j := fun j hj =>
          set_other sb _ hj
        have hx : ∀ i c, sb.endFull.cells i = some c →
            ({ sb.set (.heap sb.nHeap) (XObj.dyn o) with nHeap := sb.nHeap + 1 } :
              Machine L).endFull.cells i = some c := by
          intro i c hc
          cases i with
          | tmp a => cases hc
          | var a => exact (e _ (by simp)).trans hc
          | heap a =>
            refine (e _ ?_).trans hc
            have : a < sb.nHeap := wfb.known _ _ hc
            simp; omega
        have hn : ({ sb.set (.heap sb.nHeap) (XObj.dyn o) with nHeap := sb.nHeap + 1 } :
              Machine L).endFull.cells (.heap sb.nHeap) = some ⟨τ, .dyn o⟩ := set_cells sb _ _
        refine ⟨fun i c hc => hx i c (e1' i c hc), ?_, ⟨rfl, v, .handle hn (reads_mono hx hv)⟩, trivial⟩
        intro i σ y hy
        by_cases hi : i = .heap sb.nHeap
        · subst hi
          rw [hn] at hy
          cases hy
          exact ⟨v, .dyn (reads_mono hx hv)⟩
        · have hy' : sb.endFull.cells i = some ⟨σ, y⟩ := by
            cases i with
            | tmp a => cases hy
            | var a => exact (e _ hi).symm.trans hy
            | heap a => exact (e _ hi).symm.trans hy
          obtain ⟨v', hv'⟩ := wb i σ y hy'
          exact ⟨v', reads_mono hx hv'⟩
    · cases h

/-- Changing the value of a leaf object does not make anything undefined. -/
theorem reads_write {m m' : Cells L} {i : Id} {σ : L.Ty} {a b : L.Val σ}
    (hi : m i = some ⟨σ, .leaf σ a⟩) (hi' : m' i = some ⟨σ, .leaf σ b⟩)
    (h : ∀ j, j ≠ i → m' j = m j) {τ : L.Ty} {o : XObj L τ} {v : Option (L.Val τ)}
    (hr : Reads m o v) : ∃ w, Reads m' o w := by
  induction hr with
  | leaf τ v => exact ⟨_, .leaf τ v⟩
  | @ref j τ x v hj _ ih =>
    obtain ⟨w, hw⟩ := ih
    by_cases e : j = i
    · subst e
      rw [hi] at hj
      cases hj
      exact ⟨_, .ref hi' (.leaf σ b)⟩
    · exact ⟨w, .ref ((h j e).trans hj) hw⟩
  | un _ ih => obtain ⟨w, hw⟩ := ih; exact ⟨_, .un hw⟩
  | bin _ _ ih ih' =>
    obtain ⟨w, hw⟩ := ih
    obtain ⟨w', hw'⟩ := ih'
    exact ⟨_, .bin hw hw'⟩
  | @handle k j τ x v hj _ ih =>
    obtain ⟨w, hw⟩ := ih
    by_cases e : j = i
    · subst e
      rw [hi] at hj
      cases hj
    · exact ⟨w, .handle ((h j e).trans hj) hw⟩
  | dyn _ ih => obtain ⟨w, hw⟩ := ih; exact ⟨_, .dyn hw⟩

theorem alive_init {τ : L.Ty} {st st' : Machine L} {r : Res L τ} {x : XObj L τ} (w : AllOk st)
    (g : ResAlive st r) (m : MoveOk st r) (h : r.init st = some (x, st')) :
    st'.endFull.cells = st.endFull.cells ∧ ∃ v, Reads st.endFull.cells x v := by
  cases r with
  | prvalue o c => cases h; exact ⟨rfl, g.2⟩
  | object i rv =>
    obtain ⟨a, rfl⟩ := g
    obtain ⟨o, ho, h⟩ := Option.map_eq_some_iff.mp h
    have hp : st.endFull.cells (.var a) = some ⟨τ, o⟩ := get_iff.mp ho
    cases h
    refine ⟨?_, w _ _ _ hp⟩
    cases rv with
    | false => rfl
    | true =>
      exact (alive_member w (.inl ⟨a, rfl, fun h => m h a rfl⟩) (member_moved ho)).1

theorem alive_stmt {c : Stmt L} {st st' : Machine L} (b : Between st) (w : AllOk st)
    (hc : c.Tame st) (h : c.run st = some st') : AllOk st' := by
  have b' := (stmt_wf b h).1
  cases c with
  | @auto a τ s =>
    obtain ⟨hd, r, st1, x, st2, h1, h2, rfl⟩ := auto_form h
    obtain ⟨e1, w1, g1, m1⟩ := alive_eval s hc.1 hc.2 b.wf w h1
    obtain ⟨wf1, -, k1, q1⟩ := eval_wf s b.wf h1
    obtain ⟨wf2, -, -, k2⟩ := init_wf wf1 q1 h2
    obtain ⟨p, v, hv⟩ := alive_init w1 g1 m1 h2
    rw [← p] at hv
    have hdecl : st2.declared = st.declared := k2.decl.trans k1.decl
    have hx : ∀ i c, st2.endFull.cells i = some c → (st2.set (.var a) x).endFull.cells i = some c := by
      intro i c hcc
      cases i with
      | tmp q => cases hcc
      | heap q => exact (set_other (i := .var a) (j := .heap q) st2 x (by simp)).trans hcc
      | var q =>
        refine (set_other (i := .var a) (j := .var q) st2 x ?_).trans hcc
        have hq : q ∈ st2.declared := wf2.known _ _ hcc
        intro e
        cases e
        exact hd (hdecl ▸ hq)
    intro i σ y hy
    have hnew : (st2.set (.var a) x).endFull.cells (.var a) = some ⟨τ, x⟩ := set_cells st2 _ x
    have hee : ({ (st2.set (.var a) x).endFull with declared := a :: st.declared } :
        Machine L).endFull.cells = (st2.set (.var a) x).endFull.cells := by
      funext j; cases j <;> rfl
    rw [hee] at hy ⊢
    by_cases hi : i = .var a
    · subst hi
      rw [hnew] at hy
      cases hy
      exact ⟨v, reads_mono hx hv⟩
    · have hy' : st2.endFull.cells i = some ⟨σ, y⟩ := by
        cases i with
        | tmp q => cases hy
        | var q => exact (set_other (i := .var a) (j := .var q) st2 x hi).symm.trans hy
        | heap q => exact (set_other (i := .var a) (j := .heap q) st2 x hi).symm.trans hy
      obtain ⟨v', hv'⟩ := allOk_congr w1 p i σ y hy'
      exact ⟨v', reads_mono hx hv'⟩
  | write a τ v =>
    obtain ⟨w0, h0, rfl⟩ := write_form h
    have hother : ∀ j, j ≠ Id.var a →
        (st.set (.var a) (XObj.leaf (L := L) τ v)).endFull.cells j = st.endFull.cells j := by
      intro j hj
      cases j with
      | tmp q => rfl
      | var q => exact set_other (i := .var a) (j := .var q) st _ hj
      | heap q => exact set_other (i := .var a) (j := .heap q) st (XObj.leaf (L := L) τ v) hj
    have h1 : (st.set (.var a) (XObj.leaf (L := L) τ v)).endFull.cells (.var a) =
        some ⟨τ, .leaf τ v⟩ := set_cells st _ _
    intro i σ y hy
    by_cases hi : i = .var a
    · subst hi
      rw [h1] at hy
      cases hy
      exact ⟨_, .leaf τ v⟩
    · rw [hother i hi] at hy
      obtain ⟨u, hu⟩ := w i σ y hy
      exact reads_write (m := st.endFull.cells) (i := .var a) h0 h1 hother hu
  | @rebind a τ s =>
    obtain ⟨k, n, n', r, st1, st2, h0, h1, h2, rfl⟩ := rebind_form h
    obtain ⟨e1, w1, g1, m1⟩ := alive_eval s hc.1 hc.2 b.wf w h1
    obtain ⟨wf1, x1, k1, q1⟩ := eval_wf s b.wf h1
    obtain ⟨wf2, x2, o2, k2⟩ := init_wf wf1 q1 h2
    obtain ⟨p, v, hv⟩ := alive_init w1 g1 m1 h2
    rw [← p] at hv
    obtain ⟨wfe, le⟩ := wf_endFull wf2
    have hp2 : HandleAt st2.cells (.var a) := x2.keep _ (x1.keep _ ⟨τ, _, h0, trivial⟩)
    have hnew : (st2.set (.var a) (XObj.handle (L := L) k n' τ)).endFull.cells (.var a) =
        some ⟨τ, .handle k n' τ⟩ := set_cells st2 _ _
    have hother : ∀ j, j ≠ Id.var a →
        (st2.set (.var a) (XObj.handle (L := L) k n' τ)).endFull.cells j = st2.endFull.cells j := by
      intro j hj
      cases j with
      | tmp q => rfl
      | var q => exact set_other (i := .var a) (j := .var q) st2 (XObj.handle (L := L) k n' τ) hj
      | heap q => exact set_other (i := .var a) (j := .heap q) st2 (XObj.handle (L := L) k n' τ) hj
    have same : ∀ {σ} {y : XObj L σ} {u}, ObjOk st2.endFull y →
        (Reads (st2.set (.var a) (XObj.handle (L := L) k n' τ)).endFull.cells y u ↔
          Reads st2.endFull.cells y u) := fun hy =>
      reads_same wfe (p := .var a) hp2 ⟨τ, _, hnew, trivial⟩ (fun j _ hj => hother j hj) hy
    intro i σ y hy
    have hee : (st2.set (.var a) (XObj.handle (L := L) k n' τ)).endFull.endFull.cells =
        (st2.set (.var a) (XObj.handle (L := L) k n' τ)).endFull.cells := by
      funext j; cases j <;> rfl
    rw [hee] at hy ⊢
    by_cases hi : i = .var a
    · subst hi
      rw [hnew] at hy
      cases hy
      exact ⟨v, (same (o2.later le)).mpr hv⟩
    · rw [hother i hi] at hy
      obtain ⟨u, hu⟩ := allOk_congr w1 p i σ y hy
      exact ⟨u, (same (wfe.obj i σ y hy)).mpr hu⟩
  | destroy a => exact hc.elim

theorem alive_stmts : (cs : List (Stmt L)) → {st st' : Machine L} → Between st → AllOk st →
    TameRun cs st st' → Between st' ∧ AllOk st'
  | [], _, _, b, w, h => by cases h; exact ⟨b, w⟩
  | c :: cs, st, st', b, w, h => by
    obtain ⟨ht, st1, h1, h2⟩ := h
    exact alive_stmts cs (stmt_wf b h1).1 (alive_stmt b w ht h1) h2

/-- A careful expression that is not a variable gives a new object. -/
theorem eval_object_variable {τ : L.Ty} {s : Src L τ} {st st' : Machine L} {i : Id} {rv : Bool}
    (hv : ¬ IsVariable s) (h1 : s.eval st = some (.object i rv, st')) : False := by
  cases s with
  | named => exact hv trivial
  | moved => exact hv trivial
  | movedConst => exact hv trivial
  | temp => cases h1
  | constResult s =>
    obtain ⟨⟨q, st1⟩, -, h1⟩ := Option.bind_eq_some_iff.mp h1
    cases q <;> cases h1
  | un op s =>
    obtain ⟨_, -, h1⟩ := Option.bind_eq_some_iff.mp h1
    obtain ⟨_, -, h1⟩ := Option.map_eq_some_iff.mp h1
    cases h1
  | makeDynamic s =>
    obtain ⟨_, -, h1⟩ := Option.bind_eq_some_iff.mp h1
    obtain ⟨_, -, h1⟩ := Option.map_eq_some_iff.mp h1
    cases h1
  | bin op s t =>
    obtain ⟨_, -, h1⟩ := Option.bind_eq_some_iff.mp h1
    obtain ⟨_, -, h1⟩ := Option.bind_eq_some_iff.mp h1
    obtain ⟨_, -, h1⟩ := Option.bind_eq_some_iff.mp h1
    obtain ⟨_, -, h1⟩ := Option.map_eq_some_iff.mp h1
    cases h1
  | makeRef s =>
    obtain ⟨_, -, h1⟩ := Option.bind_eq_some_iff.mp h1
    obtain ⟨z, -, h1⟩ := Option.bind_eq_some_iff.mp h1
    cases z <;> cases h1
  | makeProxy s =>
    obtain ⟨_, -, h1⟩ := Option.bind_eq_some_iff.mp h1
    dsimp only at h1
    split at h1
    · obtain ⟨z, -, h1⟩ := Option.map_eq_some_iff.mp h1
      cases z with
      | handle k n => cases k <;> cases h1
      | _ => cases h1
    · cases h1

theorem eval_prvalue {τ : L.Ty} {s : Src L τ} {st st' : Machine L} {i : Id} {rv : Bool} (_ : Tidy s)
    (hv : ¬ IsVariable s) : s.eval st ≠ some (.object i rv, st') := eval_object_variable hv

omit [DecidableEq L.Ty] in
theorem denotes_congr {m₀ m m' : Cells L} : {τ : L.Ty} → (s : Src L τ) → NoHandles s →
    (∀ c ∈ vars s, ∃ (σ : L.Ty) (x : L.Val σ), m₀ (.var c) = some ⟨σ, .leaf σ x⟩) →
    (∀ c ∈ lvalues s, ∀ σ v, ValueOf m c σ v ↔ ValueOf m' c σ v) → {v : Option (L.Val τ)} →
    (Denotes m₀ m s v ↔ Denotes m₀ m' s v)
  | _, .named a τ, _, hl, h, v => by
    obtain ⟨σ, x, hx⟩ := hl a List.mem_cons_self
    refine exists_congr fun o => and_congr_right fun ho => ?_
    rw [hx] at ho
    cases ho
    exact or_congr (and_congr_right fun k => k.elim) (and_congr_right fun _ =>
      h a List.mem_cons_self _ v)
  | _, .movedConst a τ, _, hl, h, v => by
    obtain ⟨σ, x, hx⟩ := hl a List.mem_cons_self
    refine exists_congr fun o => and_congr_right fun ho => ?_
    rw [hx] at ho
    cases ho
    exact or_congr (and_congr_right fun k => k.elim) (and_congr_right fun _ =>
      h a List.mem_cons_self _ v)
  | _, .moved a τ, _, hl, h, v => by
    obtain ⟨σ, x, hx⟩ := hl a List.mem_cons_self
    refine exists_congr fun o => and_congr_right fun ho => ?_
    rw [hx] at ho
    cases ho
    rw [reads_leaf, reads_leaf]
  | _, .temp _ _, _, _, _, _ => Iff.rfl
  | _, .constResult s, hn, hl, h, _ => denotes_congr s hn hl h
  | _, .makeDynamic s, hn, hl, h, _ => denotes_congr s hn hl h
  | _, .un op s, hn, hl, h, v =>
    exists_congr fun _ => and_congr_left fun _ => denotes_congr s hn hl h
  | _, .bin op s t, hn, hl, h, v =>
    exists_congr fun _ => exists_congr fun _ => and_congr
      (denotes_congr s hn.1 (fun c hc => hl c (List.mem_append_left _ hc))
        fun c hc => h c (List.mem_append_left _ hc))
      (and_congr_left fun _ => denotes_congr t hn.2 (fun c hc => hl c (List.mem_append_right _ hc))
        fun c hc => h c (List.mem_append_right _ hc))
  | _, .makeRef _, hn, _, _, _ => hn.elim
  | _, .makeProxy _, hn, _, _, _ => hn.elim

end WG
