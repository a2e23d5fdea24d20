import Verif.Spec.Function
import Verif.Lemmas.StorageSafe

/-! Functions returning expressions: what a step of the body does, and inlining. -/

namespace WG
open Spec

variable {L : Lib} [DecidableEq L.Ty]

omit [DecidableEq L.Ty] in
theorem moveOnce_of_linear : {τ : L.Ty} → (m : Cells L) → (s : Src L τ) → Linear s → MoveOnce m s
  | _, _, .named _ _, _ => trivial
  | _, _, .moved _ _, _ => trivial
  | _, _, .movedConst _ _, _ => trivial
  | _, _, .temp _ _, _ => trivial
  | _, m, .constResult s, h => moveOnce_of_linear m s h
  | _, m, .un _ s, h => moveOnce_of_linear m s h
  | _, m, .makeDynamic s, h => moveOnce_of_linear m s h
  | _, m, .makeRef s, h => moveOnce_of_linear m s h
  | _, m, .makeProxy s, h => moveOnce_of_linear m s h
  | _, m, .bin _ s t, h =>
    ⟨moveOnce_of_linear m s h.1, moveOnce_of_linear m t h.2.1,
      fun a ha k => absurd k (h.2.2.1 a ha), fun a ha k => absurd k (h.2.2.2 a ha)⟩

/-- An argument of a careful expression is an rvalue exactly if the `&&` overload would be chosen. -/
theorem isRvalue_bind {m₀ : Cells L} {τ : L.Ty} {s : Src L τ} {st st' : Machine L} {r : Res L τ}
    (g : GoodRes m₀ s st st' r) : r.isRvalue = (r.bind st').2.1 := by
  cases r with
  | object i rv => rfl
  | prvalue o c => rw [g.1]; rfl

/-- The member initialisation, taken apart. -/
theorem memberInit_form {r : ℕ} {τ : L.Ty} {s : Src L τ} {st st' : Machine L} (hc : Tidy s)
    (hl : Linear s) (h : initResult .member r s st = some st') :
    r ∉ st.declared ∧ ∃ q st1 x st2, s.eval st = some (q, st1) ∧
      member (q.bind st1).1 (q.bind st1).2.1 τ (q.bind st1).2.2 = some (x, st2) ∧
      st' = { (st2.set (.var r) x).endFull with declared := r :: st.declared } := by
  simp only [initResult] at h
  split at h
  · cases h
  · rename_i hd
    obtain ⟨⟨q, st1⟩, h1, h⟩ := Option.bind_eq_some_iff.mp h
    obtain ⟨⟨x, st2⟩, h2, h⟩ := Option.map_eq_some_iff.mp h
    obtain ⟨-, -, g⟩ := eval_spec st.cells s hc (moveOnce_of_linear _ s hl) (fun _ _ => rfl) h1
    dsimp only at h2
    rw [isRvalue_bind g] at h2
    exact ⟨hd, q, st1, x, st2, h1, h2, h.symm⟩

/-- Declaring a new variable at the end of a statement. -/
theorem declare_wf {st st2 : Machine L} {r : ℕ} {τ : L.Ty} {x : XObj L τ} (hd : r ∉ st.declared)
    (w : Wf st2) (o : ObjOk st2 x) (hdecl : st2.declared = st.declared) :
    Between { (st2.set (.var r) x).endFull with declared := r :: st.declared } := by
  obtain ⟨w3, -⟩ := wf_new (st' := { st2.set (.var r) x with declared := r :: st2.declared }) w
    (i := .var r) (fun q => hd (hdecl ▸ q)) (fun j => rfl)
    (fun j hj => by
      cases j with
      | var q => exact List.mem_cons_of_mem _ hj
      | tmp q => exact hj
      | heap q => exact hj) List.mem_cons_self o
  obtain ⟨w4, -⟩ := wf_endFull w3
  rw [hdecl] at w4
  exact ⟨w4, fun i => rfl⟩

/-- What one initialisation does. -/
structure StepOk (s : Src L τ) (r : ℕ) (st st' : Machine L) : Prop where
  new : r ∉ st.declared
  between : Between st'
  decl : st'.declared = r :: st.declared
  heap : ∀ i < st.nHeap, st'.cells (.heap i) = st.cells (.heap i)
  nHeap : st.nHeap ≤ st'.nHeap
  var : ∀ a, a ≠ r → a ∉ movedVars s → st'.cells (.var a) = st.cells (.var a)
  result : ∃ o, st'.cells (.var r) = some ⟨τ, o⟩ ∧
    ∀ m, KeepsHeap st' m → ∀ v, Reads m o v ↔ Denotes st.cells m s v
  clean : ∀ P : ℕ → Prop, (∀ a ∈ lvalues s, P a) → Clean P st → Clean P st'

theorem step_ok {k : Init} {r : ℕ} {τ : L.Ty} {s : Src L τ} {st st' : Machine L} (b : Between st)
    (hc : Tidy s) (hl : Linear s) (hk : k ≠ .forwarded) (hv : k = .whole → ¬ IsVariable s)
    (h : initResult k r s st = some st') : StepOk s r st st' := by
  cases k with
  | forwarded => exact absurd rfl hk
  | whole =>
    obtain ⟨hd, q, st1, x, st2, h1, h2, rfl⟩ := auto_form h
    obtain ⟨k1, -, g⟩ := eval_spec st.cells s hc (moveOnce_of_linear _ s hl) (fun _ _ => rfl) h1
    obtain ⟨w1, e1, kk, g1⟩ := eval_wf s b.wf h1
    cases q with
    | object i rv => exact absurd h1 (eval_prvalue hc (hv rfl))
    | prvalue o c =>
      cases h2
      refine ⟨hd, declare_wf hd w1 g1 kk.decl, rfl, fun i hi => ?_, kk.nH, fun a ha hm => ?_,
        ⟨x, set_cells st1 (.var r) x, fun m hm => g.2.1 m fun i hi => (hm i hi).trans ?_⟩, fun P hP w => ?_⟩
      · exact (set_other (i := .var r) (j := .heap i) st1 x (by simp)).trans (kk.heap i hi)
      · exact (set_other (i := .var r) (j := .var a) st1 x (by simpa using ha)).trans (kk.var a hm)
      · exact set_other (i := .var r) (j := .heap i) st1 x (by simp)
      · obtain ⟨w1, g1⟩ := clean_eval s hc hP w h1
        exact fun i σ y hy => clean_endFull (clean_set w1 (.var r) g1.2) i σ y hy
  | member =>
    obtain ⟨hd, q, st1, x, st2, h1, h2, rfl⟩ := memberInit_form hc hl h
    obtain ⟨k1, hh, g⟩ := eval_spec st.cells s hc (moveOnce_of_linear _ s hl) (fun _ _ => rfl) h1
    obtain ⟨k2, -, d, -⟩ := operand_spec k1 hh g h2
    obtain ⟨w1, e1, kk, g1⟩ := eval_wf s b.wf h1
    obtain ⟨wb, -, -, -⟩ := bind_wf w1 g1
    obtain ⟨w2, -, o2, -, -, -, n3⟩ := member_wf wb h2
    refine ⟨hd, declare_wf hd w2 o2 k2.decl, rfl, fun i hi => ?_, k2.nH, fun a ha hm => ?_,
      ⟨x, set_cells st2 (.var r) x, fun m hm => d m fun i hi => (hm i hi).trans ?_⟩, fun P hP w => ?_⟩
    · exact (set_other (i := .var r) (j := .heap i) st2 x (by simp)).trans (k2.heap i hi)
    · exact (set_other (i := .var r) (j := .var a) st2 x (by simpa using ha)).trans
        (k2.var a fun k => hm k.1)
    · exact set_other (i := .var r) (j := .heap i) st2 x (by simp)
    · obtain ⟨w1, g1⟩ := clean_eval s hc hP w h1
      obtain ⟨wb, hb⟩ := clean_bind w1 g1
      obtain ⟨w2, g2⟩ := clean_member wb hb h2
      exact fun i σ y hy => clean_endFull (clean_set w2 (.var r) g2) i σ y hy

/-- Undeclared variables hold nothing. -/
theorem undeclared {st : Machine L} (b : Between st) {a : ℕ} (h : a ∉ st.declared) :
    st.cells (.var a) = none := by
  cases e : st.cells (.var a) with
  | none => rfl
  | some c => exact absurd (b.wf.known _ _ e) h

/-- The variables the rest of the function may mention hold what their definitions denote. -/
structure Holds (m₀ : Cells L) (d : Defs L) (st : Machine L) (U : ℕ → Prop) : Prop where
  outer : ∀ a, U a → d a = none → st.cells (.var a) = m₀ (.var a)
  inner : ∀ a τ (t : Src L τ), U a → d a = some ⟨τ, t⟩ → ∃ o, st.cells (.var a) = some ⟨τ, o⟩ ∧
    ∀ m, KeepsHeap st m → ∀ v, Reads m o v ↔ Denotes m₀ m t v
  notOuter : ∀ a c, d a = some c → m₀ (.var a) = none

theorem denotes_inPlace {m₀ m : Cells L} {d : Defs L} {st : Machine L} {U : ℕ → Prop}
    (H : Holds m₀ d st U) (hm : KeepsHeap st m) : {τ : L.Ty} → (s : Src L τ) → (∀ a ∈ vars s, U a) →
    (∀ a ∈ lvalues s, d a = none) → {v : Option (L.Val τ)} →
    (Denotes st.cells m s v ↔ Denotes m₀ m (inPlace d s) v)
  | τ, .named a _, hU, hl, v => by
    have e := H.outer a (hU a List.mem_cons_self) (hl a List.mem_cons_self)
    simp only [inPlace, Denotes, e]
  | τ, .movedConst a _, hU, hl, v => by
    have e := H.outer a (hU a List.mem_cons_self) (hl a List.mem_cons_self)
    simp only [inPlace, Denotes, e]
  | τ, .moved a _, hU, _, v => by
    have hu := hU a List.mem_cons_self
    cases e : d a with
    | none =>
      have e' := H.outer a hu e
      simp only [inPlace, e, Denotes, e']
    | some c =>
      obtain ⟨σ, t⟩ := c
      obtain ⟨o, ho, hr⟩ := H.inner a σ t hu e
      by_cases hσ : σ = τ
      · subst hσ
        simp only [inPlace, e, dite_true, Denotes]
        rw [← hr m hm v, ho]
        constructor
        · rintro ⟨o', h1, h2⟩
          cases h1
          exact h2
        · exact fun h => ⟨o, rfl, h⟩
      · simp only [inPlace, e, dif_neg hσ, Denotes]
        constructor
        · rintro ⟨o', h1, -⟩
          rw [ho] at h1
          cases h1
          exact absurd rfl hσ
        · rintro ⟨o', h1, -⟩
          rw [H.notOuter a _ e] at h1
          cases h1
  | _, .temp _ _, _, _, _ => Iff.rfl
  | _, .constResult s, hU, hl, _ => denotes_inPlace H hm s hU hl
  | _, .makeDynamic s, hU, hl, _ => denotes_inPlace H hm s hU hl
  | _, .makeProxy s, hU, hl, _ => denotes_inPlace H hm s hU hl
  | _, .makeRef s, _, _, _ => Iff.rfl
  | _, .un op s, hU, hl, _ =>
    exists_congr fun _ => and_congr_left fun _ => denotes_inPlace H hm s hU hl
  | _, .bin op s t, hU, hl, _ =>
    exists_congr fun _ => exists_congr fun _ => and_congr
      (denotes_inPlace H hm s (fun a ha => hU a (List.mem_append_left _ ha))
        fun a ha => hl a (List.mem_append_left _ ha))
      (and_congr_left fun _ => denotes_inPlace H hm t (fun a ha => hU a (List.mem_append_right _ ha))
        fun a ha => hl a (List.mem_append_right _ ha))

/-- Mentioned in one of the sources. -/
def MentionedIn (l : List (InitStep L)) (a : ℕ) : Prop := ∃ q ∈ l, a ∈ vars q.src

/-- What several initialisations do. -/
structure StepsOk (st st' : Machine L) : Prop where
  between : Between st'
  decl : ∀ a ∈ st.declared, a ∈ st'.declared
  heap : ∀ i < st.nHeap, st'.cells (.heap i) = st.cells (.heap i)
  nHeap : st.nHeap ≤ st'.nHeap

theorem StepsOk.keepsHeap {st st' : Machine L} (h : StepsOk st st') {m : Cells L} (hm : KeepsHeap st' m) :
    KeepsHeap st m := fun i hi => (hm i (lt_of_lt_of_le hi h.nHeap)).trans (h.heap i hi)

/-- Locals: afterwards the variables still to be mentioned hold what their definitions denote. -/
theorem locals_ok {m₀ : Cells L} : (l : List (InitStep L)) → (rest : List (InitStep L)) → {d : Defs L} →
    {st st' : Machine L} → Between st →
    Holds m₀ d st (MentionedIn (l ++ rest)) →
    (∀ p ∈ l, Tidy p.src ∧ Linear p.src ∧ p.kind = .whole ∧ ¬ IsVariable p.src) →
    NoUseAfterMove (l ++ rest) →
    (∀ p ∈ l ++ rest, ∀ a ∈ lvalues p.src, d a = none ∧ ∀ q ∈ l, q.name ≠ a) →
    (∀ p ∈ l, m₀ (.var p.name) = none) →
    runInits l st = some st' →
    StepsOk st st' ∧ Holds m₀ (defs l d) st' (MentionedIn rest) ∧
      (∀ p ∈ l, p.name ∈ st'.declared) ∧
      (∀ p ∈ rest, ∀ a ∈ lvalues p.src, defs l d a = none) ∧
      ∀ P : ℕ → Prop, (∀ p ∈ l, ∀ a ∈ lvalues p.src, P a) → Clean P st → Clean P st'
  | [], rest, d, st, st', b, H, _, _, hl, _, h => by
    cases h
    exact ⟨⟨b, fun _ h => h, fun _ _ => rfl, le_rfl⟩, H, fun _ h => (by cases h),
      fun p hp a ha => (hl p hp a ha).1, fun _ _ w => w⟩
  | p :: l, rest, d, st, st', b, H, hs, hn, hl, h0, h => by
    obtain ⟨st1, h1, h2⟩ := Option.bind_eq_some_iff.mp h
    obtain ⟨hc, hlin, hk, hv⟩ := hs p List.mem_cons_self
    have ok := step_ok b hc hlin (by rw [hk]; simp) (fun _ => hv) h1
    have H1 : Holds m₀ (fun a => if a = p.name then some ⟨p.ty, inPlace d p.src⟩ else d a) st1
        (MentionedIn (l ++ rest)) := by
      have kh : ∀ {m}, KeepsHeap st1 m → KeepsHeap st m := fun {m} hm i hi =>
        (hm i (lt_of_lt_of_le hi ok.nHeap)).trans (ok.heap i hi)
      refine ⟨fun a ⟨q, hq, ha⟩ hd => ?_, fun a τ t ⟨q, hq, ha⟩ hd => ?_, fun a c hd => ?_⟩
      · split at hd
        · cases hd
        · rename_i hne
          rw [ok.var a hne fun hm => hn.1 a hm q hq ha]
          exact H.outer a ⟨q, List.mem_cons_of_mem _ hq, ha⟩ hd
      · split at hd
        · rename_i e
          subst e
          cases hd
          obtain ⟨o, ho, hr⟩ := ok.result
          refine ⟨o, ho, fun m hm v => (hr m hm v).trans ?_⟩
          exact denotes_inPlace H (kh hm) p.src (fun a ha => ⟨p, List.mem_cons_self, ha⟩)
            fun a ha => (hl p List.mem_cons_self a ha).1
        · rename_i hne
          obtain ⟨o, ho, hr⟩ := H.inner a τ t ⟨q, List.mem_cons_of_mem _ hq, ha⟩ hd
          exact ⟨o, (ok.var a hne fun hm => hn.1 a hm q hq ha).trans ho, fun m hm => hr m (kh hm)⟩
      · split at hd
        · rename_i e
          subst e
          exact h0 p List.mem_cons_self
        · exact H.notOuter a c hd
    obtain ⟨s1, s2, s3, s4, s5⟩ := locals_ok l rest ok.between H1
      (fun q hq => hs q (List.mem_cons_of_mem _ hq)) hn.2
      (fun q hq a ha => by
        obtain ⟨e1, e2⟩ := hl q (List.mem_cons_of_mem _ hq) a ha
        refine ⟨?_, fun q' hq' => e2 q' (List.mem_cons_of_mem _ hq')⟩
        beta_reduce
        rw [if_neg (Ne.symm (e2 p List.mem_cons_self)), e1])
      (fun q hq => h0 q (List.mem_cons_of_mem _ hq)) h2
    refine ⟨⟨s1.between, fun a ha => s1.decl a (by rw [ok.decl]; exact List.mem_cons_of_mem _ ha),
      fun i hi => (s1.heap i (lt_of_lt_of_le hi ok.nHeap)).trans (ok.heap i hi), ok.nHeap.trans s1.nHeap⟩,
      s2, fun q hq => ?_, s4, fun P hP w => ?_⟩
    · rcases List.mem_cons.mp hq with rfl | hq
      · exact s1.decl _ (by rw [ok.decl]; exact List.mem_cons_self)
      · exact s3 q hq
    · exact s5 P (fun q hq => hP q (List.mem_cons_of_mem _ hq)) (ok.clean P (hP p List.mem_cons_self) w)

/-- Results: each holds what its source, with the definitions of the locals in place, denotes. -/
theorem results_ok {m₀ : Cells L} {d : Defs L} : (l : List (InitStep L)) → {st st' : Machine L} → Between st →
    Holds m₀ d st (MentionedIn l) →
    (∀ p ∈ l, Tidy p.src ∧ Linear p.src ∧ p.kind ≠ .forwarded ∧ (p.kind = .whole → ¬ IsVariable p.src)) →
    NoUseAfterMove l → (∀ p ∈ l, ∀ a ∈ lvalues p.src, d a = none) →
    (∀ r ∈ l, ∀ p ∈ l, r.name ∉ vars p.src) →
    runInits l st = some st' →
    StepsOk st st' ∧ (∀ a ∈ st.declared, (∀ p ∈ l, a ∉ movedVars p.src) →
        st'.cells (.var a) = st.cells (.var a)) ∧
      (∀ r ∈ l, r.name ∉ st.declared) ∧
      (∀ r ∈ l, ∃ o, st'.cells (.var r.name) = some ⟨r.ty, o⟩ ∧ ∀ m, KeepsHeap st' m →
        ∀ v, Reads m o v ↔ Denotes m₀ m (inPlace d r.src) v) ∧
      ∀ P : ℕ → Prop, (∀ p ∈ l, ∀ a ∈ lvalues p.src, P a) → Clean P st → Clean P st'
  | [], st, st', b, H, _, _, _, _, h => by
    cases h
    exact ⟨⟨b, fun _ h => h, fun _ _ => rfl, le_rfl⟩, fun _ _ _ => rfl, fun _ h => (by cases h),
      fun _ h => (by cases h), fun _ _ w => w⟩
  | p :: l, st, st', b, H, hs, hn, hl, hr, h => by
    obtain ⟨st1, h1, h2⟩ := Option.bind_eq_some_iff.mp h
    obtain ⟨hc, hlin, hk, hv⟩ := hs p List.mem_cons_self
    have ok := step_ok b hc hlin hk hv h1
    have kh : ∀ {m}, KeepsHeap st1 m → KeepsHeap st m := fun {m} hm i hi =>
      (hm i (lt_of_lt_of_le hi ok.nHeap)).trans (ok.heap i hi)
    have hne : ∀ a, MentionedIn l a → a ≠ p.name := by
      rintro a ⟨q, hq, ha⟩ rfl
      exact hr p List.mem_cons_self q (List.mem_cons_of_mem _ hq) ha
    have H1 : Holds m₀ d st1 (MentionedIn l) := by
      refine ⟨fun a ha hd => ?_, fun a τ t ha hd => ?_, H.notOuter⟩
      · obtain ⟨q, hq, hqa⟩ := ha
        rw [ok.var a (hne a ⟨q, hq, hqa⟩) fun hm => hn.1 a hm q hq hqa]
        exact H.outer a ⟨q, List.mem_cons_of_mem _ hq, hqa⟩ hd
      · obtain ⟨q, hq, hqa⟩ := ha
        obtain ⟨o, ho, hr⟩ := H.inner a τ t ⟨q, List.mem_cons_of_mem _ hq, hqa⟩ hd
        exact ⟨o, (ok.var a (hne a ⟨q, hq, hqa⟩) fun hm => hn.1 a hm q hq hqa).trans ho,
          fun m hm => hr m (kh hm)⟩
    obtain ⟨s1, s2, s3, s4, s5⟩ := results_ok l ok.between H1
      (fun q hq => hs q (List.mem_cons_of_mem _ hq)) hn.2
      (fun q hq => hl q (List.mem_cons_of_mem _ hq))
      (fun r hr' q hq => hr r (List.mem_cons_of_mem _ hr') q (List.mem_cons_of_mem _ hq)) h2
    have hd1 : ∀ a ∈ st.declared, a ∈ st1.declared := fun a ha => by
      rw [ok.decl]; exact List.mem_cons_of_mem _ ha
    refine ⟨⟨s1.between, fun a ha => s1.decl a (hd1 a ha),
      fun i hi => (s1.heap i (lt_of_lt_of_le hi ok.nHeap)).trans (ok.heap i hi), ok.nHeap.trans s1.nHeap⟩,
      fun a ha hm => ?_, fun r hr' => ?_, fun r hr' => ?_, fun P hP w => ?_⟩
    · have hap : a ≠ p.name := fun e => ok.new (e ▸ ha)
      exact (s2 a (hd1 a ha) fun q hq => hm q (List.mem_cons_of_mem _ hq)).trans
        (ok.var a hap (hm p List.mem_cons_self))
    · rcases List.mem_cons.mp hr' with rfl | hr'
      · exact ok.new
      · exact fun k => s3 r hr' (hd1 _ k)
    · rcases List.mem_cons.mp hr' with rfl | hr'
      · obtain ⟨o, ho, hd⟩ := ok.result
        refine ⟨o, (s2 _ (by rw [ok.decl]; exact List.mem_cons_self) fun q hq k => ?_).trans ho,
          fun m hm v => ?_⟩
        · exact hr r List.mem_cons_self q (List.mem_cons_of_mem _ hq) (movedVars_sub _ _ k)
        · have hm1 := s1.keepsHeap hm
          refine (hd m hm1 v).trans ?_
          exact denotes_inPlace H (kh hm1) r.src (fun a ha => ⟨r, List.mem_cons_self, ha⟩)
            fun a ha => hl r List.mem_cons_self a ha
      · exact s4 r hr'
    · exact s5 P (fun q hq => hP q (List.mem_cons_of_mem _ hq)) (ok.clean P (hP p List.mem_cons_self) w)

omit [DecidableEq L.Ty] in
theorem denotes_valueWith {m₀ m : Cells L} {ρ₀ ρ : ℕ → (τ : L.Ty) → L.Val τ} : {τ : L.Ty} → (s : Src L τ) →
    NoHandles s → movedVars s = [] → LeavesAt m₀ ρ₀ s → LeavesAt m ρ s → {v : Option (L.Val τ)} →
    (Denotes m₀ m s v ↔ v = valueWith ρ s)
  | τ, .named a _, _, _, h0, h, v => by
    constructor
    · rintro ⟨o, ho, ⟨k, -⟩ | ⟨-, o', ho', hr⟩⟩
      · rw [show m₀ (.var a) = _ from h0] at ho
        cases ho
        exact k.elim
      · rw [show m (.var a) = _ from h] at ho'
        cases ho'
        exact reads_leaf.mp hr
    · rintro rfl
      exact ⟨_, h0, .inr ⟨id, _, h, .leaf _ _⟩⟩
  | τ, .movedConst a _, _, _, h0, h, v => by
    constructor
    · rintro ⟨o, ho, ⟨k, -⟩ | ⟨-, o', ho', hr⟩⟩
      · rw [show m₀ (.var a) = _ from h0] at ho
        cases ho
        exact k.elim
      · rw [show m (.var a) = _ from h] at ho'
        cases ho'
        exact reads_leaf.mp hr
    · rintro rfl
      exact ⟨_, h0, .inr ⟨id, _, h, .leaf _ _⟩⟩
  | τ, .moved a _, _, hm, _, _, v => by cases hm
  | _, .temp _ _, _, _, _, _, _ => Iff.rfl
  | _, .constResult s, hn, hm, h0, h, _ => denotes_valueWith s hn hm h0 h
  | _, .makeDynamic s, hn, hm, h0, h, _ => denotes_valueWith s hn hm h0 h
  | _, .un op s, hn, hm, h0, h, v => by
    have ih := fun x => denotes_valueWith s hn hm h0 h (v := x)
    simp only [Denotes, ih, valueWith, exists_eq_left]
  | _, .bin op s t, hn, hm, h0, h, v => by
    obtain ⟨m1, m2⟩ := List.append_eq_nil_iff.mp hm
    have ih := fun x => denotes_valueWith s hn.1 m1 h0.1 h.1 (v := x)
    have ih' := fun x => denotes_valueWith t hn.2 m2 h0.2 h.2 (v := x)
    simp only [Denotes, ih, ih', valueWith]
    constructor
    · rintro ⟨x, y, rfl, rfl, h⟩
      exact h
    · exact fun h => ⟨_, _, rfl, rfl, h⟩
  | _, .makeRef _, hn, _, _, _, _ => hn.elim
  | _, .makeProxy _, hn, _, _, _, _ => hn.elim

/-- A step declares its name, which was new. -/
theorem step_new {k : Init} {r : ℕ} {τ : L.Ty} {s : Src L τ} {st st' : Machine L}
    (h : initResult k r s st = some st') : r ∉ st.declared ∧ st'.declared = r :: st.declared := by
  cases k with
  | whole =>
    obtain ⟨hd, q, st1, x, st2, h1, h2, rfl⟩ := auto_form h
    exact ⟨hd, rfl⟩
  | member =>
    simp only [initResult] at h
    split at h
    · cases h
    · rename_i hd
      obtain ⟨_, -, h⟩ := Option.bind_eq_some_iff.mp h
      obtain ⟨_, -, rfl⟩ := Option.map_eq_some_iff.mp h
      exact ⟨hd, rfl⟩
  | forwarded =>
    simp only [initResult] at h
    split at h
    · cases h
    · rename_i hd
      obtain ⟨_, -, h⟩ := Option.bind_eq_some_iff.mp h
      cases h
      exact ⟨hd, rfl⟩

theorem steps_new : (l : List (InitStep L)) → {st st' : Machine L} → runInits l st = some st' →
    ∀ p ∈ l, p.name ∉ st.declared
  | [], _, _, _ => fun _ h => by cases h
  | p :: l, st, st', h => by
    obtain ⟨st1, h1, h2⟩ := Option.bind_eq_some_iff.mp h
    obtain ⟨hn, hd⟩ := step_new h1
    intro q hq
    rcases List.mem_cons.mp hq with rfl | hq
    · exact hn
    · exact fun k => steps_new l h2 q hq (by rw [hd]; exact List.mem_cons_of_mem _ k)

/-- A call, taken apart. -/
theorem call_form {f : Function L} {st st' : Machine L} (h : f.call st = some st') :
    ∃ st1 st2, runInits f.locals st = some st1 ∧ runInits f.results st1 = some st2 ∧
      runStmts ((f.locals.reverse).map fun p => .destroy p.name) st2 = some st' := by
  obtain ⟨st1, h1, h⟩ := Option.bind_eq_some_iff.mp h
  obtain ⟨st2, h2, h⟩ := Option.bind_eq_some_iff.mp h
  exact ⟨st1, st2, h1, h2, h⟩

/-- What a call of a disciplined function does. -/
theorem call_ok {f : Function L} {st st' : Machine L} (b : Between st) (hf : Disciplined f)
    (h : f.call st = some st') :
    Between st' ∧ (∀ i < st.nHeap, st'.cells (.heap i) = st.cells (.heap i)) ∧
    (∀ r ∈ f.results, r.name ∈ st'.declared ∧ ∃ o, st'.cells (.var r.name) = some ⟨r.ty, o⟩ ∧
      ∀ m, KeepsHeap st' m →
      ∀ v, Reads m o v ↔ Denotes st.cells m (inPlace (defs f.locals fun _ => none) r.src) v) ∧
    ∀ P : ℕ → Prop, (∀ p ∈ f.locals ++ f.results, ∀ a ∈ lvalues p.src, P a) → Clean P st → Clean P st' := by
  obtain ⟨st1, st2, h1, h2, h3⟩ := call_form h
  have hnew := steps_new f.locals h1
  have H0 : Holds st.cells (fun _ => none) st (MentionedIn (f.locals ++ f.results)) :=
    ⟨fun _ _ _ => rfl, fun _ _ _ _ h => (by cases h), fun _ _ h => (by cases h)⟩
  obtain ⟨s1, H1, d1, l1, c1⟩ := locals_ok f.locals f.results b H0
    (fun p hp => ⟨(hf.tidy p (List.mem_append_left _ hp)).1, (hf.tidy p (List.mem_append_left _ hp)).2,
      hf.locals p hp, hf.fresh p (List.mem_append_left _ hp) (hf.locals p hp)⟩) hf.moves
    (fun p hp a ha => ⟨rfl, fun q hq e => hf.byMove p hp q hq (e ▸ ha)⟩)
    (fun p hp => undeclared b (hnew p hp)) h1
  have hm2 : NoUseAfterMove f.results := by
    have key : ∀ l : List (InitStep L), NoUseAfterMove (l ++ f.results) → NoUseAfterMove f.results := by
      intro l
      induction l with
      | nil => exact id
      | cons p l ih => exact fun h => ih h.2
    exact key _ hf.moves
  obtain ⟨s2, -, n2, r2, c2⟩ := results_ok f.results s1.between H1
    (fun p hp => ⟨(hf.tidy p (List.mem_append_right _ hp)).1, (hf.tidy p (List.mem_append_right _ hp)).2,
      hf.results p hp, hf.fresh p (List.mem_append_right _ hp)⟩) hm2 l1
    (fun r hr p hp => hf.new r hr p (List.mem_append_right _ hp)) h2
  obtain ⟨b3, k3, p3, v3⟩ := stmts_wf _ s2.between h3
  refine ⟨b3, fun i hi => ?_, fun r hr => ?_, fun P hP w => ?_⟩
  · exact (p3 i (lt_of_lt_of_le hi (s1.nHeap.trans s2.nHeap))).trans
      ((s2.heap i (lt_of_lt_of_le hi s1.nHeap)).trans (s1.heap i hi))
  · obtain ⟨o, ho, hd⟩ := r2 r hr
    have hdecl : r.name ∈ st2.declared := s2.between.wf.known _ _ ho
    refine ⟨k3 (.var r.name) hdecl, o, (v3 _ hdecl ?_).trans ho, fun m hm => hd m fun i hi => ?_⟩
    · intro c hc
      obtain ⟨q, hq, rfl⟩ := List.mem_map.mp hc
      rintro (e : r.name = q.name)
      exact n2 r hr (e ▸ d1 q (List.mem_reverse.mp hq))
    · exact (hm i (k3 (.heap i) hi)).trans (p3 i hi)
  · refine clean_stmts _ ?_ ?_ (c2 P (fun p hp => hP p (List.mem_append_right _ hp))
      (c1 P (fun p hp => hP p (List.mem_append_left _ hp)) w)) h3 <;>
    · intro c hc
      obtain ⟨q, hq, rfl⟩ := List.mem_map.mp hc
      first | exact trivial | exact fun a ha => by cases ha

end WG
