import Verif.Lemmas.Storage

/-! Invariants of the memory of expression objects over arbitrary programs. -/

namespace WG
open Spec

variable {L : Lib}

/-- Targets of the reference members. -/
def refs : {τ : L.Ty} → XObj L τ → List Id
  | _, .leaf _ _ => []
  | _, .ref i _ => [i]
  | _, .un _ x => refs x
  | _, .bin _ x y => refs x ++ refs y
  | _, .handle _ _ _ => []
  | _, .dyn x => refs x

/-- Targets of the handles. -/
def targets : {τ : L.Ty} → XObj L τ → List Id
  | _, .leaf _ _ => []
  | _, .ref _ _ => []
  | _, .un _ x => targets x
  | _, .bin _ x y => targets x ++ targets y
  | _, .handle _ n _ => n.toList
  | _, .dyn x => targets x

/-- Identities handed out so far. -/
def Known (st : Machine L) : Id → Prop
  | .var a => a ∈ st.declared
  | .tmp i => i < st.nTmp
  | .heap i => i < st.nHeap

/-- There is a handle object at `i`. -/
def HandleAt (m : Cells L) (i : Id) : Prop := ∃ τ o, m i = some ⟨τ, o⟩ ∧ IsHandle (L := L) (τ := τ) o

/-- Reference members point at known objects that are not handles; handles point at known objects. -/
structure ObjOk (st : Machine L) {τ : L.Ty} (o : XObj L τ) : Prop where
  ref : ∀ j ∈ refs o, Known st j ∧ ¬ HandleAt st.cells j
  target : ∀ j ∈ targets o, Known st j

/-- The invariant. -/
structure Wf (st : Machine L) : Prop where
  known : ∀ i c, st.cells i = some c → Known st i
  obj : ∀ i τ (o : XObj L τ), st.cells i = some ⟨τ, o⟩ → ObjOk st o

/-- Later states: known objects stay known and do not turn into handles. -/
structure Later (st st' : Machine L) : Prop where
  known : ∀ i, Known st i → Known st' i
  handle : ∀ i, Known st i → HandleAt st'.cells i → HandleAt st.cells i

/-- Moreover handles stay handles. -/
structure Ext (st st' : Machine L) : Prop extends Later st st' where
  keep : ∀ i, HandleAt st.cells i → HandleAt st'.cells i

theorem Ext.refl (st : Machine L) : Ext st st := ⟨⟨fun _ h => h, fun _ _ h => h⟩, fun _ h => h⟩

theorem Ext.trans {a b c : Machine L} (h : Ext a b) (h' : Ext b c) : Ext a c :=
  ⟨⟨fun i k => h'.known i (h.known i k), fun i k q => h.handle i k (h'.handle i (h.known i k) q)⟩,
    fun i k => h'.keep i (h.keep i k)⟩

theorem ObjOk.later {st st' : Machine L} {τ : L.Ty} {o : XObj L τ} (h : ObjOk st o)
    (e : Later st st') : ObjOk st' o :=
  ⟨fun j hj => ⟨e.known j (h.ref j hj).1, fun k => (h.ref j hj).2 (e.handle j (h.ref j hj).1 k)⟩,
    fun j hj => e.known j (h.target j hj)⟩

theorem ObjOk.ext {st st' : Machine L} {τ : L.Ty} {o : XObj L τ} (h : ObjOk st o) (e : Ext st st') :
    ObjOk st' o := h.later e.toLater

theorem ext_overwrite {st : Machine L} {i : Id} {τ : L.Ty} {o : XObj L τ}
    (hh : IsHandle o → HandleAt st.cells i) : Later st (st.set i o) := by
  refine ⟨fun j h => by cases j <;> exact h, fun j _ h => ?_⟩
  obtain ⟨σ, x, hx, hxh⟩ := h
  by_cases e : j = i
  · subst e
    rw [set_cells] at hx
    cases hx
    exact hh hxh
  · rw [set_other st o e] at hx
    exact ⟨σ, x, hx, hxh⟩

theorem wf_overwrite {st : Machine L} (w : Wf st) {i : Id} (hi : Known st i) {τ : L.Ty} {o : XObj L τ}
    (ho : ObjOk st o) (hh : IsHandle o → HandleAt st.cells i) : Wf (st.set i o) := by
  have e := ext_overwrite hh
  refine ⟨fun j c hc => ?_, fun j σ x hx => ?_⟩
  · by_cases e' : j = i
    · subst e'
      exact e.known _ hi
    · rw [set_other st o e'] at hc
      exact e.known _ (w.known j c hc)
  · by_cases e' : j = i
    · subst e'
      rw [set_cells] at hx
      cases hx
      exact ho.later e
    · rw [set_other st o e'] at hx
      exact (w.obj j σ x hx).later e

/-- Adding a new object. -/
theorem wf_new {st st' : Machine L} (w : Wf st) {i : Id} (hi : ¬ Known st i) {τ : L.Ty} {o : XObj L τ}
    (hc : ∀ j, st'.cells j = if j = i then some ⟨τ, o⟩ else st.cells j)
    (hk : ∀ j, Known st j → Known st' j) (hi' : Known st' i) (ho : ObjOk st o) :
    Wf st' ∧ Ext st st' := by
  have e : Ext st st' := by
    refine ⟨⟨hk, fun j hj h => ?_⟩, fun j h => ?_⟩
    · obtain ⟨σ, x, hx, hxh⟩ := h
      have : j ≠ i := fun e => hi (e ▸ hj)
      rw [hc j, if_neg this] at hx
      exact ⟨σ, x, hx, hxh⟩
    · obtain ⟨σ, x, hx, hxh⟩ := h
      have : j ≠ i := fun e => hi (e ▸ w.known _ _ hx)
      exact ⟨σ, x, by rw [hc j, if_neg this]; exact hx, hxh⟩
  refine ⟨⟨fun j c hx => ?_, fun j σ x hx => ?_⟩, e⟩
  · by_cases e' : j = i
    · subst e'; exact hi'
    · rw [hc j, if_neg e'] at hx
      exact hk j (w.known j c hx)
  · by_cases e' : j = i
    · subst e'
      rw [hc j, if_pos rfl] at hx
      cases hx
      exact ho.ext e
    · rw [hc j, if_neg e'] at hx
      exact (w.obj j σ x hx).ext e

theorem refs_movedFrom : {τ : L.Ty} → (o : XObj L τ) → refs o.movedFrom = refs o
  | _, .leaf _ _ => rfl
  | _, .ref _ _ => rfl
  | _, .un _ x => refs_movedFrom x
  | _, .bin _ x y => congrArg₂ (· ++ ·) (refs_movedFrom x) (refs_movedFrom y)
  | _, .handle .owning _ _ => rfl
  | _, .handle .plain _ _ => rfl
  | _, .dyn x => refs_movedFrom x

theorem targets_movedFrom : {τ : L.Ty} → (o : XObj L τ) → ∀ j ∈ targets o.movedFrom, j ∈ targets o
  | _, .leaf _ _ => fun _ h => h
  | _, .ref _ _ => fun _ h => h
  | _, .un _ x => targets_movedFrom x
  | _, .bin _ x y => fun j h => by
    rcases List.mem_append.mp h with h | h
    · exact List.mem_append_left _ (targets_movedFrom x j h)
    · exact List.mem_append_right _ (targets_movedFrom y j h)
  | _, .handle .owning _ _ => fun _ h => by cases h
  | _, .handle .plain _ _ => fun _ h => h
  | _, .dyn x => targets_movedFrom x

theorem ObjOk.movedFrom {st : Machine L} {τ : L.Ty} {o : XObj L τ} (h : ObjOk st o) :
    ObjOk st o.movedFrom :=
  ⟨fun j hj => h.ref j (refs_movedFrom o ▸ hj), fun j hj => h.target j (targets_movedFrom o j hj)⟩

theorem wf_move {st : Machine L} (w : Wf st) {i : Id} {τ : L.Ty} {o : XObj L τ}
    (h : st.cells i = some ⟨τ, o⟩) : Wf (st.set i o.movedFrom) ∧ Ext st (st.set i o.movedFrom) := by
  have hh : IsHandle o.movedFrom → HandleAt st.cells i := fun k =>
    ⟨τ, o, h, (isHandle_movedFrom o).mp k⟩
  refine ⟨wf_overwrite w (w.known _ _ h) (w.obj _ _ _ h).movedFrom hh, ext_overwrite hh, fun j hj => ?_⟩
  obtain ⟨σ, x, hx, hxh⟩ := hj
  by_cases e : j = i
  · subst e
    rw [h] at hx
    cases hx
    exact ⟨τ, o.movedFrom, set_cells _ _ _, (isHandle_movedFrom o).mpr hxh⟩
  · exact ⟨σ, x, (set_other st _ e).trans hx, hxh⟩

variable [DecidableEq L.Ty]

/-- What is known of the result of a source expression. -/
def ResOk {τ : L.Ty} (s : Src L τ) (st : Machine L) : Res L τ → Prop
  | .object i rv => ∃ a, i = .var a ∧ (rv = true → a ∈ movedVars s)
  | .prvalue o _ => ObjOk st o

/-- An argument: a variable, or a temporary numbered from `n` on. -/
def ArgOk {τ : L.Ty} (s : Src L τ) (n : ℕ) (i : Id) (rv : Bool) : Prop :=
  (∃ a, i = .var a ∧ (rv = true → a ∈ movedVars s)) ∨ ∃ k, i = .tmp k ∧ n ≤ k

theorem bind_wf {τ : L.Ty} {s : Src L τ} {st : Machine L} {r : Res L τ} (w : Wf st)
    (h : ResOk s st r) :
    Wf (r.bind st).2.2 ∧ Ext st (r.bind st).2.2 ∧ Keeps (fun _ => False) st (r.bind st).2.2 ∧
      ArgOk s st.nTmp (r.bind st).1 (r.bind st).2.1 := by
  cases r with
  | object i rv => exact ⟨w, Ext.refl _, Keeps.refl _ _, .inl h⟩
  | prvalue o c =>
    obtain ⟨w', e'⟩ := wf_new (st' := ((Res.prvalue o c).bind st).2.2) w (i := .tmp st.nTmp)
      (fun k => lt_irrefl _ (show st.nTmp < st.nTmp from k)) (fun j => rfl)
      (fun j hj => by
        cases j with
        | var a => exact hj
        | tmp k => exact Nat.lt_succ_of_lt hj
        | heap k => exact hj) (Nat.lt_succ_self st.nTmp) h
    have e : ∀ j, j ≠ .tmp st.nTmp → ((Res.prvalue o c).bind st).2.2.cells j = st.cells j :=
      fun j hj => set_other st o hj
    exact ⟨w', e', ⟨fun a _ => e _ (by simp), fun i hi => e _ (by simp; omega),
      fun i _ => e _ (by simp), Nat.le_succ _, le_rfl, rfl⟩, .inr ⟨_, rfl, le_rfl⟩⟩

theorem member_wf {τ : L.Ty} {st st' : Machine L} {i : Id} {rv : Bool} {x : XObj L τ} (w : Wf st)
    (h : member i rv τ st = some (x, st')) :
    Wf st' ∧ Ext st st' ∧ ObjOk st' x ∧ (∀ j, j ≠ i ∨ rv = false → st'.cells j = st.cells j) ∧
      st'.nTmp = st.nTmp ∧ st'.nHeap = st.nHeap ∧ st'.declared = st.declared := by
  obtain ⟨o, ho, hf⟩ := member_form h
  rcases hf with ⟨h1, rfl, rfl⟩ | ⟨-, -, rfl, rfl⟩ | ⟨-, h2, rfl, rfl⟩
  · obtain ⟨w', e'⟩ := wf_move w ho
    refine ⟨w', e', (w.obj _ _ _ ho).ext e', fun j hj => ?_, rfl, rfl, rfl⟩
    refine set_other _ _ (hj.resolve_right fun k => ?_)
    rw [h1] at k
    cases k
  · exact ⟨w, Ext.refl _, w.obj _ _ _ ho, fun _ _ => rfl, rfl, rfl, rfl⟩
  · refine ⟨w, Ext.refl _, ⟨fun j hj => ?_, fun j hj => by cases hj⟩, fun _ _ => rfl, rfl, rfl, rfl⟩
    cases List.mem_singleton.mp hj
    refine ⟨w.known _ _ ho, fun ⟨σ, y, hy, k⟩ => ?_⟩
    rw [ho] at hy
    cases hy
    exact h2 k

theorem member_keeps' {τ : L.Ty} {s : Src L τ} {A : ℕ → Prop} {st st1 st2 : Machine L} {n : ℕ}
    {i : Id} {rv : Bool} {x : XObj L τ} (w : Wf st1) (ha : ArgOk s n i rv) (hn : st.nTmp ≤ n)
    (h : member i rv τ st1 = some (x, st2)) (k : Keeps A st st1) (hA : ∀ a ∈ movedVars s, A a) :
    Keeps A st st2 := by
  obtain ⟨-, -, -, hc, n1, n2, n3⟩ := member_wf w h
  refine ⟨fun a hna => ?_, fun j hj => ?_, fun j hj => ?_, n1 ▸ k.nT, n2 ▸ k.nH, n3.trans k.decl⟩
  · refine (hc _ ?_).trans (k.var a hna)
    by_cases e : Id.var a = i
    · refine .inr ?_
      rcases ha with ⟨b, hb, hm⟩ | ⟨b, hb, -⟩
      · rw [← e] at hb
        cases hb
        cases rv
        · rfl
        · exact absurd (hA a (hm rfl)) hna
      · rw [← e] at hb
        cases hb
    · exact .inl e
  · refine (hc _ (.inl fun e => ?_)).trans (k.tmp j hj)
    rcases ha with ⟨b, hb, -⟩ | ⟨b, hb, hle⟩
    · rw [← e] at hb; cases hb
    · rw [← e] at hb; cases hb; omega
  · refine (hc _ (.inl fun e => ?_)).trans (k.heap j hj)
    rcases ha with ⟨b, hb, -⟩ | ⟨b, hb, -⟩ <;> (rw [← e] at hb; cases hb)

/-- Building any source expression preserves the invariant and changes only moved-from variables. -/
theorem eval_wf : {τ : L.Ty} → (s : Src L τ) → {st st' : Machine L} → {r : Res L τ} → Wf st →
    s.eval st = some (r, st') →
    Wf st' ∧ Ext st st' ∧ Keeps (· ∈ movedVars s) st st' ∧ ResOk s st' r
  | _, .named a τ, st, st', r, w, h => by
    cases h
    exact ⟨w, Ext.refl _, Keeps.refl _ _, a, rfl, fun k => by cases k⟩
  | _, .moved a τ, st, st', r, w, h => by
    cases h
    exact ⟨w, Ext.refl _, Keeps.refl _ _, a, rfl, fun k => List.mem_cons_self⟩
  | _, .movedConst a τ, st, st', r, w, h => by
    cases h
    exact ⟨w, Ext.refl _, Keeps.refl _ _, a, rfl, fun k => by cases k⟩
  | _, .temp τ v, st, st', r, w, h => by
    cases h
    exact ⟨w, Ext.refl _, Keeps.refl _ _, ⟨fun j hj => (by cases hj), fun j hj => (by cases hj)⟩⟩
  | _, .constResult s, st, st', r, w, h => by
    obtain ⟨⟨r1, st1⟩, h1, h⟩ := Option.bind_eq_some_iff.mp h
    obtain ⟨w1, e1, k1, g1⟩ := eval_wf s w h1
    cases r1 with
    | object i rv => cases h
    | prvalue o c => cases h; exact ⟨w1, e1, k1, g1⟩
  | _, .un op s, st, st', r, w, h => by
    obtain ⟨⟨r1, st1⟩, h1, h⟩ := Option.bind_eq_some_iff.mp h
    obtain ⟨⟨x, st2⟩, h2, h⟩ := Option.map_eq_some_iff.mp h
    cases h
    obtain ⟨w1, e1, k1, g1⟩ := eval_wf s w h1
    obtain ⟨wb, eb, kb, ab⟩ := bind_wf w1 g1
    obtain ⟨w2, e2, o2, -⟩ := member_wf wb h2
    exact ⟨w2, (e1.trans eb).trans e2,
      member_keeps' wb ab k1.nT h2 (k1.trans kb (fun _ h => h) (fun _ h => h.elim)) (fun _ h => h),
      ⟨o2.ref, o2.target⟩⟩
  | _, .makeDynamic s, st, st', r, w, h => by
    obtain ⟨⟨r1, st1⟩, h1, h⟩ := Option.bind_eq_some_iff.mp h
    obtain ⟨⟨x, st2⟩, h2, h⟩ := Option.map_eq_some_iff.mp h
    cases h
    obtain ⟨w1, e1, k1, g1⟩ := eval_wf s w h1
    obtain ⟨wb, eb, kb, ab⟩ := bind_wf w1 g1
    obtain ⟨w2, e2, o2, -⟩ := member_wf wb h2
    exact ⟨w2, (e1.trans eb).trans e2,
      member_keeps' wb ab k1.nT h2 (k1.trans kb (fun _ h => h) (fun _ h => h.elim)) (fun _ h => h),
      ⟨o2.ref, o2.target⟩⟩
  | _, .bin op s t, st, st', r, w, h => by
    obtain ⟨⟨r1, st1⟩, h1, h⟩ := Option.bind_eq_some_iff.mp h
    obtain ⟨⟨r2, st2⟩, h2, h⟩ := Option.bind_eq_some_iff.mp h
    obtain ⟨⟨x, st3⟩, h3, h⟩ := Option.bind_eq_some_iff.mp h
    obtain ⟨⟨y, st4⟩, h4, h⟩ := Option.map_eq_some_iff.mp h
    cases h
    dsimp only at h2 h3 h4
    obtain ⟨w1, e1, k1, g1⟩ := eval_wf s w h1
    obtain ⟨wb, eb, kb, ab⟩ := bind_wf w1 g1
    obtain ⟨w2, e2, k2, g2⟩ := eval_wf t wb h2
    obtain ⟨wb', eb', kb', ab'⟩ := bind_wf w2 g2
    obtain ⟨w3, e3, o3, -⟩ := member_wf wb' h3
    obtain ⟨w4, e4, o4, -⟩ := member_wf w3 h4
    have inS : ∀ a ∈ movedVars s, a ∈ movedVars (Src.bin op s t) := fun a h =>
      List.mem_append_left _ h
    have inT : ∀ a ∈ movedVars t, a ∈ movedVars (Src.bin op s t) := fun a h =>
      List.mem_append_right _ h
    have kk := (k1.trans kb (C := (· ∈ movedVars (Src.bin op s t))) inS (fun _ h => h.elim)).trans
      (k2.trans kb' (C := (· ∈ movedVars (Src.bin op s t))) inT (fun _ h => h.elim))
      (C := (· ∈ movedVars (Src.bin op s t))) (fun _ h => h) (fun _ h => h)
    have k3 := member_keeps' wb' ab k1.nT h3 kk inS
    have k4 := member_keeps' w3 ab' ((k1.nT.trans kb.nT).trans k2.nT) h4 k3 inT
    refine ⟨w4, ((((e1.trans eb).trans e2).trans eb').trans e3).trans e4, k4, ⟨fun j hj => ?_,
      fun j hj => ?_⟩⟩
    · rcases List.mem_append.mp hj with hj | hj
      · exact (o3.ext e4).ref j hj
      · exact o4.ref j hj
    · rcases List.mem_append.mp hj with hj | hj
      · exact (o3.ext e4).target j hj
      · exact o4.target j hj
  | τ, .makeRef s, st, st', r, w, h => by
    obtain ⟨⟨r1, st1⟩, h1, h⟩ := Option.bind_eq_some_iff.mp h
    obtain ⟨o, ho, h⟩ := Option.bind_eq_some_iff.mp h
    obtain ⟨w1, e1, k1, g1⟩ := eval_wf s w h1
    obtain ⟨wb, eb, kb, ab⟩ := bind_wf w1 g1
    cases o with
    | dyn x =>
      cases h
      refine ⟨wb, e1.trans eb, k1.trans kb (fun _ h => h) (fun _ h => h.elim), ⟨fun j hj => (by cases hj),
        fun j hj => ?_⟩⟩
      cases List.mem_singleton.mp hj
      exact wb.known _ _ (get_iff.mp ho)
    | _ => cases h
  | τ, .makeProxy s, st, st', r, w, h => by
    obtain ⟨⟨r1, st1⟩, h1, h⟩ := Option.bind_eq_some_iff.mp h
    dsimp only at h
    split at h
    · rename_i hrv
      obtain ⟨o, ho, h⟩ := Option.map_eq_some_iff.mp h
      obtain ⟨w1, e1, k1, g1⟩ := eval_wf s w h1
      obtain ⟨wb, eb, kb, ab⟩ := bind_wf w1 g1
      have ho' := get_iff.mp ho
      have hmem := member_moved ho
      have hcase : (r, st') = (.prvalue o false, (r1.bind st1).2.2.set (r1.bind st1).1 o.movedFrom) ∨
          (r, st') = (.prvalue (.handle .owning (some (.heap (r1.bind st1).2.2.nHeap)) τ) false,
            { (r1.bind st1).2.2.set (.heap (r1.bind st1).2.2.nHeap) (.dyn o) with
                nHeap := (r1.bind st1).2.2.nHeap + 1 }) := by
        rw [← h]
        cases o with
        | handle kk n =>
          cases kk
          · exact .inl rfl
          · exact .inr rfl
        | _ => exact .inr rfl
      rcases hcase with hcase | hcase
      · cases hcase
        obtain ⟨w2, e2⟩ := wf_move wb ho'
        rw [hrv] at ab
        exact ⟨w2, (e1.trans eb).trans e2,
          member_keeps' wb ab k1.nT hmem (k1.trans kb (fun _ h => h) (fun _ h => h.elim))
            (fun _ h => h), (wb.obj _ _ _ ho').ext e2⟩
      · cases hcase
        have hk := k1.trans kb (C := (· ∈ movedVars s)) (fun _ h => h) (fun _ h => h.elim)
        have ok := wb.obj _ _ _ ho'
        have e12 := e1.trans eb
        clear ho ho' hmem hrv h ab eb kb
        generalize (r1.bind st1).2.2 = sb at *
        have hnew := wf_new (st' := { sb.set (.heap sb.nHeap) (XObj.dyn o) with nHeap := sb.nHeap + 1 })
          wb (i := .heap sb.nHeap) (o := XObj.dyn o)
          (fun k => lt_irrefl _ (show sb.nHeap < sb.nHeap from k)) (fun j => rfl)
          (fun j hj => by
            cases j with
            | var a => exact hj
            | tmp k => exact hj
            | heap k => exact Nat.lt_succ_of_lt hj) (Nat.lt_succ_self sb.nHeap) ⟨ok.ref, ok.target⟩
        have e : ∀ j, j ≠ Id.heap sb.nHeap →
            (sb.set (.heap sb.nHeap) (XObj.dyn o)).cells j = sb.cells j := fun j hj =>
          set_other sb _ hj
        refine ⟨hnew.1, e12.trans hnew.2, ⟨fun a hna => ?_, fun i hi => ?_, fun i hi => ?_, hk.nT,
          hk.nH.trans (Nat.le_succ _), hk.decl⟩, ⟨fun j hj => (by cases hj), fun j hj => ?_⟩⟩
        · exact (e _ (by simp)).trans (hk.var a hna)
        · exact (e _ (by simp)).trans (hk.tmp i hi)
        · refine (e _ ?_).trans (hk.heap i hi)
          have := hk.nH
          simp; omega
        · cases List.mem_singleton.mp hj
          exact Nat.lt_succ_self sb.nHeap
    · cases h

/-- Initialising from a result. -/
theorem init_wf {τ : L.Ty} {s : Src L τ} {st st' : Machine L} {r : Res L τ} {x : XObj L τ} (w : Wf st)
    (g : ResOk s st r) (h : r.init st = some (x, st')) :
    Wf st' ∧ Ext st st' ∧ ObjOk st' x ∧ Keeps (· ∈ movedVars s) st st' := by
  cases r with
  | prvalue o c => cases h; exact ⟨w, Ext.refl _, g, Keeps.refl _ _⟩
  | object i rv =>
    obtain ⟨a, rfl, hm⟩ := g
    obtain ⟨o, ho, h⟩ := Option.map_eq_some_iff.mp h
    have ho' := get_iff.mp ho
    cases rv with
    | false => cases h; exact ⟨w, Ext.refl _, w.obj _ _ _ ho', Keeps.refl _ _⟩
    | true =>
      cases h
      obtain ⟨w2, e2⟩ := wf_move w ho'
      refine ⟨w2, e2, (w.obj _ _ _ ho').ext e2, ⟨fun b hb => set_other _ _ ?_,
        fun i _ => set_other _ _ (by simp), fun i _ => set_other _ _ (by simp), le_rfl, le_rfl, rfl⟩⟩
      intro e
      cases e
      exact hb (hm rfl)

theorem wf_endFull {st : Machine L} (w : Wf st) : Wf st.endFull ∧ Later st st.endFull := by
  have e : Later st st.endFull := by
    refine ⟨fun j h => by cases j <;> exact h, fun j _ h => ?_⟩
    obtain ⟨σ, x, hx, k⟩ := h
    cases j with
    | var a => exact ⟨σ, x, hx, k⟩
    | tmp a => cases hx
    | heap a => exact ⟨σ, x, hx, k⟩
  refine ⟨⟨fun i c hc => ?_, fun i σ x hx => ?_⟩, e⟩
  · cases i with
    | var a => exact w.known _ c hc
    | tmp a => cases hc
    | heap a => exact w.known _ c hc
  · cases i with
    | var a => exact (w.obj _ σ x hx).later e
    | tmp a => cases hx
    | heap a => exact (w.obj _ σ x hx).later e

/-- The invariant between statements. -/
structure Between (st : Machine L) : Prop where
  wf : Wf st
  tmp : ∀ i, st.cells (.tmp i) = none

theorem between_start : Between (Machine.start L) :=
  ⟨⟨fun _ _ h => (by cases h), fun _ _ _ h => (by cases h)⟩, fun _ => rfl⟩

theorem auto_form {a : ℕ} {τ : L.Ty} {s : Src L τ} {st st' : Machine L}
    (h : (Stmt.auto a s).run st = some st') :
    a ∉ st.declared ∧ ∃ r st1 x st2, s.eval st = some (r, st1) ∧ r.init st1 = some (x, st2) ∧
      st' = { (st2.set (.var a) x).endFull with declared := a :: st.declared } := by
  simp only [Stmt.run] at h
  split at h
  · cases h
  · rename_i hd
    obtain ⟨⟨r, st1⟩, h1, h⟩ := Option.bind_eq_some_iff.mp h
    obtain ⟨⟨x, st2⟩, h2, h⟩ := Option.map_eq_some_iff.mp h
    exact ⟨hd, r, st1, x, st2, h1, h2, h.symm⟩

theorem auto_run {a : ℕ} {τ : L.Ty} {s : Src L τ} {st st1 : Machine L} {o : XObj L τ} {c : Bool}
    (hd : a ∉ st.declared) (h : s.eval st = some (.prvalue o c, st1)) :
    (Stmt.auto a s).run st =
      some { (st1.set (.var a) o).endFull with declared := a :: st.declared } := by
  simp only [Stmt.run, if_neg hd, h]
  rfl

theorem rebind_form {a : ℕ} {τ : L.Ty} {s : Src L τ} {st st' : Machine L}
    (h : (Stmt.rebind a s).run st = some st') :
    ∃ k n n' r st1 st2, st.cells (.var a) = some ⟨τ, .handle k n τ⟩ ∧ s.eval st = some (r, st1) ∧
      r.init st1 = some (.handle k n' τ, st2) ∧
      st' = (st2.set (.var a) (XObj.handle (L := L) k n' τ)).endFull := by
  simp only [Stmt.run] at h
  obtain ⟨o, ho, h⟩ := Option.bind_eq_some_iff.mp h
  obtain ⟨⟨r, st1⟩, h1, h⟩ := Option.bind_eq_some_iff.mp h
  obtain ⟨⟨x, st2⟩, h2, h⟩ := Option.bind_eq_some_iff.mp h
  have ho' := get_iff.mp ho
  cases o with
  | handle k n =>
    cases x with
    | handle k' n' =>
      dsimp only at h
      split at h
      · rename_i e
        subst e
        cases h
        exact ⟨k, n, n', r, st1, st2, ho', h1, h2, rfl⟩
      · cases h
    | _ => cases h
  | _ => cases h

theorem write_form {a : ℕ} {τ : L.Ty} {v : L.Val τ} {st st' : Machine L}
    (h : (Stmt.write a τ v).run st = some st') :
    ∃ w, st.cells (.var a) = some ⟨τ, .leaf τ w⟩ ∧ st' = st.set (.var a) (XObj.leaf (L := L) τ v) := by
  simp only [Stmt.run] at h
  obtain ⟨o, ho, h⟩ := Option.bind_eq_some_iff.mp h
  have ho' := get_iff.mp ho
  cases o with
  | leaf _ w => cases h; exact ⟨w, ho', rfl⟩
  | _ => cases h

/-- One statement: the invariant, and what it leaves alone. -/
theorem stmt_wf {c : Stmt L} {st st' : Machine L} (b : Between st) (h : c.run st = some st') :
    Between st' ∧ (∀ i, Known st i → Known st' i) ∧
    (∀ i < st.nHeap, st'.cells (.heap i) = st.cells (.heap i)) ∧
    ∀ a ∈ st.declared, ¬ c.touches a → st'.cells (.var a) = st.cells (.var a) := by
  cases c with
  | @auto a τ s =>
    obtain ⟨hd, r, st1, x, st2, h1, h2, rfl⟩ := auto_form h
    obtain ⟨w1, e1, k1, g1⟩ := eval_wf s b.wf h1
    obtain ⟨w2, e2, o2, k2⟩ := init_wf w1 g1 h2
    have k := k1.trans k2 (C := (· ∈ movedVars s)) (fun _ h => h) (fun _ h => h)
    obtain ⟨w3, e3⟩ := wf_new (st' := { st2.set (.var a) x with declared := a :: st2.declared }) w2
      (i := .var a) (fun q => hd (k.decl ▸ q)) (fun j => rfl)
      (fun j hj => by
        cases j with
        | var q => exact List.mem_cons_of_mem _ hj
        | tmp q => exact hj
        | heap q => exact hj) List.mem_cons_self o2
    obtain ⟨w4, e4⟩ := wf_endFull w3
    rw [k.decl] at w4 e4 e3
    refine ⟨⟨w4, fun i => rfl⟩, fun i hi => e4.known i (e3.known i (e2.known i (e1.known i hi))),
      fun i hi => ?_, fun q hq hn => ?_⟩
    · exact (set_other (i := .var a) (j := .heap i) st2 x (by simp)).trans (k.heap i hi)
    · exact (set_other (i := .var a) (j := .var q) st2 x (by simp; rintro rfl; exact hd hq)).trans
        (k.var q hn)
  | write a τ v =>
    obtain ⟨w0, h0, rfl⟩ := write_form h
    have hh : IsHandle (XObj.leaf (L := L) τ v) → HandleAt st.cells (.var a) := fun k => k.elim
    have e := ext_overwrite hh
    refine ⟨⟨wf_overwrite b.wf (b.wf.known _ _ h0) ⟨fun j hj => (by cases hj), fun j hj => (by cases hj)⟩
      hh, fun i => (set_other st _ (by simp)).trans (b.tmp i)⟩, e.known,
      fun i _ => set_other st _ (by simp), fun q _ hn => set_other st _ ?_⟩
    intro e
    cases e
    exact hn rfl
  | @rebind a τ s =>
    obtain ⟨k, n, n', r, st1, st2, h0, h1, h2, rfl⟩ := rebind_form h
    obtain ⟨w1, e1, k1, g1⟩ := eval_wf s b.wf h1
    obtain ⟨w2, e2, o2, k2⟩ := init_wf w1 g1 h2
    have kk := k1.trans k2 (C := (· ∈ movedVars s)) (fun _ h => h) (fun _ h => h)
    have hk : Known st2 (.var a) := e2.known _ (e1.known _ (b.wf.known _ _ h0))
    have hw : Wf (st2.set (.var a) (XObj.handle (L := L) k n' τ)) :=
      wf_overwrite w2 hk o2 fun _ => e2.keep _ (e1.keep _ ⟨τ, _, h0, trivial⟩)
    obtain ⟨w4, e4⟩ := wf_endFull hw
    refine ⟨⟨w4, fun i => rfl⟩, fun i hi => ?_, fun i hi => ?_, fun q hq hn => ?_⟩
    · have := e2.known i (e1.known i hi)
      cases i <;> exact this
    · exact (set_other (i := .var a) (j := .heap i) st2 (XObj.handle (L := L) k n' τ) (by simp)).trans (kk.heap i hi)
    · refine (set_other (i := .var a) (j := .var q) st2 (XObj.handle (L := L) k n' τ) ?_).trans (kk.var q fun h => hn (.inr h))
      intro e
      cases e
      exact hn (.inl rfl)
  | destroy a =>
    obtain ⟨c, hc, h⟩ := Option.map_eq_some_iff.mp h
    subst h
    have e : Later st { st with cells := fun j => if j = .var a then none else st.cells j } := by
      refine ⟨fun j h => by cases j <;> exact h, fun j _ h => ?_⟩
      obtain ⟨σ, x, hx, k⟩ := h
      dsimp only at hx
      split at hx
      · cases hx
      · exact ⟨σ, x, hx, k⟩
    have e' : ∀ j : Id, j ≠ .var a → (if j = .var a then none else st.cells j) = st.cells j :=
      fun j hj => if_neg hj
    refine ⟨⟨⟨fun i c hc => ?_, fun i σ x hx => ?_⟩, fun i => (e' (.tmp i) (by simp)).trans (b.tmp i)⟩, e.known,
      fun i _ => e' (.heap i) (by simp), fun q _ hn => e' (.var q) ?_⟩
    · dsimp only at hc
      split at hc
      · cases hc
      · exact e.known i (b.wf.known i c hc)
    · dsimp only at hx
      split at hx
      · cases hx
      · exact (b.wf.obj i σ x hx).later e
    · intro e
      cases e
      exact hn rfl

/-- Programs. -/
theorem stmts_wf : (cs : List (Stmt L)) → {st st' : Machine L} → Between st →
    runStmts cs st = some st' →
    Between st' ∧ (∀ i, Known st i → Known st' i) ∧
    (∀ i < st.nHeap, st'.cells (.heap i) = st.cells (.heap i)) ∧
    ∀ a ∈ st.declared, (∀ c ∈ cs, ¬ c.touches a) → st'.cells (.var a) = st.cells (.var a)
  | [], st, st', b, h => by
    cases h
    exact ⟨b, fun _ h => h, fun _ _ => rfl, fun _ _ _ => rfl⟩
  | c :: cs, st, st', b, h => by
    obtain ⟨st1, h1, h2⟩ := Option.bind_eq_some_iff.mp h
    obtain ⟨b1, k1, p1, v1⟩ := stmt_wf b h1
    obtain ⟨b2, k2, p2, v2⟩ := stmts_wf cs b1 h2
    refine ⟨b2, fun i hi => k2 i (k1 i hi), fun i hi => ?_, fun a ha hc => ?_⟩
    · exact (p2 i (k1 (.heap i) hi)).trans (p1 i hi)
    · exact (v2 a (k1 (.var a) ha) fun c' hc' => hc c' (List.mem_cons_of_mem _ hc')).trans
        (v1 a ha (hc c List.mem_cons_self))

/-- Evaluation is the same in two memories that agree on the known objects, except for one handle
object in both. -/
theorem reads_same {st : Machine L} (w : Wf st) {m : Cells L} {p : Id} (hp : HandleAt st.cells p)
    (hp' : HandleAt m p) (h : ∀ j, Known st j → j ≠ p → m j = st.cells j) {τ : L.Ty} {o : XObj L τ}
    {v : Option (L.Val τ)} (ho : ObjOk st o) : Reads m o v ↔ Reads st.cells o v := by
  constructor
  · intro hr
    induction hr with
    | leaf τ v => exact .leaf τ v
    | @ref i τ x v hi _ ih =>
      obtain ⟨k1, k2⟩ := ho.ref i List.mem_cons_self
      have hne : i ≠ p := fun e => k2 (e ▸ hp)
      rw [h i k1 hne] at hi
      exact .ref hi (ih (w.obj _ _ _ hi))
    | un _ ih => exact .un (ih ⟨ho.ref, ho.target⟩)
    | bin _ _ ih ih' =>
      exact .bin (ih ⟨fun j hj => ho.ref j (List.mem_append_left _ hj),
        fun j hj => ho.target j (List.mem_append_left _ hj)⟩)
        (ih' ⟨fun j hj => ho.ref j (List.mem_append_right _ hj),
        fun j hj => ho.target j (List.mem_append_right _ hj)⟩)
    | @handle k n τ x v hi _ ih =>
      have k1 := ho.target n List.mem_cons_self
      have hne : n ≠ p := by
        rintro rfl
        obtain ⟨σ, y, hy, hyh⟩ := hp'
        rw [hi] at hy
        cases hy
        exact hyh
      rw [h n k1 hne] at hi
      have := w.obj _ _ _ hi
      exact .handle hi (ih ⟨this.ref, this.target⟩)
    | dyn _ ih => exact .dyn (ih ⟨ho.ref, ho.target⟩)
  · intro hr
    induction hr with
    | leaf τ v => exact .leaf τ v
    | @ref i τ x v hi _ ih =>
      obtain ⟨k1, k2⟩ := ho.ref i List.mem_cons_self
      have hne : i ≠ p := fun e => k2 (e ▸ hp)
      exact .ref ((h i k1 hne).trans hi) (ih (w.obj _ _ _ hi))
    | un _ ih => exact .un (ih ⟨ho.ref, ho.target⟩)
    | bin _ _ ih ih' =>
      exact .bin (ih ⟨fun j hj => ho.ref j (List.mem_append_left _ hj),
        fun j hj => ho.target j (List.mem_append_left _ hj)⟩)
        (ih' ⟨fun j hj => ho.ref j (List.mem_append_right _ hj),
        fun j hj => ho.target j (List.mem_append_right _ hj)⟩)
    | @handle k n τ x v hi _ ih =>
      have k1 := ho.target n List.mem_cons_self
      have hne : n ≠ p := by
        rintro rfl
        obtain ⟨σ, y, hy, hyh⟩ := hp
        rw [hi] at hy
        cases hy
        exact hyh
      have := w.obj _ _ _ hi
      exact .handle ((h n k1 hne).trans hi) (ih ⟨this.ref, this.target⟩)
    | dyn _ ih => exact .dyn (ih ⟨ho.ref, ho.target⟩)

end WG
