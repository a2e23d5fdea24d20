import Verif.Spec.Storage

/-! Construction of expression objects from source expressions. -/

namespace WG
open Spec

variable {L : Lib}

theorem reads_leaf {m : Cells L} {τ : L.Ty} {x : L.Val τ} {v : Option (L.Val τ)} :
    Reads m (.leaf τ x) v ↔ v = some x :=
  ⟨fun h => by cases h; rfl, fun h => by subst h; exact .leaf τ x⟩

theorem reads_ref {m : Cells L} {τ : L.Ty} {i : Id} {v : Option (L.Val τ)} :
    Reads m (.ref i τ) v ↔ ∃ o, m i = some ⟨τ, o⟩ ∧ Reads m o v :=
  ⟨fun h => by cases h with | ref h h' => exact ⟨_, h, h'⟩, fun ⟨_, h, h'⟩ => .ref h h'⟩

theorem reads_un {m : Cells L} {α β : L.Ty} {op : L.Un α β} {x : XObj L α} {v : Option (L.Val β)} :
    Reads m (.un op x) v ↔ ∃ w, Reads m x w ∧ v = w.bind (L.evalU op) :=
  ⟨fun h => by cases h with | un h => exact ⟨_, h, rfl⟩, fun ⟨_, h, h'⟩ => h' ▸ .un h⟩

theorem reads_bin {m : Cells L} {α β γ : L.Ty} {op : L.Bin α β γ} {x : XObj L α} {y : XObj L β}
    {v : Option (L.Val γ)} :
    Reads m (.bin op x y) v ↔ ∃ a b, Reads m x a ∧ Reads m y b ∧
      v = a.bind fun a => b.bind fun b => L.evalB op a b :=
  ⟨fun h => by cases h with | bin h h' => exact ⟨_, _, h, h', rfl⟩,
    fun ⟨_, _, h, h', e⟩ => e ▸ .bin h h'⟩

theorem reads_handle {m : Cells L} {τ : L.Ty} {k : HandleKind} {n : Option Id}
    {v : Option (L.Val τ)} :
    Reads m (.handle k n τ) v ↔ ∃ i x, n = some i ∧ m i = some ⟨τ, .dyn x⟩ ∧ Reads m x v :=
  ⟨fun h => by cases h with | handle h h' => exact ⟨_, _, rfl, h, h'⟩,
    fun ⟨_, _, e, h, h'⟩ => by subst e; exact .handle h h'⟩

theorem reads_dyn {m : Cells L} {τ : L.Ty} {x : XObj L τ} {v : Option (L.Val τ)} :
    Reads m (.dyn x) v ↔ Reads m x v :=
  ⟨fun h => by cases h with | dyn h => exact h, .dyn⟩

/-- Evaluation has at most one result. -/
theorem reads_unique {m : Cells L} {τ : L.Ty} {x : XObj L τ} {v w : Option (L.Val τ)}
    (h : Reads m x v) (h' : Reads m x w) : v = w := by
  induction h with
  | leaf τ v => exact (reads_leaf.mp h').symm
  | ref hi _ ih =>
    obtain ⟨o, ho, h'⟩ := reads_ref.mp h'
    rw [hi] at ho
    cases ho
    exact ih h'
  | un _ ih =>
    obtain ⟨w, hw, rfl⟩ := reads_un.mp h'
    rw [ih hw]
  | bin _ _ ih ih' =>
    obtain ⟨a, b, ha, hb, rfl⟩ := reads_bin.mp h'
    rw [ih ha, ih' hb]
  | handle hi _ ih =>
    obtain ⟨i, x, e, hx, h'⟩ := reads_handle.mp h'
    cases e
    rw [hi] at hx
    cases hx
    exact ih h'
  | dyn _ ih => exact ih (reads_dyn.mp h')

theorem movedFrom_eq : {τ : L.Ty} → (o : XObj L τ) → ¬ Owns o → o.movedFrom = o
  | _, .leaf _ _, _ => rfl
  | _, .ref _ _, _ => rfl
  | _, .un op x, h => congrArg (XObj.un op) (movedFrom_eq x h)
  | _, .bin op x y, h => by
    have h1 := movedFrom_eq x fun k => h (.inl k)
    have h2 := movedFrom_eq y fun k => h (.inr k)
    rw [XObj.movedFrom, h1, h2]
  | _, .handle .owning _ _, h => absurd rfl h
  | _, .handle .plain _ _, _ => rfl
  | _, .dyn x, h => congrArg XObj.dyn (movedFrom_eq x h)

theorem isHandle_movedFrom : {τ : L.Ty} → (o : XObj L τ) → (IsHandle o.movedFrom ↔ IsHandle o)
  | _, .leaf _ _ => Iff.rfl
  | _, .ref _ _ => Iff.rfl
  | _, .un _ _ => Iff.rfl
  | _, .bin _ _ _ => Iff.rfl
  | _, .handle .owning _ _ => Iff.rfl
  | _, .handle .plain _ _ => Iff.rfl
  | _, .dyn _ => Iff.rfl

theorem set_cells (st : Machine L) (i : Id) {τ : L.Ty} (o : XObj L τ) :
    (st.set i o).cells i = some ⟨τ, o⟩ := if_pos rfl

theorem set_other (st : Machine L) {i j : Id} {τ : L.Ty} (o : XObj L τ) (h : j ≠ i) :
    (st.set i o).cells j = st.cells j := if_neg h

/-- The machine is changed only on variables satisfying `A`, and by adding temporaries and heap
nodes. -/
structure Keeps (A : ℕ → Prop) (st st' : Machine L) : Prop where
  var : ∀ a, ¬ A a → st'.cells (.var a) = st.cells (.var a)
  tmp : ∀ i < st.nTmp, st'.cells (.tmp i) = st.cells (.tmp i)
  heap : ∀ i < st.nHeap, st'.cells (.heap i) = st.cells (.heap i)
  nT : st.nTmp ≤ st'.nTmp
  nH : st.nHeap ≤ st'.nHeap
  decl : st'.declared = st.declared

theorem Keeps.refl (A : ℕ → Prop) (st : Machine L) : Keeps A st st :=
  ⟨fun _ _ => rfl, fun _ _ => rfl, fun _ _ => rfl, le_rfl, le_rfl, rfl⟩

theorem Keeps.trans {A B C : ℕ → Prop} {st st' st'' : Machine L} (h : Keeps A st st')
    (h' : Keeps B st' st'') (ha : ∀ a, A a → C a) (hb : ∀ a, B a → C a) : Keeps C st st'' where
  var a k := (h'.var a fun x => k (hb a x)).trans (h.var a fun x => k (ha a x))
  tmp i k := (h'.tmp i (lt_of_lt_of_le k h.nT)).trans (h.tmp i k)
  heap i k := (h'.heap i (lt_of_lt_of_le k h.nH)).trans (h.heap i k)
  nT := h.nT.trans h'.nT
  nH := h.nH.trans h'.nH
  decl := h'.decl.trans h.decl

variable [DecidableEq L.Ty]

theorem get_iff {m : Cells L} {i : Id} {τ : L.Ty} {o : XObj L τ} :
    m.get i τ = some o ↔ m i = some ⟨τ, o⟩ := by
  unfold Cells.get
  constructor
  · intro h
    obtain ⟨⟨σ, x⟩, h1, h2⟩ := Option.bind_eq_some_iff.mp h
    dsimp only at h2
    split at h2
    · rename_i k
      subst k
      cases h2
      exact h1
    · cases h2
  · intro h
    rw [h]
    exact dif_pos rfl

/-- Variables changed by building `s`: those moved from that hold a `Proxy`. -/
def Emptied (m₀ : Cells L) {τ : L.Ty} (s : Src L τ) (a : ℕ) : Prop := a ∈ movedVars s ∧ OwnsAt m₀ a

/-- The argument `(i, rv)` obtained from `s`, as it sits in the machine `st`. -/
inductive Bound (m₀ : Cells L) {τ : L.Ty} (s : Src L τ) (st : Machine L) : Id → Bool → Prop
  | tmp (k : ℕ) (o : XObj L τ) : st.cells (.tmp k) = some ⟨τ, o⟩ → k < st.nTmp →
      (∀ m, KeepsHeap st m → ∀ v, Reads m o v ↔ Denotes m₀ m s v) →
      (∀ i ∈ borrowed o, MayBorrow m₀ s i) → Bound m₀ s st (.tmp k) true
  | moved (a : ℕ) : st.cells (.var a) = m₀ (.var a) → a ∈ movedVars s → a ∈ vars s →
      (∀ m v, Denotes m₀ m s v ↔ ∃ o, m₀ (.var a) = some ⟨τ, o⟩ ∧ Reads m o v) →
      Bound m₀ s st (.var a) true
  | named (a : ℕ) : st.cells (.var a) = m₀ (.var a) → a ∈ lvalues s → a ∈ vars s →
      (∀ m v, Denotes m₀ m s v ↔ ∃ o, m₀ (.var a) = some ⟨τ, o⟩ ∧
        ((IsHandle o ∧ Reads m o v) ∨ (¬ IsHandle o ∧ ValueOf m a τ v))) →
      Bound m₀ s st (.var a) false

theorem keepsHeap_of_keeps {A : ℕ → Prop} {st st' : Machine L} (h : Keeps A st st') {m : Cells L}
    (hm : KeepsHeap st' m) : KeepsHeap st m := fun i hi =>
  (hm i (lt_of_lt_of_le hi h.nH)).trans (h.heap i hi)

/-- A bound argument stays bound while other operands are built. -/
theorem Bound.keep {m₀ : Cells L} {τ : L.Ty} {s : Src L τ} {A : ℕ → Prop} {st st' : Machine L}
    {i : Id} {rv : Bool} (h : Bound m₀ s st i rv) (k : Keeps A st st') (ha : ∀ a ∈ vars s, ¬ A a) :
    Bound m₀ s st' i rv := by
  cases h with
  | tmp j o h1 h2 h3 h4 =>
    exact .tmp j o ((k.tmp j h2).trans h1) (lt_of_lt_of_le h2 k.nT)
      (fun m hm => h3 m (keepsHeap_of_keeps k hm)) h4
  | moved a h1 h2 h3 h4 => exact .moved a ((k.var a (ha a h3)).trans h1) h2 h3 h4
  | named a h1 h2 h3 h4 => exact .named a ((k.var a (ha a h3)).trans h1) h2 h3 h4

theorem storedByValue_iff {lv : Bool} {k : ArgKind} :
    storedByValue (argSelector lv k) = true ↔ lv = false ∨ k = .proxy := by
  cases lv <;> cases k <;> decide

theorem argKind_proxy : {τ : L.Ty} → {o : XObj L τ} → (o.argKind = .proxy ↔ IsHandle o)
  | _, .leaf _ _ => by simp [XObj.argKind, IsHandle]
  | _, .ref _ _ => by simp [XObj.argKind, IsHandle]
  | _, .un _ _ => by simp [XObj.argKind, IsHandle]
  | _, .bin _ _ _ => by simp [XObj.argKind, IsHandle]
  | _, .handle _ _ _ => by simp [XObj.argKind, IsHandle]
  | _, .dyn _ => by simp [XObj.argKind, IsHandle]

theorem member_form {i : Id} {rv : Bool} {τ : L.Ty} {st st' : Machine L} {x : XObj L τ}
    (h : member i rv τ st = some (x, st')) :
    ∃ o, st.cells i = some ⟨τ, o⟩ ∧
      ((rv = true ∧ x = o ∧ st' = st.set i o.movedFrom) ∨
       (rv = false ∧ IsHandle o ∧ x = o ∧ st' = st) ∨
       (rv = false ∧ ¬ IsHandle o ∧ x = .ref i τ ∧ st' = st)) := by
  obtain ⟨o, ho, h⟩ := Option.map_eq_some_iff.mp h
  refine ⟨o, get_iff.mp ho, ?_⟩
  split at h
  · rename_i hs
    cases h
    cases rv with
    | true => exact .inl ⟨rfl, rfl, rfl⟩
    | false =>
      rcases storedByValue_iff.mp hs with h | h
      · cases h
      · exact .inr (.inl ⟨rfl, argKind_proxy.mp h, rfl, rfl⟩)
  · rename_i hs
    cases h
    cases rv with
    | true => exact absurd (storedByValue_iff.mpr (.inl rfl)) hs
    | false =>
      exact .inr (.inr ⟨rfl, fun k => hs (storedByValue_iff.mpr (.inr (argKind_proxy.mpr k))), rfl, rfl⟩)

/-- Effect of initialising a member from a bound argument. -/
theorem member_spec {m₀ : Cells L} {τ : L.Ty} {s : Src L τ} {st st' : Machine L} {i : Id} {rv : Bool}
    {x : XObj L τ} (hb : Bound m₀ s st i rv) (h : member i rv τ st = some (x, st')) :
    (∀ m, KeepsHeap st m → ∀ v, Reads m x v ↔ Denotes m₀ m s v) ∧
    (∀ j ∈ borrowed x, MayBorrow m₀ s j) ∧
    (∀ j, j ≠ i → st'.cells j = st.cells j) ∧
    (∀ a, i = .var a → ¬ Emptied m₀ s a → st'.cells i = st.cells i) ∧
    st'.nTmp = st.nTmp ∧ st'.nHeap = st.nHeap ∧ st'.declared = st.declared := by
  obtain ⟨o, ho, hf⟩ := member_form h
  cases hb with
  | tmp k o' h1 h2 h3 h4 =>
    rw [h1] at ho
    cases ho
    rcases hf with ⟨-, rfl, rfl⟩ | ⟨h, -⟩ | ⟨h, -⟩
    · exact ⟨h3, h4, fun j hj => set_other st _ hj, fun a ha => (by cases ha), rfl, rfl, rfl⟩
    · cases h
    · cases h
  | moved a h1 h2 h3 h4 =>
    rcases hf with ⟨-, rfl, rfl⟩ | ⟨h, -⟩ | ⟨h, -⟩
    · have hm : m₀ (.var a) = some ⟨τ, x⟩ := h1.symm.trans ho
      refine ⟨fun m _ v => ?_, fun j hj => ?_, fun j hj => set_other st _ hj, fun b hb hne => ?_, rfl,
        rfl, rfl⟩
      · rw [h4]
        exact ⟨fun k => ⟨x, hm, k⟩, fun ⟨y, hy, k⟩ => by rw [hm] at hy; cases hy; exact k⟩
      · exact .inr ⟨a, h3, τ, x, hm, .inl h2, hj⟩
      · cases hb
        rw [set_cells, ho, movedFrom_eq x fun k => hne ⟨h2, τ, x, hm, k⟩]
    · cases h
    · cases h
  | named a h1 h2 h3 h4 =>
    have hm : m₀ (.var a) = some ⟨τ, o⟩ := h1.symm.trans ho
    rcases hf with ⟨h, -⟩ | ⟨-, hh, rfl, rfl⟩ | ⟨-, hh, rfl, rfl⟩
    · cases h
    · refine ⟨fun m _ v => ?_, fun j hj => ?_, fun j _ => rfl, fun b _ _ => rfl, rfl, rfl, rfl⟩
      · rw [h4]
        constructor
        · exact fun k => ⟨x, hm, .inl ⟨hh, k⟩⟩
        · rintro ⟨y, hy, k⟩
          rw [hm] at hy
          cases hy
          exact k.elim And.right fun k => absurd hh k.1
      · exact .inr ⟨a, h3, τ, x, hm, .inr hh, hj⟩
    · refine ⟨fun m _ v => ?_, fun j hj => ?_, fun j _ => rfl, fun b _ _ => rfl, rfl, rfl, rfl⟩
      · rw [h4, reads_ref]
        constructor
        · exact fun k => ⟨o, hm, .inr ⟨hh, k⟩⟩
        · rintro ⟨y, hy, k⟩
          rw [hm] at hy
          cases hy
          exact k.elim (fun k => absurd k.1 hh) And.right
      · exact .inl ⟨a, h2, List.mem_singleton.mp hj⟩

/-- Heap nodes created on the way refer only to what `s` allows. -/
def HeapOk (m₀ : Cells L) {τ : L.Ty} (s : Src L τ) (st st' : Machine L) : Prop :=
  ∀ i, st.nHeap ≤ i → i < st'.nHeap → ∀ σ (x : XObj L σ), st'.cells (.heap i) = some ⟨σ, x⟩ →
    ∀ j ∈ borrowed x, MayBorrow m₀ s j

/-- What is known about the result of a source expression. -/
def GoodRes (m₀ : Cells L) {τ : L.Ty} (s : Src L τ) (st st' : Machine L) : Res L τ → Prop
  | .object i rv => st' = st ∧ (∃ a, i = .var a) ∧ Bound m₀ s st i rv
  | .prvalue o c => c = false ∧ (∀ m, KeepsHeap st' m → ∀ v, Reads m o v ↔ Denotes m₀ m s v) ∧
      ∀ i ∈ borrowed o, MayBorrow m₀ s i

theorem bind_spec {m₀ : Cells L} {τ : L.Ty} {s : Src L τ} {st st' : Machine L} {r : Res L τ}
    (h : GoodRes m₀ s st st' r) :
    Bound m₀ s (r.bind st').2.2 (r.bind st').1 (r.bind st').2.1 ∧
    Keeps (fun _ => False) st' (r.bind st').2.2 ∧ (r.bind st').2.2.nHeap = st'.nHeap ∧
    (∀ k, (r.bind st').1 = .tmp k → st'.nTmp ≤ k) := by
  cases r with
  | object i rv =>
    obtain ⟨rfl, ⟨a, rfl⟩, hb⟩ := h
    exact ⟨hb, Keeps.refl _ _, rfl, fun k hk => by cases hk⟩
  | prvalue o c =>
    obtain ⟨rfl, h1, h2⟩ := h
    have e : ∀ j, j ≠ .tmp st'.nTmp →
        ((Res.prvalue o false).bind st').2.2.cells j = st'.cells j := fun j hj =>
      set_other st' o hj
    refine ⟨.tmp _ o (set_cells st' _ o) (Nat.lt_succ_self _) (fun m hm => h1 m fun i hi => ?_) h2,
      ⟨fun a _ => e _ (by simp), fun i hi => e _ (by simp; omega),
        fun i _ => e _ (by simp), Nat.le_succ _, le_rfl, rfl⟩, rfl, fun k hk => ?_⟩
    · exact (hm i hi).trans (e _ (by simp))
    · cases hk; exact le_rfl

theorem bound_not_heap {m₀ : Cells L} {τ : L.Ty} {s : Src L τ} {st : Machine L} {i : Id} {rv : Bool}
    (h : Bound m₀ s st i rv) (k : ℕ) : i ≠ .heap k := by
  cases h <;> simp

/-- Initialising a member keeps what building the operand kept. -/
theorem member_keeps {m₀ : Cells L} {τ : L.Ty} {s : Src L τ} {A : ℕ → Prop} {st st1 st2 : Machine L}
    {i : Id} {rv : Bool} {x : XObj L τ} (hb : Bound m₀ s st1 i rv)
    (h : member i rv τ st1 = some (x, st2)) (k : Keeps A st st1) (ht : ∀ j, i = .tmp j → st.nTmp ≤ j)
    (hA : ∀ a, Emptied m₀ s a → A a) : Keeps A st st2 := by
  obtain ⟨-, -, h3, h4, h5, h6, h7⟩ := member_spec hb h
  refine ⟨fun a ha => ?_, fun j hj => ?_, fun j hj => ?_, h5 ▸ k.nT, h6 ▸ k.nH, h7.trans k.decl⟩
  · by_cases e : i = .var a
    · subst e
      exact (h4 a rfl fun he => ha (hA a he)).trans (k.var a ha)
    · exact (h3 _ fun e' => e e'.symm).trans (k.var a ha)
  · refine (h3 _ fun e => ?_).trans (k.tmp j hj)
    exact absurd (ht j e.symm) (by omega)
  · exact (h3 _ fun e => bound_not_heap hb j e.symm).trans (k.heap j hj)

theorem member_heap {m₀ : Cells L} {τ : L.Ty} {s : Src L τ} {st st' : Machine L} {i : Id} {rv : Bool}
    {x : XObj L τ} (hb : Bound m₀ s st i rv) (h : member i rv τ st = some (x, st')) (j : ℕ) :
    st'.cells (.heap j) = st.cells (.heap j) :=
  (member_spec hb h).2.2.1 _ fun e => bound_not_heap hb j e.symm

/-- One operand: built, bound, and stored in a member. -/
theorem operand_spec {m₀ : Cells L} {τ : L.Ty} {s : Src L τ} {st st1 st2 : Machine L} {r : Res L τ}
    {x : XObj L τ} (k : Keeps (Emptied m₀ s) st st1) (hh : HeapOk m₀ s st st1)
    (g : GoodRes m₀ s st st1 r)
    (h : member (r.bind st1).1 (r.bind st1).2.1 τ (r.bind st1).2.2 = some (x, st2)) :
    Keeps (Emptied m₀ s) st st2 ∧ HeapOk m₀ s st st2 ∧
    (∀ m, KeepsHeap st2 m → ∀ v, Reads m x v ↔ Denotes m₀ m s v) ∧
    ∀ i ∈ borrowed x, MayBorrow m₀ s i := by
  obtain ⟨hb, kb, hn, ht⟩ := bind_spec g
  have k2 := k.trans kb (C := Emptied m₀ s) (fun _ h => h) (fun _ h => h.elim)
  obtain ⟨h1, h2, -, -, -, h6, -⟩ := member_spec hb h
  have hc : ∀ i < st1.nHeap, st2.cells (.heap i) = st1.cells (.heap i) := fun i hi =>
    (member_heap hb h i).trans (kb.heap i hi)
  refine ⟨member_keeps hb h k2 (fun j hj => k.nT.trans (ht j hj)) fun _ h => h, ?_, ?_, h2⟩
  · intro i hi hi' σ y hy
    rw [h6, hn] at hi'
    rw [hc i hi'] at hy
    exact hh i hi hi' σ y hy
  · intro m hm v
    refine h1 m (fun i hi => ?_) v
    rw [hm i (h6 ▸ hi)]
    exact member_heap hb h i

theorem mayBorrow_left {m₀ : Cells L} {α β γ : L.Ty} {op : L.Bin α β γ} {s : Src L α} {t : Src L β}
    {i : Id} (h : MayBorrow m₀ s i) : MayBorrow m₀ (.bin op s t) i := by
  rcases h with ⟨a, h, e⟩ | ⟨a, h, σ, o, h1, h2, h3⟩
  · exact .inl ⟨a, List.mem_append_left _ h, e⟩
  · exact .inr ⟨a, List.mem_append_left _ h, σ, o, h1, h2.imp (List.mem_append_left _) id, h3⟩

theorem mayBorrow_right {m₀ : Cells L} {α β γ : L.Ty} {op : L.Bin α β γ} {s : Src L α} {t : Src L β}
    {i : Id} (h : MayBorrow m₀ t i) : MayBorrow m₀ (.bin op s t) i := by
  rcases h with ⟨a, h, e⟩ | ⟨a, h, σ, o, h1, h2, h3⟩
  · exact .inl ⟨a, List.mem_append_right _ h, e⟩
  · exact .inr ⟨a, List.mem_append_right _ h, σ, o, h1, h2.imp (List.mem_append_right _) id, h3⟩

theorem heapOk_self (m₀ : Cells L) {τ : L.Ty} (s : Src L τ) (st : Machine L) : HeapOk m₀ s st st :=
  fun i h h' => absurd h' (by omega)

theorem movedVars_sub : {τ : L.Ty} → (s : Src L τ) → ∀ a ∈ movedVars s, a ∈ vars s
  | _, .named _ _ => fun _ h => by cases h
  | _, .moved _ _ => fun _ h => h
  | _, .movedConst _ _ => fun _ h => by cases h
  | _, .temp _ _ => fun _ h => by cases h
  | _, .constResult s => movedVars_sub s
  | _, .un _ s => movedVars_sub s
  | _, .bin _ s t => fun a h => by
    rcases List.mem_append.mp h with h | h
    · exact List.mem_append_left _ (movedVars_sub s a h)
    · exact List.mem_append_right _ (movedVars_sub t a h)
  | _, .makeDynamic s => movedVars_sub s
  | _, .makeRef s => movedVars_sub s
  | _, .makeProxy s => movedVars_sub s

theorem member_moved {i : Id} {τ : L.Ty} {st : Machine L} {o : XObj L τ}
    (h : st.cells.get i τ = some o) : member i true τ st = some (o, st.set i o.movedFrom) := by
  unfold member
  rw [h, Option.map_some, Bool.not_true, if_pos (storedByValue_iff.mpr (.inl rfl)), if_pos rfl]

theorem member_named {i : Id} {τ : L.Ty} {st : Machine L} {o : XObj L τ}
    (h : st.cells i = some ⟨τ, o⟩) (hh : ¬ IsHandle o) :
    member i false τ st = some (.ref i τ, st) := by
  unfold member
  rw [get_iff.mpr h, Option.map_some, Bool.not_false, if_neg fun k =>
    (storedByValue_iff.mp k).elim (by simp) fun k => hh (argKind_proxy.mp k)]

/-- Building a source expression: what changes, what the result denotes, what it refers to. -/
theorem eval_spec (m₀ : Cells L) : {τ : L.Ty} → (s : Src L τ) → Tidy s → MoveOnce m₀ s →
    {st st' : Machine L} → {r : Res L τ} → (∀ a ∈ vars s, st.cells (.var a) = m₀ (.var a)) →
    s.eval st = some (r, st') →
    Keeps (Emptied m₀ s) st st' ∧ HeapOk m₀ s st st' ∧ GoodRes m₀ s st st' r
  | _, .named a τ, _, _, st, st', r, ha, h => by
    cases h
    exact ⟨Keeps.refl _ _, heapOk_self _ _ _, rfl, ⟨a, rfl⟩,
      .named a (ha a List.mem_cons_self) List.mem_cons_self List.mem_cons_self fun _ _ => Iff.rfl⟩
  | _, .moved a τ, _, _, st, st', r, ha, h => by
    cases h
    exact ⟨Keeps.refl _ _, heapOk_self _ _ _, rfl, ⟨a, rfl⟩,
      .moved a (ha a List.mem_cons_self) List.mem_cons_self List.mem_cons_self fun _ _ => Iff.rfl⟩
  | _, .movedConst a τ, _, _, st, st', r, ha, h => by
    cases h
    exact ⟨Keeps.refl _ _, heapOk_self _ _ _, rfl, ⟨a, rfl⟩,
      .named a (ha a List.mem_cons_self) List.mem_cons_self List.mem_cons_self fun _ _ => Iff.rfl⟩
  | _, .temp τ v, _, _, st, st', r, _, h => by
    cases h
    exact ⟨Keeps.refl _ _, heapOk_self _ _ _, rfl, fun m _ w => reads_leaf, fun i hi => by cases hi⟩
  | _, .constResult s, hc, _, _, _, _, _, _ => hc.elim
  | _, .un op s, hc, hm, st, st', r, ha, h => by
    obtain ⟨⟨r1, st1⟩, h1, h⟩ := Option.bind_eq_some_iff.mp h
    obtain ⟨⟨x, st2⟩, h2, h⟩ := Option.map_eq_some_iff.mp h
    cases h
    obtain ⟨k, hh, g⟩ := eval_spec m₀ s hc hm ha h1
    obtain ⟨k', hh', d, b⟩ := operand_spec k hh g h2
    refine ⟨k', hh', rfl, fun m hm v => ?_, b⟩
    rw [reads_un]
    exact exists_congr fun w => and_congr_left' (d m hm w)
  | _, .makeDynamic s, hc, hm, st, st', r, ha, h => by
    obtain ⟨⟨r1, st1⟩, h1, h⟩ := Option.bind_eq_some_iff.mp h
    obtain ⟨⟨x, st2⟩, h2, h⟩ := Option.map_eq_some_iff.mp h
    cases h
    obtain ⟨k, hh, g⟩ := eval_spec m₀ s hc hm ha h1
    obtain ⟨k', hh', d, b⟩ := operand_spec k hh g h2
    exact ⟨k', hh', rfl, fun m hm v => reads_dyn.trans (d m hm v), b⟩
  | _, .bin op s t, hc, hm, st, st', r, ha, h => by
    obtain ⟨⟨r1, st1⟩, h1, h⟩ := Option.bind_eq_some_iff.mp h
    obtain ⟨⟨r2, st2⟩, h2, h⟩ := Option.bind_eq_some_iff.mp h
    obtain ⟨⟨x, st3⟩, h3, h⟩ := Option.bind_eq_some_iff.mp h
    obtain ⟨⟨y, st4⟩, h4, h⟩ := Option.map_eq_some_iff.mp h
    cases h
    dsimp only at h2 h3 h4
    obtain ⟨ms, mt, mst, mts⟩ := hm
    have hvs : ∀ a ∈ vars s, st.cells (.var a) = m₀ (.var a) := fun a h =>
      ha a (List.mem_append_left _ h)
    have hvt : ∀ a ∈ vars t, st.cells (.var a) = m₀ (.var a) := fun a h =>
      ha a (List.mem_append_right _ h)
    obtain ⟨k1, hh1, g1⟩ := eval_spec m₀ s hc.1 ms hvs h1
    obtain ⟨b1, kb1, hn1, ht1⟩ := bind_spec g1
    have k1' := k1.trans kb1 (C := Emptied m₀ s) (fun _ h => h) (fun _ h => h.elim)
    have nst : ∀ a ∈ vars t, ¬ Emptied m₀ s a := fun a h he => mst a he.1 h he.2
    have nts : ∀ a ∈ vars s, ¬ Emptied m₀ t a := fun a h he => mts a he.1 h he.2
    obtain ⟨k2, hh2, g2⟩ := eval_spec m₀ t hc.2 mt
      (fun a h => (k1'.var a (nst a h)).trans (hvt a h)) h2
    obtain ⟨b2, kb2, hn2, ht2⟩ := bind_spec g2
    have k2' := k2.trans kb2 (C := Emptied m₀ t) (fun _ h => h) (fun _ h => h.elim)
    have b1' := b1.keep k2' nts
    obtain ⟨d1, e1, f1, f1', n1, n1', -⟩ := member_spec b1' h3
    have inS : ∀ a, Emptied m₀ s a → Emptied m₀ (Src.bin op s t) a := fun a h =>
      ⟨List.mem_append_left _ h.1, h.2⟩
    have inT : ∀ a, Emptied m₀ t a → Emptied m₀ (Src.bin op s t) a := fun a h =>
      ⟨List.mem_append_right _ h.1, h.2⟩
    -- the second operand is still bound after the first member has been initialised
    have b2' : Bound m₀ t st3 (r2.bind st2).1 (r2.bind st2).2.1 := by
      have hne : (r2.bind st2).1 ≠ (r1.bind st1).1 ∨ ∃ a ∈ vars t, (r2.bind st2).1 = .var a := by
        generalize hi : (r2.bind st2).1 = i2 at b2
        generalize (r2.bind st2).2.1 = rv2 at b2
        cases b2 with
        | tmp j =>
          left
          intro e
          have := ht2 j hi
          generalize hi1 : (r1.bind st1).1 = i1 at b1 e
          generalize (r1.bind st1).2.1 = rv1 at b1
          subst e
          cases b1 with
          | tmp _ _ _ hlt => exact absurd (lt_of_lt_of_le hlt (k2.nT.trans this)) (lt_irrefl _)
        | moved a _ _ h3 => exact .inr ⟨a, h3, rfl⟩
        | named a _ _ h3 => exact .inr ⟨a, h3, rfl⟩
      have hcell : st3.cells (r2.bind st2).1 = (r2.bind st2).2.2.cells (r2.bind st2).1 := by
        by_cases e : (r2.bind st2).1 = (r1.bind st1).1
        · obtain ⟨a, hat, hea⟩ := hne.resolve_left fun k => k e
          rw [e]
          exact f1' a (e.symm.trans hea) (nst a hat)
        · exact f1 _ e
      have hheap : ∀ m, KeepsHeap st3 m → KeepsHeap (r2.bind st2).2.2 m := fun m hm i hi =>
        (hm i (n1' ▸ hi)).trans (member_heap b1' h3 i)
      generalize (r2.bind st2).1 = i2 at b2 hcell
      generalize (r2.bind st2).2.1 = rv2 at b2
      cases b2 with
      | tmp j o q1 q2 q3 q4 =>
        exact .tmp j o (hcell.trans q1) (n1 ▸ q2) (fun m hm => q3 m (hheap m hm)) q4
      | moved a q1 q2 q3 q4 => exact .moved a (hcell.trans q1) q2 q3 q4
      | named a q1 q2 q3 q4 => exact .named a (hcell.trans q1) q2 q3 q4
    obtain ⟨d2, e2, f2, f2', n2, n2', -⟩ := member_spec b2' h4
    have kAll := (k1'.trans k2' inS inT)
    have k3 := member_keeps b1' h3 kAll (fun j hj => k1.nT.trans (ht1 j hj)) inS
    have k4 := member_keeps b2' h4 k3 (fun j hj => (k1'.nT.trans k2.nT).trans (ht2 j hj)) inT
    have hcells : ∀ i, st4.cells (.heap i) = (r2.bind st2).2.2.cells (.heap i) := fun i =>
      (member_heap b2' h4 i).trans (member_heap b1' h3 i)
    refine ⟨k4, ?_, rfl, fun m hm v => ?_, fun i hi => ?_⟩
    · intro i hi hi' σ z hz j hj
      rw [hcells i] at hz
      rw [n2', n1', hn2] at hi'
      rw [kb2.heap i hi'] at hz
      by_cases hlt : i < st1.nHeap
      · rw [k2.heap i (hn1.symm ▸ hlt), kb1.heap i hlt] at hz
        exact mayBorrow_left (hh1 i hi hlt σ z hz j hj)
      · exact mayBorrow_right (hh2 i (by rw [hn1]; omega) hi' σ z hz j hj)
    · have hm3 : KeepsHeap st3 m := fun i hi =>
        (hm i (n2' ▸ hi)).trans (member_heap b2' h4 i)
      have hm2 : KeepsHeap (r2.bind st2).2.2 m := fun i hi =>
        (hm3 i (n1' ▸ hi)).trans (member_heap b1' h3 i)
      rw [reads_bin]
      refine exists_congr fun a => exists_congr fun b => ?_
      rw [d1 m hm2 a, d2 m hm3 b]
    · rcases List.mem_append.mp hi with hi | hi
      · exact mayBorrow_left (e1 i hi)
      · exact mayBorrow_right (e2 i hi)
  | τ, .makeRef s, hc, hm, st, st', r, ha, h => by
    obtain ⟨⟨r1, st1⟩, h1, h⟩ := Option.bind_eq_some_iff.mp h
    obtain ⟨o, ho, h⟩ := Option.bind_eq_some_iff.mp h
    have key : ∀ a, vars s = [a] → s.eval st = some (r1, st1) → (r1.bind st1).1 = .var a →
        st1 = st → (r1.bind st1).2.2 = st →
        Keeps (Emptied m₀ (Src.makeRef s)) st st' ∧ HeapOk m₀ (Src.makeRef s) st st' ∧
          GoodRes m₀ (Src.makeRef s) st st' r := by
      intro a hv _ hi e1 e2
      cases o with
      | dyn x =>
        cases h
        rw [e2, hi]
        refine ⟨Keeps.refl _ _, heapOk_self _ _ _, rfl, fun m _ v => ?_, fun i hi => ?_⟩
        · rw [reads_handle]
          constructor
          · rintro ⟨i, x, e, q, q'⟩
            cases e
            exact ⟨a, by rw [hv]; exact List.mem_cons_self, x, q, q'⟩
          · rintro ⟨b, hb, x, q, q'⟩
            rw [hv] at hb
            cases List.mem_singleton.mp hb
            exact ⟨_, x, rfl, q, q'⟩
        · refine .inl ⟨a, ?_, List.mem_singleton.mp hi⟩
          change a ∈ vars s
          rw [hv]
          exact List.mem_cons_self
      | _ => cases h
    cases s with
    | named a => cases h1; exact key a rfl rfl rfl rfl rfl
    | moved a => cases h1; exact key a rfl rfl rfl rfl rfl
    | movedConst a => cases h1; exact key a rfl rfl rfl rfl rfl
    | _ => exact hc.elim
  | τ, .makeProxy s, hc, hm, st, st', r, ha, h => by
    obtain ⟨⟨r1, st1⟩, h1, h⟩ := Option.bind_eq_some_iff.mp h
    dsimp only at h
    split at h
    · rename_i hrv
      obtain ⟨o, ho, h⟩ := Option.map_eq_some_iff.mp h
      obtain ⟨k, hh, g⟩ := eval_spec m₀ s hc hm ha h1
      obtain ⟨-, kb, hn, -⟩ := bind_spec g
      have hmem : member (r1.bind st1).1 (r1.bind st1).2.1 τ (r1.bind st1).2.2 =
          some (o, (r1.bind st1).2.2.set (r1.bind st1).1 o.movedFrom) := by
        rw [hrv]; exact member_moved ho
      obtain ⟨k', hh', d, b⟩ := operand_spec k hh g hmem
      have hcase : (r, st') = (.prvalue o false, (r1.bind st1).2.2.set (r1.bind st1).1 o.movedFrom) ∨
          (r, st') = (.prvalue (.handle .owning (some (.heap (r1.bind st1).2.2.nHeap)) τ) false,
            { (r1.bind st1).2.2.set (.heap (r1.bind st1).2.2.nHeap) (.dyn o) with
                nHeap := (r1.bind st1).2.2.nHeap + 1 }) := by
        rw [← h]
        cases o with
        | handle kk n =>
          cases kk
          · exact .inl rfl
          · exact .inr rfl
        | _ => exact .inr rfl
      have hnd := fun j => bound_not_heap (bind_spec g).1 j
      generalize (r1.bind st1).1 = ib at *
      generalize (r1.bind st1).2.1 = rvb at *
      generalize (r1.bind st1).2.2 = sb at *
      have hcell : ∀ j, (sb.set ib o.movedFrom).cells (.heap j) = sb.cells (.heap j) := fun j =>
        set_other sb _ (fun e => hnd j e.symm)
      rcases hcase with hcase | hcase
      · cases hcase
        exact ⟨k', hh', rfl, d, b⟩
      · cases hcase
        have k2 := k.trans kb (C := Emptied m₀ (Src.makeProxy s)) (fun _ h => h) (fun _ h => h.elim)
        have e : ∀ j, j ≠ Id.heap sb.nHeap →
            (sb.set (.heap sb.nHeap) (XObj.dyn o)).cells j = sb.cells j := fun j hj =>
          set_other sb _ hj
        refine ⟨⟨fun a hna => (e _ (by simp)).trans (k2.var a hna),
          fun i hi => (e _ (by simp)).trans (k2.tmp i hi), fun i hi => (e _ ?_).trans (k2.heap i hi),
          k2.nT, k2.nH.trans (Nat.le_succ _), k2.decl⟩, ?_, rfl, ?_, ?_⟩
        · have := k2.nH
          simp; omega
        · intro i hi hi' σ z hz j hj
          change (sb.set (.heap sb.nHeap) (XObj.dyn o)).cells (.heap i) = _ at hz
          by_cases hi2 : i = sb.nHeap
          · subst hi2
            rw [set_cells] at hz
            cases hz
            exact b j hj
          · rw [e _ (by simpa using hi2), ← hcell i] at hz
            have : i < sb.nHeap := by
              have : i < sb.nHeap + 1 := hi'
              omega
            exact hh' i hi this σ z hz j hj
        · intro m hmm v
          have h0 : m (.heap sb.nHeap) = some ⟨τ, .dyn o⟩ :=
            (hmm sb.nHeap (Nat.lt_succ_self _)).trans (set_cells sb _ _)
          have hkeep : KeepsHeap (sb.set ib o.movedFrom) m := fun i hi =>
            ((hmm i (Nat.lt_succ_of_lt hi)).trans (e _ (by
              have : i < sb.nHeap := hi
              simp; omega))).trans (hcell i).symm
          rw [reads_handle]
          refine Iff.trans ?_ (d m hkeep v)
          constructor
          · rintro ⟨i, x, e1, e2, e3⟩
            cases e1
            rw [h0] at e2
            cases e2
            exact e3
          · exact fun h => ⟨_, o, rfl, h0, h⟩
        · intro i hi
          cases hi
    · cases h

end WG
