import Verif.Model.FactorGraph
import Verif.Props.FactorVariable

/-!
# C76: factors and the variables they share
-/

namespace WG

variable {ε : ℝ}

/-! ### Specification -/

/-- Number of pointers to a variable: those of the program and those in factors. -/
def Graph.holders (g : Graph ε) (p : ℕ) : ℕ :=
  g.handles.count (some p) + (g.factors.map fun f => (f.getD []).count (some p)).sum

/-- `g` is reached by some program. -/
def Graph.Reached (g : Graph ε) : Prop := ∃ s ops, (Graph.start s).run ops = some g

/-! ### Counting -/

theorem sum_set {α : Type} (f : α → ℕ) : ∀ (l : List α) (i : ℕ) (x y : α), l[i]? = some y →
    ((l.set i x).map f).sum + f y = (l.map f).sum + f x
  | [], i, x, y, h => by simp at h
  | a :: l, 0, x, y, h => by
    simp at h
    subst h
    simp
    omega
  | a :: l, i + 1, x, y, h => by
    have := sum_set f l i x y (by simpa using h)
    simp only [List.set_cons_succ, List.map_cons, List.sum_cons]
    omega

theorem count_eq_sum (p : VarPtr) : ∀ l : List VarPtr, l.count p = (l.map fun q => if q = p then 1 else 0).sum
  | [] => rfl
  | q :: l => by
    rw [List.count_cons, count_eq_sum p l]
    simp
    omega

theorem count_set {l : List VarPtr} {i : ℕ} {q : VarPtr} (h : l[i]? = some q) (r p : VarPtr) :
    (l.set i r).count p + (if q = p then 1 else 0) = l.count p + (if r = p then 1 else 0) := by
  rw [count_eq_sum, count_eq_sum]
  exact sum_set (fun q => if q = p then 1 else 0) l i r q h

/-- The invariant of the counters, with `e` pointers on the way. -/
structure Counted (g : Graph ε) (e : ℕ → ℕ) : Prop where
  cnt : ∀ p, g.count p = g.holders p + e p
  old : ∀ p, g.made ≤ p → g.count p = 0 ∧ g.destroyed p = 0
  des : ∀ p, p < g.made → g.destroyed p = if g.count p = 0 then 1 else 0

theorem Counted.acquire {g : Graph ε} {e : ℕ → ℕ} (h : Counted g e) {q : VarPtr}
    (hq : ∀ p, q = some p → 0 < g.count p) :
    Counted (g.acquire q) fun p => e p + if q = some p then 1 else 0 := by
  cases q with
  | none => simpa [Graph.acquire] using h
  | some p =>
    have hp := hq p rfl
    have hm : p < g.made := by
      by_contra hn
      exact absurd (h.old p (not_lt.1 hn)).1 (by omega)
    refine ⟨fun r => ?_, fun r hr => ?_, fun r hr => ?_⟩
    · have := h.cnt r
      by_cases hrp : r = p
      · subst hrp
        simp [Graph.acquire, Graph.holders] at this ⊢
        omega
      · have hpr : p ≠ r := fun h => hrp h.symm
        simp [Graph.acquire, Graph.holders, hrp, hpr] at this ⊢
        exact this
    · have hrp : r ≠ p := by
        rintro rfl
        simp [Graph.acquire] at hr
        omega
      have := h.old r (by simpa [Graph.acquire] using hr)
      simpa [Graph.acquire, hrp] using this
    · have := h.des r (by simpa [Graph.acquire] using hr)
      by_cases hrp : r = p
      · subst hrp
        simp [Graph.acquire]
        rw [this, if_neg (by omega)]
      · simpa [Graph.acquire, hrp] using this

theorem Counted.release {g : Graph ε} {e e' : ℕ → ℕ} {q : VarPtr} (h : Counted g e')
    (he : ∀ p, e' p = e p + if q = some p then 1 else 0) : Counted (g.release q) e := by
  cases q with
  | none =>
    have : e' = e := funext fun p => by simpa using he p
    exact this ▸ h
  | some p =>
    have hp := h.cnt p
    have hep := he p
    simp only [if_true] at hep
    have hm : p < g.made := by
      by_contra hn
      exact absurd (h.old p (not_lt.1 hn)).1 (by omega)
    refine ⟨fun r => ?_, fun r hr => ?_, fun r hr => ?_⟩
    · have := h.cnt r
      by_cases hrp : r = p
      · subst hrp
        simp [Graph.release, Graph.holders] at this ⊢
        omega
      · have hpr : p ≠ r := fun h => hrp h.symm
        have her := he r
        simp [hpr] at her
        simp [Graph.release, Graph.holders, hrp] at this ⊢
        omega
    · have hrp : r ≠ p := by
        rintro rfl
        simp [Graph.release] at hr
        omega
      obtain ⟨h1, h2⟩ := h.old r (by simpa [Graph.release] using hr)
      simp only [Graph.release]
      refine ⟨by simpa [hrp] using h1, ?_⟩
      split_ifs
      · simpa [hrp] using h2
      · exact h2
    · have hd := h.des r (by simpa [Graph.release] using hr)
      by_cases hrp : r = p
      · subst hrp
        rw [if_neg (by omega)] at hd
        simp only [Graph.release, Function.update_self]
        by_cases h1 : g.count r = 1
        · simp [h1, hd]
        · rw [if_neg h1, if_neg (by omega), hd]
      · simp only [Graph.release, Function.update_of_ne hrp]
        split_ifs at hd ⊢ <;> simp [hrp, hd]

theorem acquire_fields (g : Graph ε) (q : VarPtr) :
    (g.acquire q).handles = g.handles ∧ (g.acquire q).factors = g.factors ∧ (g.acquire q).made = g.made ∧
      (g.acquire q).destroyed = g.destroyed ∧ (g.acquire q).cls = g.cls ∧ (g.acquire q).store = g.store ∧
      ∀ p, g.count p ≤ (g.acquire q).count p := by
  cases q with
  | none => simp [Graph.acquire]
  | some r =>
    refine ⟨rfl, rfl, rfl, rfl, rfl, rfl, fun p => ?_⟩
    by_cases h : p = r
    · subst h; simp [Graph.acquire]
    · simp [Graph.acquire, h]

theorem release_fields (g : Graph ε) (q : VarPtr) :
    (g.release q).handles = g.handles ∧ (g.release q).factors = g.factors ∧ (g.release q).made = g.made ∧
      (g.release q).cls = g.cls ∧ (g.release q).store = g.store := by
  cases q <;> exact ⟨rfl, rfl, rfl, rfl, rfl⟩

theorem acquireAll_fields : ∀ (qs : List VarPtr) (g : Graph ε),
    (qs.foldl Graph.acquire g).handles = g.handles ∧ (qs.foldl Graph.acquire g).factors = g.factors ∧
      (qs.foldl Graph.acquire g).made = g.made ∧ (qs.foldl Graph.acquire g).cls = g.cls ∧
      (qs.foldl Graph.acquire g).store = g.store
  | [], g => ⟨rfl, rfl, rfl, rfl, rfl⟩
  | q :: qs, g => by
    obtain ⟨h1, h2, h3, h4, h5⟩ := acquireAll_fields qs (g.acquire q)
    obtain ⟨k1, k2, k3, -, k5, k6, -⟩ := acquire_fields g q
    exact ⟨h1.trans k1, h2.trans k2, h3.trans k3, h4.trans k5, h5.trans k6⟩

theorem releaseAll_fields : ∀ (qs : List VarPtr) (g : Graph ε),
    (qs.foldl Graph.release g).handles = g.handles ∧ (qs.foldl Graph.release g).factors = g.factors ∧
      (qs.foldl Graph.release g).made = g.made ∧ (qs.foldl Graph.release g).cls = g.cls ∧
      (qs.foldl Graph.release g).store = g.store
  | [], g => ⟨rfl, rfl, rfl, rfl, rfl⟩
  | q :: qs, g => by
    obtain ⟨h1, h2, h3, h4, h5⟩ := releaseAll_fields qs (g.release q)
    obtain ⟨k1, k2, k3, k5, k6⟩ := release_fields g q
    exact ⟨h1.trans k1, h2.trans k2, h3.trans k3, h4.trans k5, h5.trans k6⟩

theorem Counted.acquireAll : ∀ (qs : List VarPtr) {g : Graph ε} {e : ℕ → ℕ}, Counted g e →
    (∀ p, some p ∈ qs → 0 < g.count p) → Counted (qs.foldl Graph.acquire g) fun p => e p + qs.count (some p)
  | [], g, e, h, _ => by simpa using h
  | q :: qs, g, e, h, hq => by
    have h1 := h.acquire (q := q) fun p hp => hq p (by simp [hp])
    have h2 := Counted.acquireAll qs h1 fun p hp =>
      lt_of_lt_of_le (hq p (by simp [hp])) ((acquire_fields g q).2.2.2.2.2.2 p)
    refine (congrArg (Counted _) (funext fun p => ?_)).mp h2
    rw [List.count_cons]
    simp
    omega

theorem Counted.releaseAll : ∀ (qs : List VarPtr) {g : Graph ε} {e e' : ℕ → ℕ}, Counted g e' →
    (∀ p, e' p = e p + qs.count (some p)) → Counted (qs.foldl Graph.release g) e
  | [], g, e, e', h, he => by
    have : e' = e := funext fun p => by simpa using he p
    exact this ▸ h
  | q :: qs, g, e, e', h, he => by
    refine Counted.releaseAll qs (h.release (e := fun p => e p + qs.count (some p)) fun p => ?_) fun p => rfl
    rw [he, List.count_cons]
    simp
    omega

/-- A pointer of the program. -/
theorem count_pos_handle {g : Graph ε} {e : ℕ → ℕ} (h : Counted g e) {i p : ℕ}
    (hi : g.handles[i]? = some (some p)) : 0 < g.count p := by
  have : 0 < g.handles.count (some p) := List.count_pos_iff.2 (List.mem_of_getElem? hi)
  rw [h.cnt]
  unfold Graph.holders
  omega

/-- A pointer in a factor. -/
theorem count_pos_factor {g : Graph ε} {e : ℕ → ℕ} (h : Counted g e) {f p : ℕ} {qs : List VarPtr}
    (hf : g.iterate f = some qs) (hp : some p ∈ qs) : 0 < g.count p := by
  have h1 : g.factors[f]? = some (some qs) := by
    unfold Graph.iterate at hf
    revert hf
    cases g.factors[f]? <;> simp
  have h2 : qs.count (some p) ≤ (g.factors.map fun f => (f.getD []).count (some p)).sum :=
    List.le_sum_of_mem (List.mem_map.2 ⟨some qs, List.mem_of_getElem? h1, rfl⟩)
  have := List.count_pos_iff.2 hp
  rw [h.cnt]
  unfold Graph.holders
  omega

theorem iterate_get {g : Graph ε} {f : ℕ} {qs : List VarPtr} (hf : g.iterate f = some qs) :
    g.factors[f]? = some (some qs) := by
  unfold Graph.iterate at hf
  revert hf
  cases g.factors[f]? <;> simp

theorem Counted.params : ∀ (args : List (ℕ × Bool)) {g g' : Graph ε} {qs : List VarPtr} {e : ℕ → ℕ},
    Counted g e → g.params args = some (g', qs) → Counted g' fun p => e p + qs.count (some p)
  | [], g, g', qs, e, h, hp => by
    cases hp
    simpa using h
  | (i, moved) :: args, g, g', qs, e, h, hp => by
    simp only [Graph.params, Option.bind_eq_bind, Option.bind_eq_some_iff] at hp
    obtain ⟨q, hq, ⟨g2, qs2⟩, h2, h3⟩ := hp
    cases h3
    have h1 : Counted (if moved then { g with handles := g.handles.set i none } else g.acquire q)
        fun p => e p + if q = some p then 1 else 0 := by
      split_ifs
      · refine ⟨fun p => ?_, h.old, h.des⟩
        have := h.cnt p
        have hs := count_set hq none (some p)
        simp only [reduceCtorEq, if_false] at hs
        unfold Graph.holders at this ⊢
        simp only
        omega
      · exact h.acquire fun p hp => count_pos_handle h (hp ▸ hq)
    have := Counted.params args h1 h2
    refine (congrArg (Counted _) (funext fun p => ?_)).mp this
    rw [List.count_cons]
    simp
    omega

theorem Counted.step {g g' : Graph ε} (h : Counted g fun _ => 0) {o : GOp} (hs : g.step o = some g') :
    Counted g' fun _ => 0 := by
  cases o with
  | makeVar τ x =>
    cases hs
    obtain ⟨o1, o2⟩ := h.old g.made le_rfl
    refine ⟨fun p => ?_, fun p hp => ?_, fun p hp => ?_⟩
    · have := h.cnt p
      by_cases hpm : p = g.made
      · subst hpm
        simp [Graph.holders] at this ⊢
        omega
      · have hmp : g.made ≠ p := fun h => hpm h.symm
        simp [Graph.holders, hpm, hmp] at this ⊢
        exact this
    · simp only at hp
      have := h.old p (by omega)
      simpa [show p ≠ g.made by omega] using this
    · simp only at hp ⊢
      by_cases hpm : p = g.made
      · subst hpm
        simp [o2]
      · simpa [hpm] using h.des p (by omega)
  | copy i =>
    simp only [Graph.step, Option.bind_eq_bind, Option.bind_eq_some_iff] at hs
    obtain ⟨q, hq, hs⟩ := hs
    cases hs
    have h1 := h.acquire (q := q) fun p hp => count_pos_handle h (hp ▸ hq)
    obtain ⟨k1, k2, -⟩ := acquire_fields g q
    refine ⟨fun p => ?_, h1.old, h1.des⟩
    have := h1.cnt p
    simp only [Graph.holders, k1, k2] at this ⊢
    rw [this, List.count_append, List.count_singleton]
    simp
    omega
  | move i =>
    simp only [Graph.step, Option.bind_eq_bind, Option.bind_eq_some_iff] at hs
    obtain ⟨q, hq, hs⟩ := hs
    cases hs
    refine ⟨fun p => ?_, h.old, h.des⟩
    have := h.cnt p
    have hs := count_set hq none (some p)
    simp only [reduceCtorEq, if_false] at hs
    simp only [Graph.holders] at this ⊢
    rw [this, List.count_append, List.count_singleton]
    simp
    omega
  | reset i =>
    simp only [Graph.step, Option.bind_eq_bind, Option.bind_eq_some_iff] at hs
    obtain ⟨q, hq, hs⟩ := hs
    cases hs
    have h1 : Counted { g with handles := g.handles.set i none } fun p => if q = some p then 1 else 0 := by
      refine ⟨fun p => ?_, h.old, h.des⟩
      have := h.cnt p
      have hs := count_set hq none (some p)
      simp only [reduceCtorEq, if_false] at hs
      simp only [Graph.holders] at this ⊢
      omega
    exact h1.release fun p => by simp
  | makeFactor args =>
    simp only [Graph.step, Option.bind_eq_bind, Option.bind_eq_some_iff] at hs
    obtain ⟨⟨g2, qs⟩, hp, hs⟩ := hs
    cases hs
    have h1 := h.params args hp
    refine ⟨fun p => ?_, h1.old, h1.des⟩
    have := h1.cnt p
    simp [Graph.holders] at this ⊢
    omega
  | copyFactor f =>
    simp only [Graph.step, Option.bind_eq_bind, Option.bind_eq_some_iff] at hs
    obtain ⟨qs, hq, hs⟩ := hs
    cases hs
    have h1 := h.acquireAll qs fun p hp => count_pos_factor h hq hp
    obtain ⟨k1, k2, -⟩ := acquireAll_fields qs g
    refine ⟨fun p => ?_, h1.old, h1.des⟩
    have := h1.cnt p
    simp [Graph.holders, k1, k2] at this ⊢
    omega
  | moveFactor f =>
    simp only [Graph.step, Option.bind_eq_bind, Option.bind_eq_some_iff] at hs
    obtain ⟨qs, hq, hs⟩ := hs
    cases hs
    refine ⟨fun p => ?_, h.old, h.des⟩
    have := h.cnt p
    have hs := sum_set (fun f : Option (List VarPtr) => (f.getD []).count (some p)) g.factors f
      (some (qs.map fun _ => none)) (some qs) (iterate_get hq)
    have h0 : (List.replicate qs.length (none : VarPtr)).count (some p) = 0 := by
      rw [List.count_eq_zero]
      simp
    simp [Graph.holders, h0] at this hs ⊢
    omega
  | destroyFactor f =>
    simp only [Graph.step, Option.bind_eq_bind, Option.bind_eq_some_iff] at hs
    obtain ⟨qs, hq, hs⟩ := hs
    cases hs
    have h1 : Counted { g with factors := g.factors.set f none } fun p => qs.count (some p) := by
      refine ⟨fun p => ?_, h.old, h.des⟩
      have := h.cnt p
      have hs := sum_set (fun f : Option (List VarPtr) => (f.getD []).count (some p)) g.factors f
        none (some qs) (iterate_get hq)
      simp [Graph.holders] at this hs ⊢
      omega
    exact h1.releaseAll qs fun p => by simp
  | write f i j x =>
    simp only [Graph.step, Option.bind_eq_bind, Option.bind_eq_some_iff] at hs
    obtain ⟨qs, -, q, -, p, -, s, -, hs⟩ := hs
    cases hs
    exact ⟨h.cnt, h.old, h.des⟩

theorem Counted.run : ∀ (ops : List GOp) {g g' : Graph ε}, Counted g (fun _ => 0) → g.run ops = some g' →
    Counted g' fun _ => 0
  | [], g, g', h, hr => by cases hr; exact h
  | o :: ops, g, g', h, hr => by
    obtain ⟨g2, h1, h2⟩ := Option.bind_eq_some_iff.mp hr
    exact Counted.run ops (h.step h1) h2

theorem Graph.Reached.counted {g : Graph ε} (h : g.Reached) : Counted g fun _ => 0 := by
  obtain ⟨s, ops, hr⟩ := h
  exact Counted.run ops ⟨fun p => by simp [Graph.start, Graph.holders], fun p _ => ⟨rfl, rfl⟩,
    fun p hp => absurd hp (Nat.not_lt_zero p)⟩ hr

/-! ### The properties -/

/-- **C76.** Whatever a program does, the counter of a variable is the number of pointers to it, in the program
and in factors, and its destructor has run exactly once if it was made and nothing points to it any more, and
not at all otherwise. -/
theorem c76_counted {g : Graph ε} (h : g.Reached) (p : ℕ) :
    g.count p = g.holders p ∧ g.destroyed p = if p < g.made ∧ g.holders p = 0 then 1 else 0 := by
  have hc := h.counted
  have h1 : g.count p = g.holders p := by simpa using hc.cnt p
  refine ⟨h1, ?_⟩
  by_cases hp : p < g.made
  · rw [hc.des p hp, h1]
    simp [hp]
  · rw [(hc.old p (not_lt.1 hp)).2, if_neg fun h => hp h.1]

/-- **C76.** Iterating over a factor gives pointers that are null or point to living variables. -/
theorem c76_alive {g : Graph ε} (h : g.Reached) {f : ℕ} {qs : List VarPtr} (hf : g.iterate f = some qs) {p : ℕ}
    (hp : some p ∈ qs) : p < g.made ∧ g.destroyed p = 0 := by
  have hc := h.counted
  have h0 := count_pos_factor hc hf hp
  have hm : p < g.made := by
    by_contra hn
    exact absurd (hc.old p (not_lt.1 hn)).1 (by omega)
  exact ⟨hm, by rw [hc.des p hm, if_neg (by omega)]⟩

theorem params_spec : ∀ (args : List (ℕ × Bool)) {g g' : Graph ε} {qs : List VarPtr},
    g.params args = some (g', qs) → args.Pairwise (fun a b => a.2 = true → a.1 ≠ b.1) →
    g'.factors = g.factors ∧ g'.store = g.store ∧ g'.cls = g.cls ∧ qs.length = args.length ∧
      (∀ (k : ℕ) (a : ℕ × Bool), args[k]? = some a → qs[k]? = g.handles[a.1]?) ∧
      ∀ i, g'.handles[i]? = if (i, true) ∈ args then some none else g.handles[i]?
  | [], g, g', qs, h, _ => by
    cases h
    simp
  | (i, moved) :: args, g, g', qs, h, hd => by
    simp only [Graph.params, Option.bind_eq_bind, Option.bind_eq_some_iff] at h
    obtain ⟨q, hq, ⟨g2, qs2⟩, h2, h3⟩ := h
    cases h3
    obtain ⟨hd1, hd2⟩ := List.pairwise_cons.1 hd
    obtain ⟨r1, r2, r3, r4, r5, r6⟩ := params_spec args h2 hd2
    obtain ⟨k1, k2, -, -, k5, k6, -⟩ := acquire_fields g q
    have hi : i < g.handles.length := (List.getElem?_eq_some_iff.1 hq).1
    cases moved with
    | false =>
      simp only [Bool.false_eq_true, if_false] at r1 r2 r3 r5 r6
      rw [k1] at r5 r6
      refine ⟨r1.trans k2, r2.trans k6, r3.trans k5, by simp [r4], fun k a ha => ?_, fun j => ?_⟩
      · cases k with
        | zero =>
          simp at ha
          subst ha
          exact hq.symm
        | succ k => exact r5 k a (by simpa using ha)
      · rw [r6 j]
        simp
    | true =>
      simp only [if_true] at r1 r2 r3 r5 r6
      refine ⟨r1, r2, r3, by simp [r4], fun k a ha => ?_, fun j => ?_⟩
      · cases k with
        | zero =>
          simp at ha
          subst ha
          exact hq.symm
        | succ k =>
          have hm : args[k]? = some a := by simpa using ha
          have hne : i ≠ a.1 := hd1 a (List.mem_of_getElem? hm) rfl
          rw [List.getElem?_cons_succ, r5 k a hm, List.getElem?_set_ne hne]
      · rw [r6 j]
        by_cases hj : j = i
        · subst hj
          simp [hi]
        · rw [List.getElem?_set_ne fun h => hj h.symm]
          simp [hj]

/-- **C76.** A new factor iterates over the pointers it was made from, in their order (if none is passed again
after it was moved from); pointers that were moved from are null afterwards, the others are unchanged. -/
theorem c76_made {g g' : Graph ε} {args : List (ℕ × Bool)} (h : g.step (.makeFactor args) = some g')
    (hd : args.Pairwise (fun a b => a.2 = true → a.1 ≠ b.1)) :
    (∃ qs, g'.iterate g.factors.length = some qs ∧ (∀ (k : ℕ) (a : ℕ × Bool), args[k]? = some a → qs[k]? = g.handles[a.1]?)) ∧
    g'.size g.factors.length = some args.length ∧
    ∀ i, g'.handles[i]? = if (i, true) ∈ args then some none else g.handles[i]? := by
  simp only [Graph.step, Option.bind_eq_bind, Option.bind_eq_some_iff] at h
  obtain ⟨⟨g2, qs⟩, hp, h⟩ := h
  cases h
  obtain ⟨h1, -, -, h4, h5, h6⟩ := params_spec args hp hd
  have hi : Graph.iterate { g2 with factors := g2.factors ++ [some qs] } g.factors.length = some qs := by
    simp [Graph.iterate, h1]
  exact ⟨⟨qs, hi, h5⟩, by rw [Graph.size, hi, Option.map_some, h4], h6⟩

theorem params_factors : ∀ (args : List (ℕ × Bool)) {g g' : Graph ε} {qs : List VarPtr},
    g.params args = some (g', qs) → g'.factors = g.factors
  | [], g, g', qs, h => by cases h; rfl
  | (i, moved) :: args, g, g', qs, h => by
    simp only [Graph.params, Option.bind_eq_bind, Option.bind_eq_some_iff] at h
    obtain ⟨q, hq, ⟨g2, qs2⟩, h2, h3⟩ := h
    cases h3
    refine (params_factors args h2).trans ?_
    split_ifs
    · rfl
    · exact (acquire_fields g q).2.1

/-- **C76.** The variables of a factor change only when the factor itself is moved from or destroyed. -/
theorem c76_stable {g g' : Graph ε} {o : GOp} (h : g.step o = some g') {f : ℕ} (h1 : o ≠ .moveFactor f)
    (h2 : o ≠ .destroyFactor f) {qs : List VarPtr} (hf : g.iterate f = some qs) : g'.iterate f = some qs := by
  have hg := iterate_get hf
  have hl : f < g.factors.length := (List.getElem?_eq_some_iff.1 hg).1
  have same : ∀ {g' : Graph ε}, g'.factors = g.factors → g'.iterate f = some qs := fun h => by
    rw [Graph.iterate, h]
    exact hf
  have app : ∀ {g' : Graph ε} {l x}, g'.factors = l ++ [x] → l.length = g.factors.length → l[f]? = g.factors[f]? →
      g'.iterate f = some qs := fun h hn hx => by
    rw [Graph.iterate, h, List.getElem?_append_left (by omega), hx, hg]
    rfl
  cases o with
  | makeVar τ x => cases h; exact same rfl
  | copy i =>
    simp only [Graph.step, Option.bind_eq_bind, Option.bind_eq_some_iff] at h
    obtain ⟨q, hq, h⟩ := h
    cases h
    exact same (acquire_fields g q).2.1
  | move i =>
    simp only [Graph.step, Option.bind_eq_bind, Option.bind_eq_some_iff] at h
    obtain ⟨q, hq, h⟩ := h
    cases h
    exact same rfl
  | reset i =>
    simp only [Graph.step, Option.bind_eq_bind, Option.bind_eq_some_iff] at h
    obtain ⟨q, hq, h⟩ := h
    cases h
    exact same (release_fields _ q).2.1
  | makeFactor args =>
    simp only [Graph.step, Option.bind_eq_bind, Option.bind_eq_some_iff] at h
    obtain ⟨⟨g2, qs2⟩, hp, h⟩ := h
    cases h
    have := params_factors args hp
    exact app rfl (by rw [this]) (by rw [this])
  | copyFactor k =>
    simp only [Graph.step, Option.bind_eq_bind, Option.bind_eq_some_iff] at h
    obtain ⟨qs2, hq, h⟩ := h
    cases h
    exact app rfl rfl rfl
  | moveFactor k =>
    simp only [Graph.step, Option.bind_eq_bind, Option.bind_eq_some_iff] at h
    obtain ⟨qs2, hq, h⟩ := h
    cases h
    have hk : k ≠ f := fun h => h1 (by rw [h])
    exact app rfl (by simp) (List.getElem?_set_ne hk)
  | destroyFactor k =>
    simp only [Graph.step, Option.bind_eq_bind, Option.bind_eq_some_iff] at h
    obtain ⟨qs2, hq, h⟩ := h
    cases h
    have hk : k ≠ f := fun h => h2 (by rw [h])
    rw [Graph.iterate, (releaseAll_fields qs2 _).2.1]
    simp only
    rw [List.getElem?_set_ne hk, hg]
    rfl
  | write k i j x =>
    simp only [Graph.step, Option.bind_eq_bind, Option.bind_eq_some_iff] at h
    obtain ⟨qs2, -, q, -, p, -, s, -, h⟩ := h
    cases h
    exact same rfl

/-- **C76.** A copy of a factor shares its variables; a factor that is moved from keeps its size but all its
pointers are null, and the new one has its variables. -/
theorem c76_copy_move {g g' : Graph ε} {f : ℕ} {qs : List VarPtr} (hf : g.iterate f = some qs) :
    (g.step (.copyFactor f) = some g' → g'.iterate g.factors.length = some qs ∧ g'.iterate f = some qs) ∧
    (g.step (.moveFactor f) = some g' → g'.iterate g.factors.length = some qs ∧
      g'.iterate f = some (List.replicate qs.length none) ∧ g'.size f = g.size f) := by
  have hg := iterate_get hf
  have hl : f < g.factors.length := (List.getElem?_eq_some_iff.1 hg).1
  constructor
  · intro h
    refine ⟨?_, c76_stable h (by simp) (by simp) hf⟩
    simp only [Graph.step, hf, Option.bind_eq_bind, Option.bind_some, Option.some.injEq] at h
    subst h
    simp [Graph.iterate]
  · intro h
    simp only [Graph.step, hf, Option.bind_eq_bind, Option.bind_some, Option.some.injEq] at h
    subst h
    have h2 : Graph.iterate { g with factors := g.factors.set f (some (qs.map fun _ => none)) ++ [some qs] } f =
        some (List.replicate qs.length none) := by
      simp [Graph.iterate, hl, List.getElem?_append_left]
    refine ⟨by simp [Graph.iterate], h2, ?_⟩
    rw [Graph.size, h2, Graph.size, hf]
    simp

/-- **C76.** Writing through a factor is defined exactly for elements of the array of a variable that the
factor points to. -/
theorem c76_write_defined (g : Graph ε) (f i j : ℕ) (x : ℝ) :
    (∃ g', g.step (.write f i j x) = some g') ↔
      ∃ qs p n, g.iterate f = some qs ∧ qs[i]? = some (some p) ∧ varSize (g.cls p) = some n ∧ j < n := by
  simp only [Graph.step, Option.bind_eq_bind, Option.bind_eq_some_iff]
  constructor
  · rintro ⟨g', qs, h1, q, h2, p, h3, s, h4, -⟩
    subst h3
    obtain ⟨w, hw, -⟩ := Option.map_eq_some_iff.mp h4
    cases hn : varSize (g.cls p) with
    | none =>
      have key : ∀ (τ : Ty) (v : τ.Val), varSize τ = none → varWrite τ v j x = none := by
        intro τ v hn
        rcases τ with (_ | _ | _ | _) | _ | (_ | _ | _) | (_ | _) <;> first | rfl | cases hn
      rw [key _ _ hn] at hw
      cases hw
    | some n =>
      refine ⟨qs, p, n, h1, h2, hn, ?_⟩
      by_contra hj
      rw [((c56_write g.store p hn x j).2 hj).1] at h4
      exact absurd h4 (by simp)
  · rintro ⟨qs, p, n, h1, h2, hn, hj⟩
    obtain ⟨s, hs, -⟩ := (c56_write g.store p hn x j).1 hj
    exact ⟨_, qs, h1, some p, h2, p, rfl, s, hs, rfl⟩

/-- **C76.** What is written through one factor is read through every factor, and every pointer, that shares the
variable; the arrays of other variables do not change. -/
theorem c76_shared {g g' : Graph ε} {f i j : ℕ} {x : ℝ} (h : g.step (.write f i j x) = some g')
    {qs : List VarPtr} (hf : g.iterate f = some qs) {p : ℕ} (hp : qs[i]? = some (some p)) (r k : ℕ) :
    g'.cls = g.cls ∧ g'.handles = g.handles ∧
    dataRead g'.store r (g'.cls r) k = if r = p ∧ k = j then some x else dataRead g.store r (g.cls r) k := by
  obtain ⟨qs', p', n, h1, h2, hn, hj⟩ := (c76_write_defined g f i j x).1 ⟨g', h⟩
  rw [hf] at h1
  cases h1
  rw [hp] at h2
  cases h2
  obtain ⟨s, hs, r1, r2⟩ := (c56_write g.store p hn x j).1 hj
  simp only [Graph.step, hf, hp, hs, Option.bind_eq_bind, Option.bind_some, Option.some.injEq] at h
  subst h
  refine ⟨rfl, rfl, ?_⟩
  by_cases hr : r = p
  · subst hr
    simpa using r1 k
  · rw [if_neg fun h => hr h.1]
    exact congrArg (fun v => varRead (g.cls r) v k) (r2 r (g.cls r) fun h => hr h.1)

/-- Non-vacuity: two factors over a shared variable; the program drops its own pointers, a factor is destroyed,
and the variable lives on in the other, through which it can be written. -/
example (s : Store (geoLib ε)) (v w : Fin 3 → ℝ) :
    ∃ g, (Graph.start s).run [.makeVar .point v, .makeVar (.vec .trans) w, .makeFactor [(0, false), (1, false)],
      .makeFactor [(0, true)], .reset 1, .destroyFactor 1] = some g ∧
      g.iterate 0 = some [some 0, some 1] ∧ g.iterate 1 = none ∧ g.handles = [none, none] ∧ g.count 0 = 1 ∧
      g.destroyed 0 = 0 ∧ ∃ g', g.step (.write 0 0 2 7) = some g' := by
  have key : ∀ g : Graph ε, g.Reached → g.iterate 0 = some [some 0, some 1] → g.handles = [none, none] →
      g.factors = [some [some 0, some 1], none] → 0 < g.made → g.cls 0 = .point → g.count 0 = 1 ∧ g.destroyed 0 = 0 ∧
        ∃ g', g.step (.write 0 0 2 7) = some g' := by
    intro g hg hi hh hf hm hc
    obtain ⟨h1, h2⟩ := c76_counted hg 0
    have h3 : g.holders 0 = 1 := by
      rw [Graph.holders, hh, hf]
      decide
    refine ⟨h1.trans h3, by rw [h2, h3]; simp, ?_⟩
    rw [c76_write_defined]
    exact ⟨_, 0, 3, hi, rfl, by rw [hc]; rfl, by norm_num⟩
  obtain ⟨g, hr, hi, h1, hh, hf, hm, hc⟩ : ∃ g : Graph ε, (Graph.start s).run [.makeVar .point v, .makeVar (.vec .trans) w,
      .makeFactor [(0, false), (1, false)], .makeFactor [(0, true)], .reset 1, .destroyFactor 1] = some g ∧
      g.iterate 0 = some [some 0, some 1] ∧ g.iterate 1 = none ∧ g.handles = [none, none] ∧
      g.factors = [some [some 0, some 1], none] ∧ 0 < g.made ∧ g.cls 0 = .point :=
    ⟨_, rfl, rfl, rfl, rfl, rfl, Nat.succ_pos _, rfl⟩
  exact ⟨g, hr, hi, h1, hh, key g ⟨s, _, hr⟩ hi hh hf hm hc⟩

end WG
