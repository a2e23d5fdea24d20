import Verif.Lemmas.Lazy

/-!
# Compounds whose children may hold Eigen expressions
-/

namespace WG
open Matrix Spec

variable {L : Lib} (Z : Laziness L) (s : Store L)

/-- The children built for the elements of a compound. -/
def kidsAt : ℕ → Compound L → List ((τ : L.Ty) × LTree L τ)
  | _, [] => []
  | n, e :: es => ⟨e.1, shape Z s false n [] e.2⟩ :: kidsAt (n + 1) es

/-- The elements, numbered from `n`, after the temporaries are gone. -/
def AllGone (m : EMem L) : ℕ → Compound L → Prop
  | _, [] => True
  | n, e :: es => Gone m n ∧ HeapPlaced Z s m n [] e.2 ∧ AllGone m (n + 1) es

/-- The elements, numbered from `n`, all in place. -/
def AllPlaced (m : EMem L) : ℕ → Compound L → Prop
  | _, [] => True
  | n, e :: es => Placed Z s m false n [] e.2 ∧ AllPlaced m (n + 1) es

theorem buildAll_ok : ∀ (c : Compound L) (n : ℕ) (m : EMem L), ∃ m',
    buildAll Z s n c m = some (kidsAt Z s n c, m') ∧ AllPlaced Z s m' n c ∧
      ∀ l : Loc, l.obj < n → m' l = m l
  | [], n, m => ⟨m, rfl, trivial, fun _ _ => rfl⟩
  | e :: es, n, m => by
    obtain ⟨m₁, h1, h2, h3⟩ := build_ok Z s e.2 false n [] m
    obtain ⟨m₂, g1, g2, g3⟩ := buildAll_ok es (n + 1) m₁
    refine ⟨m₂, ?_, ⟨?_, g2⟩, ?_⟩
    · unfold buildAll
      rw [h1]
      simp only [g1]
      rfl
    · exact placed_congr Z s e.2 false n [] (fun l hl => g3 l (by rw [hl.1]; omega)) h2
    · intro l hl
      rw [g3 l (by omega), h3 l (fun h => by rw [h.1] at hl; omega)]

theorem kill_other (m : EMem L) (n : ℕ) (l : Loc) (h : l.heap = true ∨ l.obj ≠ n) :
    m.kill n l = m l := by
  unfold EMem.kill
  rw [if_neg]
  rintro ⟨h1, h2⟩
  rcases h with h | h
  · rw [h1] at h; cases h
  · exact h h2

theorem killAll_other : ∀ (c : Compound L) (k n : ℕ) (m : EMem L) (l : Loc),
    l.heap = true ∨ l.obj < n → killAll n (kidsAt Z s k c) m l = m l
  | [], _, _, _, _, _ => rfl
  | e :: es, k, n, m, l, h => by
    show killAll (n + 1) (kidsAt Z s (k + 1) es) (m.kill n) l = m l
    rw [killAll_other es (k + 1) (n + 1) (m.kill n) l (h.imp id fun h => by omega)]
    exact kill_other m n l (h.imp id fun h => by omega)

theorem killAll_gone : ∀ (c : Compound L) (n : ℕ) (m : EMem L), AllPlaced Z s m n c →
    AllGone Z s (killAll n (kidsAt Z s n c) m) n c
  | [], _, _, _ => trivial
  | e :: es, n, m, hp => by
    have ho := killAll_other Z s es (n + 1) (n + 1) (m.kill n)
    refine ⟨?_, ?_, ?_⟩
    · intro p
      show killAll (n + 1) (kidsAt Z s (n + 1) es) (m.kill n) _ = none
      rw [ho _ (.inr (Nat.lt_succ_self n))]
      exact if_pos ⟨rfl, rfl⟩
    · refine heapPlaced_of_placed Z s e.2 n [] (fun l _ hh => ?_) hp.1
      exact (ho l (.inl hh)).trans (kill_other m n l (.inl hh))
    · refine killAll_gone es (n + 1) (m.kill n) ?_
      have : ∀ (c : Compound L) (k : ℕ), n < k → AllPlaced Z s m k c →
          AllPlaced Z s (m.kill n) k c := by
        intro c
        induction c with
        | nil => intros; trivial
        | cons x c ih =>
          intro k hk hp
          refine ⟨placed_congr Z s x.2 false k [] (fun l hl => ?_) hp.1, ih (k + 1) (by omega) hp.2⟩
          exact kill_other m n l (.inr (by rw [hl.1]; omega))
      exact this es (n + 1) (Nat.lt_succ_self n) hp.2

/-- The children of an n-ary evaluator: built in place, then moved away from their places. -/
theorem children_eq (c : Compound L) :
    ∃ m, c.children Z s = some (kidsAt Z s 0 c, m) ∧ AllGone Z s m 0 c := by
  obtain ⟨m, h1, h2, _⟩ := buildAll_ok Z s c 0 fun _ => none
  refine ⟨_, ?_, killAll_gone Z s c 0 m h2⟩
  unfold Compound.children
  rw [h1]

/-! ## Values -/

theorem plainOutput_iff (c : Compound L) :
    c.plainOutput Z = true ↔ ∀ e ∈ c, ¬ Unevaluated Z e.2 := by
  unfold Compound.plainOutput
  rw [List.all_eq_true]
  refine forall₂_congr fun e _ => ?_
  rw [← unevaluated_iff]
  simp

theorem readValues_plain (m : EMem L) : ∀ (c : Compound L) (n : ℕ),
    (∀ e ∈ c, ¬ Unevaluated Z e.2) →
    readValues m (kidsAt Z s n c) = some (c.map fun e => ⟨e.1, value s e.2⟩)
  | [], _, _ => rfl
  | e :: es, n, h => by
    have ih := readValues_plain m es (n + 1) fun x hx => h x (List.mem_cons_of_mem _ hx)
    have h1 : (shape Z s false n [] e.2).res.force m = some (value s e.2) := by
      rw [shape_plain Z s e.2 false n [] (by
        have := (unevaluated_iff Z e.2).not.2 (h e List.mem_cons_self)
        simpa using this), shape_den, mk_val]
      rfl
    rw [kidsAt, readValues]
    simp only [h1, ih]
    rfl

open Classical in
theorem evalRun_eq (c : Compound L) : c.evalRun Z s =
    if ∃ e ∈ c, Unevaluated Z e.2 then .rejected
    else .ok (c.map fun e => ⟨e.1, value s e.2⟩) := by
  unfold Compound.evalRun
  by_cases h : ∀ e ∈ c, ¬ Unevaluated Z e.2
  · obtain ⟨m, h1, _⟩ := children_eq Z s c
    rw [if_pos ((plainOutput_iff Z c).2 h), h1, if_neg (by push Not; exact h)]
    simp only [readValues_plain Z s m c 0 h]
  · rw [if_neg ((plainOutput_iff Z c).not.2 h), if_pos (by push Not at h; exact h)]

/-! ## Jacobians -/

open Classical in
theorem readFwd_eq (m : EMem L) (t : Target L) : ∀ (c : Compound L) (n : ℕ),
    AllGone Z s m n c → (∀ e ∈ c, e.2.noProxy) →
    readFwd Z m t ((kidsAt Z s n c).filter fun x => x.2.erase.hasType t) =
      if ∃ e ∈ c, Dangles Z t e.2 then none
      else some ((Compound.evaluators s (c.filter fun e => e.2.hasType t)).map
        fun v => ⟨v.1, v.2.fwd t⟩)
  | [], _, _, _ => by simp [kidsAt, readFwd, Compound.evaluators]
  | e :: es, n, hg, hp => by
    have ih := readFwd_eq m t es (n + 1) hg.2.2 fun x hx => hp x (List.mem_cons_of_mem _ hx)
    have hpe := hp e List.mem_cons_self
    have hk : (shape Z s false n [] e.2).erase.hasType t = e.2.hasType t := by
      rw [shape_hasType, mk_hasType]
    show readFwd Z m t (List.filter _ (⟨e.1, shape Z s false n [] e.2⟩ :: kidsAt Z s (n + 1) es)) = _
    rw [List.filter_cons, List.filter_cons]
    simp only [hk]
    by_cases ht : e.2.hasType t = true
    · rw [if_pos ht, if_pos ht]
      have h1 := fwd_gone Z s hg.1 t e.2 [] hpe
      rw [readFwd]
      simp only [h1, ih]
      by_cases hd : Dangles Z t e.2
      · simp [hd]
      · by_cases hd' : ∃ e ∈ es, Dangles Z t e.2
        · simp only [hd, if_false, if_pos hd', List.mem_cons, exists_eq_or_imp, false_or]
        · simp only [hd, if_false, if_neg hd', List.mem_cons, exists_eq_or_imp, false_or]
          rw [← fwd_eq s t e.2 hpe]
          rfl
    · rw [if_neg ht, if_neg ht, ih]
      have hd : ¬ Dangles Z t e.2 := fun h => by
        have := dangles_occurs Z h
        exact (occ_nil_iff s t e.2).1 (occ_of_not_hasType s t e.2 hpe (by simpa using ht)) this
      refine if_congr ?_ rfl rfl
      simp [hd]

theorem combineBlocks_eq (sizes : List ℕ) (t : Target L) : ∀ (vs : List ((τ : L.Ty) × ETree L τ)) (k : ℕ)
    (m : Rows L t.ty), combineBlocks sizes k (vs.map fun v => ⟨v.1, v.2.fwd t⟩) m =
      combineStatic sizes t k vs m
  | [], _, _ => rfl
  | v :: vs, k, m => by
    rw [List.map_cons, combineBlocks, combineStatic]
    cases blockRange sizes k with
    | none => rfl
    | some r =>
      simp only
      split_ifs
      · exact combineBlocks_eq sizes t vs (k + 1) _
      · rfl

open Classical in
/-- The static Jacobian evaluator on moved children: as without regard to storage (Model/Compound),
unless an unevaluated result is read. -/
theorem jacobianStaticRun_eq (t : Target L) (c : Compound L) : c.jacobianStaticRun Z s t =
    match c.jacobianStatic s t with
    | none => .rejected
    | some m => if ∃ e ∈ c, Dangles Z t e.2 then .ub else .ok m := by
  unfold Compound.jacobianStaticRun
  cases hj : c.jacobianStatic s t with
  | none => rfl
  | some J =>
    have hp : ∀ e ∈ c, e.2.noProxy := by
      unfold Compound.jacobianStatic at hj
      by_cases hp : (c.all fun e => e.2.noProxy) = true
      · simpa using hp
      · rw [if_neg hp] at hj; simp at hj
    obtain ⟨m, h1, h2⟩ := children_eq Z s c
    simp only [h1, readFwd_eq Z s m t c 0 h2 hp]
    by_cases hd : ∃ e ∈ c, Dangles Z t e.2
    · rw [if_pos hd, if_pos hd]
    · rw [if_neg hd, if_neg hd]
      unfold Compound.jacobianStatic at hj
      rw [if_pos (List.all_eq_true.2 hp)] at hj
      simp only [filterTypes_eq] at hj
      split_ifs at hj with hc he
      · have : c.filter (fun e : Elem L => e.2.hasType t) = [] := by simpa using he
        rw [this]
        simp only [Option.some.injEq] at hj
        rw [← hj]
        rfl
      · have hne : (Compound.evaluators s (c.filter fun e : Elem L => e.2.hasType t)).map
            (fun v => (⟨v.1, v.2.fwd t⟩ : (τ : L.Ty) × Option (OMat (L.Idx τ) (L.Idx t.ty)))) ≠ [] := by
          intro h
          apply he
          simpa [Compound.evaluators] using h
        rw [← combineBlocks_eq] at hj
        generalize (Compound.evaluators s (c.filter fun e : Elem L => e.2.hasType t)).map
            (fun v => (⟨v.1, v.2.fwd t⟩ : (τ : L.Ty) × Option (OMat (L.Idx τ) (L.Idx t.ty)))) = Js
            at hj hne
        cases Js with
        | nil => exact absurd rfl hne
        | cons K Ks => simp only [hj]

open Classical in
theorem readDyn_eq (m : EMem L) (t : Target L) : ∀ (c : Compound L) (n : ℕ),
    AllGone Z s m n c → (∀ e ∈ c, Distinguished t e.2) →
    readDyn Z m t.addr t.ty (kidsAt Z s n c) =
      if ∃ e ∈ c, Dangles Z t e.2 then none
      else some ((c.evaluators s).map fun v => ⟨v.1, v.2.dyn t.addr t.ty⟩)
  | [], _, _, _ => by simp [kidsAt, readDyn, Compound.evaluators]
  | e :: es, n, hg, hp => by
    have ih := readDyn_eq m t es (n + 1) hg.2.2 fun x hx => hp x (List.mem_cons_of_mem _ hx)
    have hpe := hp e List.mem_cons_self
    have h1 := dyn_gone Z s hg.1 t e.2 [] hg.2.1 hpe
    rw [kidsAt, readDyn]
    simp only [h1, ih]
    by_cases hd : Dangles Z t e.2
    · simp [hd]
    · by_cases hd' : ∃ e ∈ es, Dangles Z t e.2
      · simp only [hd, if_false, if_pos hd', List.mem_cons, exists_eq_or_imp, false_or]
      · simp only [hd, if_false, if_neg hd', List.mem_cons, exists_eq_or_imp, false_or]
        rw [← dyn_eq s t e.2 hpe]
        rfl

theorem foldlM_add (total t : ℕ) (σ : L.Ty) : ∀ (vs : List ((τ : L.Ty) × ETree L τ)) (st : DynRows L σ),
    (vs.map fun v => (⟨v.1, v.2.dyn t σ⟩ : (τ : L.Ty) × Option (OMat (L.Idx τ) (L.Idx σ)))).foldlM
      (DynRows.add total) st = vs.foldlM (DynRows.step total t σ) st
  | [], _ => rfl
  | v :: vs, st => by
    have h1 : DynRows.add total st ⟨v.1, v.2.dyn t σ⟩ = DynRows.step total t σ st v := by
      unfold DynRows.add DynRows.step
      cases v.2.dyn t σ <;> cases st.jac <;> rfl
    rw [List.map_cons, List.foldlM_cons, List.foldlM_cons, h1]
    exact bind_congr fun st' => foldlM_add total t σ vs st'

open Classical in
/-- The dynamic Jacobian evaluator on moved children. -/
theorem dynJacobianRun_eq (t : Target L) (c : Compound L) (hd : ∀ e ∈ c, Distinguished t e.2) :
    c.dynJacobianRun Z s t.addr t.ty =
      if ∃ e ∈ c, Dangles Z t e.2 then .ub
      else match c.dynJacobian s t.addr t.ty with
        | some m => .ok m
        | none => .ub := by
  unfold Compound.dynJacobianRun
  obtain ⟨m, h1, h2⟩ := children_eq Z s c
  simp only [h1, readDyn_eq Z s m t c 0 h2 hd]
  by_cases hx : ∃ e ∈ c, Dangles Z t e.2
  · rw [if_pos hx, if_pos hx]
  · rw [if_neg hx, if_neg hx]
    simp only [foldlM_add]
    unfold Compound.dynJacobian
    simp only
    cases (c.evaluators s).foldlM (DynRows.step (compoundSize c.sizes) t.addr t.ty) ⟨none, 0⟩ with
    | none => rfl
    | some st =>
      obtain ⟨jac, row⟩ := st
      cases jac <;> rfl

theorem runAll_eq {α β : Type} (f : α → Run β) (g : α → Option β) (bad : α → Prop) [DecidablePred bad]
    (h : ∀ a, f a = match g a with | none => .rejected | some b => if bad a then .ub else .ok b) :
    ∀ (as : List α), runAll f as = match as.mapM g with
      | none => .rejected
      | some bs => if ∀ a ∈ as, ¬ bad a then .ok bs else .ub
  | [] => by simp [runAll]
  | a :: as => by
    have ih := runAll_eq f g bad h as
    unfold runAll
    rw [h a, ih, List.mapM_cons]
    cases g a with
    | none => rfl
    | some b =>
      cases as.mapM g with
      | none =>
        simp only [Option.bind_eq_bind, Option.bind_some, Option.bind_none]
        split_ifs <;> rfl
      | some bs =>
        simp only [Option.bind_eq_bind, Option.bind_some, Option.pure_def, List.forall_mem_cons]
        by_cases h1 : bad a
        · have h3 : ¬ (¬ bad a ∧ ∀ a ∈ as, ¬ bad a) := fun h => h.1 h1
          rw [if_pos h1, if_neg h3]
          by_cases h2 : ∀ a ∈ as, ¬ bad a
          · rw [if_pos h2]
          · rw [if_neg h2]
        · rw [if_neg h1]
          by_cases h2 : ∀ a ∈ as, ¬ bad a
          · rw [if_pos h2, if_pos ⟨h1, h2⟩]
          · rw [if_neg h2, if_neg fun h => h2 h.2]

end WG
