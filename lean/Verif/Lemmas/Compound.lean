import Verif.Lemmas.Unique
import Verif.Spec.Compound

/-!
# Lemmas on index sequences, row blocks and n-ary evaluators
-/

namespace WG
open Matrix Spec

theorem seqElem_eq : ∀ (i : ℕ) (l : List ℕ), seqElem i l = l[i]?
  | 0, [] => rfl
  | 0, _ :: _ => rfl
  | _ + 1, [] => rfl
  | i + 1, _ :: xs => by simp [seqElem, seqElem_eq i xs]

theorem cumulativeImpl_eq : ∀ (ss : List ℕ) (out : List ℕ) (n prev : ℕ),
    cumulativeImpl out (n :: ss) prev =
      some (out ++ (List.range ss.length).map fun i => prev + ((n :: ss).take (i + 1)).sum)
  | [], out, n, prev => by simp [cumulativeImpl]
  | s :: ss, out, n, prev => by
    rw [cumulativeImpl, cumulativeImpl_eq ss]
    simp only [List.length_cons, List.append_assoc, List.range_succ_eq_map, List.map_cons,
      List.map_map, List.take_succ_cons, List.sum_cons, List.take_zero, List.sum_nil, add_zero,
      Option.some.injEq, List.append_cancel_left_eq, List.singleton_append, List.cons.injEq,
      true_and]
    exact List.map_congr_left fun i _ => by simp [add_assoc]

theorem accumulateSeq_eq (sizes : List ℕ) :
    accumulateSeq sizes = some ((List.range sizes.length).map fun i => (sizes.take i).sum) := by
  rw [accumulateSeq, cumulativeImpl_eq]
  simp

theorem sumSequence_eq : ∀ l : List ℕ, sumSequence l = l.sum
  | [] => by rw [sumSequence]; rfl
  | [a] => by rw [sumSequence]; simp
  | a :: b :: tail => by
    rw [sumSequence, sumSequence_eq ((a + b) :: tail)]; simp [add_assoc]
termination_by l => l.length

theorem blockRange_eq (sizes : List ℕ) (i : ℕ) :
    blockRange sizes i = (sizes[i]?).map fun n => ((sizes.take i).sum, n) := by
  unfold blockRange
  rw [accumulateSeq_eq]
  simp only [List.length_map, List.length_range]
  by_cases h : i < sizes.length
  · simp [h, seqElem_eq]
  · simp [h]

theorem filterTypes_eq {T : Type} (p : T → Bool) : ∀ ts : List T, filterTypes p ts = ts.filter p
  | [] => rfl
  | t :: ts => by
    have := filterTypes_eq p ts
    unfold filterTypes at this ⊢
    rw [List.map_cons, List.flatten_cons, this, List.filter_cons]
    cases p t <;> rfl

variable {L : Lib}

theorem height_nil : height ([] : Compound L) = 0 := rfl
theorem height_cons (e : Elem L) (c : Compound L) : height (e :: c) = L.dim e.1 + height c := rfl
theorem height_append (a b : Compound L) : height (a ++ b) = height a + height b := by
  simp [height]
theorem sizes_sum (c : Compound L) : c.sizes.sum = height c := rfl
theorem compoundSize_eq (c : Compound L) : compoundSize c.sizes = height c := sumSequence_eq _

/-- The row prescribed for coordinate `j` of element `e`. -/
def rowOf (s : Store L) (t : Target L) (e : Elem L) (j : L.Idx e.1) : Option (L.Idx t.ty → ℝ) :=
  Option.map (fun A : Matrix (L.Idx e.1) (L.Idx t.ty) ℝ => A j) (total (occurrences s t e.2))

/-- Stacking from a given row on, by recursion. -/
def StackFrom (s : Store L) (t : Target L) (m : Rows L t.ty) : ℕ → Compound L → Prop
  | _, [] => True
  | off, e :: es => (∀ j, m (off + L.enum e.1 j) = some (rowOf s t e j)) ∧
      StackFrom s t m (off + L.dim e.1) es

theorem stackFrom_mem (s : Store L) (t : Target L) (m : Rows L t.ty) :
    ∀ (above : Compound L) (off : ℕ) (e : Elem L) (below : Compound L),
      StackFrom s t m off (above ++ e :: below) →
      ∀ j, m (off + height above + L.enum e.1 j) = some (rowOf s t e j)
  | [], off, e, below, h, j => by simpa [height_nil] using h.1 j
  | a :: above, off, e, below, h, j => by
    have := stackFrom_mem s t m above (off + L.dim a.1) e below h.2 j
    rwa [height_cons, ← add_assoc off]

theorem isStacked_of (s : Store L) (t : Target L) (m : Rows L t.ty) (c : Compound L)
    (h : StackFrom s t m 0 c) : IsStacked s t c m := by
  rintro above e below rfl j
  have := stackFrom_mem s t m above 0 e below h j
  rwa [zero_add] at this

theorem write_in {σ τ : L.Ty} (m : Rows L σ) (off : ℕ) (J : OMat (L.Idx τ) (L.Idx σ)) (j : L.Idx τ) :
    m.write off J (off + L.enum τ j) =
      some (Option.map (fun A : Matrix (L.Idx τ) (L.Idx σ) ℝ => A j) J) := by
  have h : off ≤ off + (L.enum τ j : ℕ) ∧ off + (L.enum τ j : ℕ) - off < L.dim τ :=
    ⟨Nat.le_add_right _ _, by rw [Nat.add_sub_cancel_left]; exact (L.enum τ j).2⟩
  rw [Rows.write, dif_pos h]
  have : (⟨off + (L.enum τ j : ℕ) - off, h.2⟩ : Fin (L.dim τ)) = L.enum τ j :=
    Fin.ext (Nat.add_sub_cancel_left _ _)
  rw [this, Equiv.symm_apply_apply]

theorem write_out {σ τ : L.Ty} (m : Rows L σ) (off : ℕ) (J : OMat (L.Idx τ) (L.Idx σ)) (r : ℕ)
    (h : r < off ∨ off + L.dim τ ≤ r) : m.write off J r = m r := by
  rw [Rows.write, dif_neg]
  rintro ⟨h1, h2⟩
  omega

theorem stackFrom_congr (s : Store L) (t : Target L) (m m' : Rows L t.ty) :
    ∀ (c : Compound L) (off : ℕ), (∀ r, off ≤ r → r < off + height c → m r = m' r) →
      StackFrom s t m off c → StackFrom s t m' off c
  | [], _, _, _ => trivial
  | e :: es, off, h, hs => by
    rw [height_cons] at h
    refine ⟨fun j => ?_, stackFrom_congr s t m m' es _ (fun r h1 h2 => h r (by omega) (by omega)) hs.2⟩
    have := (L.enum e.1 j).2
    rw [← h _ (by omega) (by omega)]
    exact hs.1 j

theorem stackFrom_append (s : Store L) (t : Target L) (m : Rows L t.ty) :
    ∀ (a b : Compound L) (off : ℕ), StackFrom s t m off a → StackFrom s t m (off + height a) b →
      StackFrom s t m off (a ++ b)
  | [], _, _, _, h => by simpa [height_nil] using h
  | e :: es, b, off, h, h' => by
    rw [height_cons] at h'
    exact ⟨h.1, stackFrom_append s t m es b _ h.2 (by rwa [add_assoc])⟩

theorem rowOf_of_nil (s : Store L) (t : Target L) (e : Elem L) (j : L.Idx e.1)
    (h : occurrences s t e.2 = []) : rowOf s t e j = some 0 := by
  rw [rowOf, h]; rfl

theorem stackFrom_zero (s : Store L) (t : Target L) (m : Rows L t.ty) :
    ∀ (c : Compound L) (off : ℕ), (∀ r, off ≤ r → r < off + height c → m r = some (some 0)) →
      (∀ e ∈ c, occurrences s t e.2 = []) → StackFrom s t m off c
  | [], _, _, _ => trivial
  | e :: es, off, h, ho => by
    rw [height_cons] at h
    refine ⟨fun j => ?_, stackFrom_zero s t m es _ (fun r h1 h2 => h r (by omega) (by omega))
      fun e' he => ho e' (List.mem_cons_of_mem _ he)⟩
    have := (L.enum e.1 j).2
    rw [h _ (by omega) (by omega), rowOf_of_nil s t e j (ho e List.mem_cons_self)]

theorem setZero_in {σ : L.Ty} (m : Rows L σ) (off n r : ℕ) (h : off ≤ r ∧ r < off + n) :
    m.setZero off n r = some (some 0) := if_pos h
theorem setZero_out {σ : L.Ty} (m : Rows L σ) (off n r : ℕ) (h : ¬ (off ≤ r ∧ r < off + n)) :
    m.setZero off n r = m r := if_neg h

theorem blockOf_none_iff {m n : Type} (l : List (OMat m n)) : blockOf l = none ↔ l = [] := by
  cases l <;> simp [blockOf]

theorem blockOf_some {m n : Type} {l : List (OMat m n)} {J : OMat m n} (h : blockOf l = some J) :
    total l = J := by
  have := orZero_blockOf l
  rw [h] at this
  exact this.symm

/-! ## Static evaluator -/

theorem sizes_getElem (done : Compound L) (e : Elem L) (rest : Compound L) :
    blockRange (Compound.sizes (done ++ e :: rest)) done.length = some (height done, L.dim e.1) := by
  rw [blockRange_eq]
  simp [Compound.sizes, height]

theorem combineStatic_spec (s : Store L) (t : Target L) (rest : Compound L) :
    ∀ (todo done : Compound L) (m : Rows L t.ty), (∀ e ∈ todo, e.2.noProxy) →
      (∀ r, height done ≤ r → r < height done + height todo → m r = some (some 0)) →
      ∃ m', combineStatic (Compound.sizes (done ++ todo ++ rest)) t done.length
          (Compound.evaluators s todo) m = some m' ∧ StackFrom s t m' (height done) todo ∧
        ∀ r, (r < height done ∨ height done + height todo ≤ r) → m' r = m r
  | [], done, m, _, _ => ⟨m, rfl, trivial, fun _ _ => rfl⟩
  | e :: es, done, m, hp, hz => by
    have hc : done ++ e :: es ++ rest = done ++ e :: (es ++ rest) := by simp
    have hc' : done ++ e :: es ++ rest = (done ++ [e]) ++ es ++ rest := by simp
    have hlen : (done ++ [e]).length = done.length + 1 := by simp
    have hht : height (done ++ [e]) = height done + L.dim e.1 := by
      rw [height_append, height_cons, height_nil, add_zero]
    rw [height_cons] at hz
    let m₁ : Rows L t.ty := m.writeIf (height done) ((ETree.mk s e.2).fwd t)
    have hout : ∀ r, (r < height done ∨ height done + L.dim e.1 ≤ r) → m₁ r = m r := by
      intro r hr
      show m.writeIf (height done) ((ETree.mk s e.2).fwd t) r = m r
      cases (ETree.mk s e.2).fwd t with
      | none => rfl
      | some J => exact write_out m _ _ r hr
    have hin : ∀ j, m₁ (height done + L.enum e.1 j) = some (rowOf s t e j) := by
      intro j
      show m.writeIf (height done) ((ETree.mk s e.2).fwd t) _ = _
      rw [fwd_eq s t e.2 (hp e List.mem_cons_self)]
      cases hb : blockOf (occurrences s t e.2) with
      | none =>
        have := (L.enum e.1 j).2
        show m _ = _
        rw [hz _ (by omega) (by omega), rowOf_of_nil s t e j ((blockOf_none_iff _).1 hb)]
      | some J =>
        show m.write (height done) J _ = _
        rw [write_in, rowOf, blockOf_some hb]
    obtain ⟨m', h1, h2, h3⟩ := combineStatic_spec s t rest es (done ++ [e]) m₁
      (fun e' he => hp e' (List.mem_cons_of_mem _ he)) (by
        intro r hr1 hr2
        rw [hht] at hr1 hr2
        rw [hout r (.inr hr1)]
        exact hz r (by omega) (by omega))
    refine ⟨m', ?_, ⟨fun j => ?_, ?_⟩, fun r hr => ?_⟩
    · show (match blockRange (Compound.sizes (done ++ e :: es ++ rest)) done.length with
        | none => none
        | some (off, n) => if n = L.dim e.1 then
            combineStatic (Compound.sizes (done ++ e :: es ++ rest)) t (done.length + 1)
              (Compound.evaluators s es) (m.writeIf off ((ETree.mk s e.2).fwd t))
          else none) = some m'
      rw [hc, sizes_getElem, ← hc]
      simp only [if_true]
      rw [← hlen, hc']
      exact h1
    · have := (L.enum e.1 j).2
      rw [h3 _ (.inl (by rw [hht]; omega))]
      exact hin j
    · rw [hht] at h2; exact h2
    · rw [height_cons] at hr
      rw [h3 r (by rw [hht]; omega), hout r (by omega)]

theorem fwdCompiles_of_hasType (t : Target L) : {τ : L.Ty} → (e : Expr L τ) → e.noProxy →
    e.hasType t → e.fwdCompiles t
  | _, .leaf _ _ _, _, _ => rfl
  | _, .un _ _ e, hp, h => fwdCompiles_of_hasType t e hp h
  | _, .bin _ _ l r, hp, h => by
    simp only [Expr.noProxy, Expr.hasType] at hp h
    simp only [Expr.fwdCompiles, hp, h, Bool.and_self]

/-! ## Dynamic evaluator -/

theorem dyn_loop (s : Store L) (t : Target L) (tot : ℕ) :
    ∀ (todo : Compound L) (done : Compound L) (st : DynRows L t.ty),
      (∀ e ∈ todo, Distinguished t e.2) → height done + height todo ≤ tot →
      st.rowReached = height done →
      (∀ m, st.jac = some m → StackFrom s t m 0 done) →
      (st.jac = none → ∀ e ∈ done, occurrences s t e.2 = []) →
      ∃ st', (Compound.evaluators s todo).foldlM (DynRows.step tot t.addr t.ty) st = some st' ∧
        st'.rowReached = height (done ++ todo) ∧
        (∀ m, st'.jac = some m → StackFrom s t m 0 (done ++ todo)) ∧
        (st'.jac = none → ∀ e ∈ done ++ todo, occurrences s t e.2 = [])
  | [], done, st, _, _, hr, hs, hn => ⟨st, rfl, by simpa using hr, by simpa using hs, by simpa using hn⟩
  | e :: es, done, st, hd, hle, hr, hs, hn => by
    rw [height_cons] at hle
    have hht : height (done ++ [e]) = height done + L.dim e.1 := by
      rw [height_append, height_cons, height_nil, add_zero]
    have step : ∃ st₁, DynRows.step tot t.addr t.ty st ⟨e.1, ETree.mk s e.2⟩ = some st₁ ∧
        st₁.rowReached = height (done ++ [e]) ∧
        (∀ m, st₁.jac = some m → StackFrom s t m 0 (done ++ [e])) ∧
        (st₁.jac = none → ∀ e' ∈ done ++ [e], occurrences s t e'.2 = []) := by
      unfold DynRows.step
      simp only
      rw [dyn_eq s t e.2 (hd e List.mem_cons_self)]
      obtain ⟨jac, row⟩ := st
      simp only at hr hs hn ⊢
      subst hr
      have hfit : height done + L.dim e.1 ≤ tot := by omega
      cases hb : blockOf (occurrences s t e.2) with
      | none =>
        have ho := (blockOf_none_iff _).1 hb
        cases jac with
        | none =>
          refine ⟨_, rfl, hht.symm, by simp, fun _ e' he' => ?_⟩
          rcases List.mem_append.1 he' with h | h
          · exact hn rfl e' h
          · rw [List.mem_singleton.1 h]; exact ho
        | some m =>
          refine ⟨_, if_pos hfit, hht.symm, ?_, by simp⟩
          intro m' hm'
          obtain rfl : m.setZero (height done) (L.dim e.1) = m' := by simpa using hm'
          refine stackFrom_append s t _ done [e] 0 (stackFrom_congr s t m _ done 0
            (fun r _ h => (setZero_out m _ _ r (by omega)).symm) (hs m rfl)) ?_
          refine stackFrom_zero s t _ [e] _ (fun r h1 h2 => setZero_in m _ _ r ?_) (by
            simpa using ho)
          rw [height_cons, height_nil] at h2
          omega
      | some J =>
        have hJ := blockOf_some hb
        have last : ∀ m : Rows L t.ty, StackFrom s t (m.write (height done) J) (0 + height done) [e] :=
          fun m => ⟨fun j => by rw [zero_add, write_in, rowOf, hJ], trivial⟩
        cases jac with
        | none =>
          refine ⟨_, if_pos hfit, hht.symm, ?_, by simp⟩
          intro m' hm'
          obtain rfl : Rows.write (Rows.setZero Rows.fresh 0 (height done)) (height done) J = m' := by
            simpa using hm'
          refine stackFrom_append s t _ done [e] 0 (stackFrom_zero s t _ done 0
            (fun r h1 h2 => ?_) (hn rfl)) (last _)
          rw [write_out _ _ _ r (by omega), setZero_in _ _ _ r ⟨h1, h2⟩]
        | some m =>
          refine ⟨_, if_pos hfit, hht.symm, ?_, by simp⟩
          intro m' hm'
          obtain rfl : m.write (height done) J = m' := by simpa using hm'
          exact stackFrom_append s t _ done [e] 0 (stackFrom_congr s t m _ done 0
            (fun r _ h => (write_out m _ _ r (by omega)).symm) (hs m rfl)) (last _)
    obtain ⟨st₁, h0, h1, h2, h3⟩ := step
    obtain ⟨st', g0, g1, g2, g3⟩ := dyn_loop s t tot es (done ++ [e]) st₁
      (fun e' he => hd e' (List.mem_cons_of_mem _ he)) (by rw [hht]; omega) h1 h2 h3
    refine ⟨st', ?_, by simpa using g1, by simpa using g2, by simpa using g3⟩
    show (DynRows.step tot t.addr t.ty st ⟨e.1, ETree.mk s e.2⟩ >>= fun st =>
      (Compound.evaluators s es).foldlM (DynRows.step tot t.addr t.ty) st) = some st'
    rw [h0]
    exact g0

/-! ## Concatenation -/

/-- The coefficients of a list of tangent vectors, one after the other. -/
def concatAt : TVal L → ℕ → Option ℝ
  | [], _ => none
  | x :: xs, r => if r < L.dim x.1 then itemOf x.2 r else concatAt xs (r - L.dim x.1)

theorem push_loop : ∀ (d : TVal L) (ci : CommaInit),
    ci.row + ci.height + (d.map fun x => L.dim x.1).sum = ci.n →
    ∃ ci', d.foldlM (fun ci x => CommaInit.push ci (L.dim x.1) (itemOf x.2)) ci = some ci' ∧
      ci'.row + ci'.height = ci'.n ∧ ci'.n = ci.n ∧
      (∀ r, r < ci.row + ci.height → ci'.buf r = ci.buf r) ∧
      ∀ r, r < (d.map fun x => L.dim x.1).sum →
        ci'.buf (ci.row + ci.height + r) = some (concatAt d r)
  | [], ci, h => ⟨ci, rfl, by simpa using h, rfl, fun _ _ => rfl, by simp⟩
  | x :: xs, ci, h => by
    rw [List.map_cons, List.sum_cons] at h
    let ci₁ : CommaInit := ⟨ci.n, fun r =>
      if ci.row + ci.height ≤ r ∧ r < ci.row + ci.height + L.dim x.1 then
        some (itemOf x.2 (r - (ci.row + ci.height))) else ci.buf r, ci.row + ci.height, L.dim x.1⟩
    have h1 : ci.push (L.dim x.1) (itemOf x.2) = some ci₁ := by
      unfold CommaInit.push
      rw [if_pos (by omega)]
    obtain ⟨ci', g0, g1, g2, g3, g4⟩ := push_loop xs ci₁ (by
      show ci.row + ci.height + L.dim x.1 + _ = ci.n
      omega)
    refine ⟨ci', ?_, g1, g2, fun r hr => ?_, fun r hr => ?_⟩
    · show (ci.push (L.dim x.1) (itemOf x.2) >>= fun ci =>
        xs.foldlM (fun ci x => CommaInit.push ci (L.dim x.1) (itemOf x.2)) ci) = some ci'
      rw [h1]
      exact g0
    · rw [g3 r (by show r < ci.row + ci.height + L.dim x.1; omega)]
      exact if_neg (by omega)
    · rw [List.map_cons, List.sum_cons] at hr
      by_cases hx : r < L.dim x.1
      · rw [g3 _ (by show ci.row + ci.height + r < ci.row + ci.height + L.dim x.1; omega)]
        refine (if_pos (by omega)).trans ?_
        rw [concatAt, if_pos hx, Nat.add_sub_cancel_left]
      · have := g4 (r - L.dim x.1) (by omega)
        rw [concatAt, if_neg hx, ← this]
        congr 1
        show _ = ci.row + ci.height + L.dim x.1 + _
        omega

theorem valueAsVector_eq (d : TVal L) : ∃ v, valueAsVector d = some v ∧
    ∀ r, r < (d.map fun x => L.dim x.1).sum → v r = some (concatAt d r) := by
  obtain ⟨ci', g0, g1, g2, g3, g4⟩ := push_loop d
    (CommaInit.start (compoundSize (d.map fun x => L.dim x.1)))
    (by simp [CommaInit.start, compoundSize, sumSequence_eq])
  refine ⟨ci'.buf, ?_, fun r hr => ?_⟩
  · unfold valueAsVector
    rw [g0]
    exact if_pos g1
  · have := g4 r hr
    simpa [CommaInit.start] using this

theorem concatAt_append (above : TVal L) (x : (τ : L.Ty) × Option (L.Idx τ → ℝ)) (below : TVal L)
    (j : L.Idx x.1) : concatAt (above ++ x :: below)
      ((above.map fun x => L.dim x.1).sum + L.enum x.1 j) = x.2.map fun f => f j := by
  induction above with
  | nil =>
    have h := (L.enum x.1 j).2
    rw [List.nil_append, concatAt, List.map_nil, List.sum_nil, zero_add, if_pos h, itemOf,
      dif_pos h, Fin.eta, Equiv.symm_apply_apply]
  | cons a above ih =>
    rw [List.cons_append, concatAt, List.map_cons, List.sum_cons, if_neg (by omega), ← ih]
    congr 1
    omega

end WG
