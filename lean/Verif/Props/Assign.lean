import Verif.Lemmas.Assign
import Verif.Props.Evaluation

/-!
# C05, C40: construction of and assignment to leaf objects

The history of a program is a list of `Step`s (construction in every way the classes offer, whole
assignment, assignment through `rotation()` and `translation()`), run on memory one coefficient at a
time.  What is stated about the result uses only the public `eval` of an expression, the blocks of
the stored object, and `OnlyChanges`.
-/

namespace WG
open Matrix Spec

variable {ε : ℝ}

theorem World.modify_some {w w' : World} {a : ℕ} {τ : Ty} {m : Option Mem}
    (h : w.modify a τ m = some w') :
    (a, τ) ∈ w.live ∧ ∃ s, m = some s ∧ w' = ⟨s, w.live⟩ := by
  unfold World.modify at h
  split at h
  · obtain ⟨s, hs, rfl⟩ := Option.map_eq_some_iff.mp h
    exact ⟨‹_›, s, hs, rfl⟩
  · cases h

theorem World.new_some {w w' : World} {a : ℕ} {τ : Ty} {m : Option Mem}
    (h : w.new a τ m = some w') :
    (a, τ) ∉ w.live ∧ ∃ s, m = some s ∧ w' = ⟨s, (a, τ) :: w.live⟩ := by
  unfold World.new at h
  split at h
  · cases h
  · obtain ⟨s, hs, rfl⟩ := Option.map_eq_some_iff.mp h
    exact ⟨‹_›, s, hs, rfl⟩

/-! ## C40 -/

/-- **C40.** `x = e` stores the value `e` had before the assignment, and changes nothing else. -/
theorem c40_assign {w w' : World} {a : ℕ} {τ : Ty} {e : SExpr}
    (h : (Step.assign a τ e).run ε w = some w') :
    (SExpr.un (.to τ) e).value ε w.mem = some ⟨τ, w'.mem a τ⟩ ∧ OnlyChanges a τ w.mem w'.mem := by
  simp only [Step.run] at h
  split at h
  · obtain ⟨-, s, hs, rfl⟩ := World.modify_some h
    obtain ⟨v, hv, rfl, ho⟩ := assignLeaf_form hs
    exact ⟨evaluateTo_iff.mp hv, ho⟩
  · cases h

/-- **C40.** `T.rotation() = e` stores in the rotation block the value `e` had before the
assignment; the translation block, the last row and all other objects are as before. -/
theorem c40_assign_rotation {w w' : World} {f : Bool} {a : ℕ} {k : RigK} {e : SExpr}
    (h : (Step.assignRot f a k e).run ε w = some w') :
    (SExpr.un (.to (.rot k.rotK)) e).value ε w.mem =
      some ⟨.rot k.rotK, k.rot (w'.mem a (.rigid k))⟩ ∧
    k.trans (w'.mem a (.rigid k)) = k.trans (w.mem a (.rigid k)) ∧
    k.rest (w'.mem a (.rigid k)) = k.rest (w.mem a (.rigid k)) ∧
    OnlyChanges a (.rigid k) w.mem w'.mem := by
  simp only [Step.run] at h
  split at h
  · obtain ⟨-, s, hs, rfl⟩ := World.modify_some h
    obtain ⟨v, src, hv, hsrc, hget, rfl⟩ := assignMember_form (by simp) hs
    obtain ⟨h1, h2, h3⟩ := copyRot k hsrc w.mem
    refine ⟨?_, h2, h3, copyLoop_only _ _ _ _ _⟩
    rw [evaluateTo_iff.mp hv]
    refine congrArg (fun x => some (⟨_, x⟩ : (τ : Ty) × τ.Val)) ?_
    refine Eq.trans ?_ h1.symm
    rw [hget, ofFun_get]
  · cases h

/-- **C40.** `T.translation() = e` stores in the translation block the value `e` had before the
assignment; the rotation block, the last row and all other objects are as before. -/
theorem c40_assign_translation {w w' : World} {f : Bool} {a : ℕ} {k : RigK} {e : SExpr}
    (h : (Step.assignTrans f a k e).run ε w = some w') :
    (SExpr.un (.to (.vec .trans)) e).value ε w.mem =
      some ⟨.vec .trans, k.trans (w'.mem a (.rigid k))⟩ ∧
    k.rot (w'.mem a (.rigid k)) = k.rot (w.mem a (.rigid k)) ∧
    k.rest (w'.mem a (.rigid k)) = k.rest (w.mem a (.rigid k)) ∧
    OnlyChanges a (.rigid k) w.mem w'.mem := by
  simp only [Step.run] at h
  split at h
  · obtain ⟨-, s, hs, rfl⟩ := World.modify_some h
    obtain ⟨v, src, hv, hsrc, hget, rfl⟩ := assignMember_form (by simp) hs
    obtain ⟨h1, h2, h3⟩ := copyTrans k hsrc w.mem
    refine ⟨?_, h2, h3, copyLoop_only _ _ _ _ _⟩
    rw [evaluateTo_iff.mp hv]
    refine congrArg (fun x => some (⟨_, x⟩ : (τ : Ty) × τ.Val)) ?_
    exact hget.symm.trans h1.symm
  · cases h

/-- A value of the class of the target exists. -/
theorem evaluateTo_of_value {s : Mem} {τ : Ty} {e : SExpr} {o : (τ : Ty) × τ.Val}
    (h : (SExpr.un (.to τ) e).value ε s = some o) : ∃ v, evaluateTo ε s τ e = some v := by
  obtain ⟨σ, v⟩ := o
  have := value_to_ty h
  dsimp only at this
  subst this
  exact ⟨v, evaluateTo_iff.mpr h⟩

/-- **C40 (acceptance).** Whenever `e` has a value of the class of `x`, the assignment goes through,
except to a compact rigid transform. -/
theorem c40_assign_accepted {w : World} {a : ℕ} {τ : Ty} {e : SExpr} {o : (τ : Ty) × τ.Val}
    (ha : (a, τ) ∈ w.live) (hr : ∀ x ∈ e.reads, x ∈ w.live) (hτ : τ ≠ .rigid .compact)
    (h : (SExpr.un (.to τ) e).value ε w.mem = some o) :
    ∃ w', (Step.assign a τ e).run ε w = some w' := by
  obtain ⟨v, hv⟩ := evaluateTo_of_value h
  simp only [Step.run]
  rw [if_pos (show w.ok e from hr)]
  unfold World.modify assignLeaf
  rw [if_pos ha]
  cases e.isLeafOf τ with
  | some b => exact ⟨_, rfl⟩
  | none =>
    dsimp only
    rw [if_neg hτ, hv]
    exact ⟨_, rfl⟩

/-- **C40 (acceptance).** Whenever `e` has a value of the class of the block, assignment through
`rotation()` goes through, for both storage classes and with or without frames. -/
theorem c40_rotation_accepted {w : World} {f : Bool} {a : ℕ} {k : RigK} {e : SExpr}
    {o : (τ : Ty) × τ.Val}
    (ha : (a, .rigid k) ∈ w.live) (hr : ∀ x ∈ e.reads, x ∈ w.live)
    (h : (SExpr.un (.to (.rot k.rotK)) e).value ε w.mem = some o) :
    ∃ w', (Step.assignRot f a k e).run ε w = some w' := by
  obtain ⟨v, hv⟩ := evaluateTo_of_value h
  simp only [Step.run]
  rw [if_pos (show w.ok e from hr)]
  unfold World.modify assignMember assignBlock
  rw [if_pos ha, hv]
  split
  · exact ⟨_, rfl⟩
  · split <;> exact ⟨_, rfl⟩

/-- **C40 (acceptance).** The same through `translation()`. -/
theorem c40_translation_accepted {w : World} {f : Bool} {a : ℕ} {k : RigK} {e : SExpr}
    {o : (τ : Ty) × τ.Val}
    (ha : (a, .rigid k) ∈ w.live) (hr : ∀ x ∈ e.reads, x ∈ w.live)
    (h : (SExpr.un (.to (.vec .trans)) e).value ε w.mem = some o) :
    ∃ w', (Step.assignTrans f a k e).run ε w = some w' := by
  obtain ⟨v, hv⟩ := evaluateTo_of_value h
  simp only [Step.run]
  rw [if_pos (show w.ok e from hr)]
  unfold World.modify assignMember assignBlock
  rw [if_pos ha, hv]
  split
  · exact ⟨_, rfl⟩
  · split <;> exact ⟨_, rfl⟩

/-- **C40 (gap in the API).** Assigning an expression that is not itself a compact rigid transform to
a compact rigid transform is rejected, whatever its value. -/
theorem c40_compact_rejected (w : World) (a : ℕ) (e : SExpr)
    (h : ∀ b c, e ≠ .leaf b c (.rigid .compact)) :
    (Step.assign a (.rigid .compact) e).run ε w = none := by
  simp only [Step.run]
  split
  · unfold World.modify assignLeaf
    have : e.isLeafOf (.rigid .compact) = none := by
      cases hl : e.isLeafOf (.rigid .compact) with
      | none => rfl
      | some b =>
        obtain ⟨c, hc⟩ := isLeafOf_some hl
        exact absurd hc (h b c)
    rw [this]
    dsimp only
    rw [if_pos rfl]
    split <;> rfl
  · rfl

theorem assigned_value (hε : 0 < ε) {s : Mem} {τ : Ty} {e : SExpr} {o : Obj} (h : Means ε s e o)
    (hk : o.kindOk τ) :
    ∃ v, (SExpr.un (.to τ) e).value ε s = some ⟨τ, v⟩ ∧ Valid τ v ∧ obj τ v = o := by
  obtain ⟨p, v, h1, h2, h3, h4⟩ := c01_eval_to hε h τ hk
  refine ⟨v, ?_, h3, h4⟩
  unfold SExpr.value
  rw [h1]
  exact (congrArg (Option.map _) h2).trans rfl

/-- **C40 (meaning).** If `e` means the object `o` before the assignment, then afterwards `x` holds a
valid representation of `o`: the old meaning, although `e` may mention `x`. -/
theorem c40_assign_meaning (hε : 0 < ε) {w : World} {a : ℕ} {τ : Ty} {e : SExpr} {o : Obj}
    (ha : (a, τ) ∈ w.live) (hr : ∀ x ∈ e.reads, x ∈ w.live) (hτ : τ ≠ .rigid .compact)
    (h : Means ε w.mem e o) (hk : o.kindOk τ) :
    ∃ w', (Step.assign a τ e).run ε w = some w' ∧ Valid τ (w'.mem a τ) ∧ obj τ (w'.mem a τ) = o := by
  obtain ⟨v, hval, h3, h4⟩ := assigned_value hε h hk
  obtain ⟨w', hw'⟩ := c40_assign_accepted ha hr hτ hval
  refine ⟨w', hw', ?_⟩
  have := (c40_assign hw').1
  rw [hval] at this
  cases this
  exact ⟨h3, h4⟩

/-! ## C05 -/

/-- Every constructed matrix-stored rigid transform has the bottom row. -/
def RowsOk (w : World) : Prop := ∀ o ∈ w.live, RowOk o.2 (w.mem o.1 o.2)

/-- A raw 4x4 matrix handed to the constructor has the bottom row. -/
def Step.RawRowOk : Step → Prop
  | .ctorMatrix _ m => BottomRow m
  | _ => True

theorem rowsOk_write {w : World} {a : ℕ} {τ : Ty} {s : Mem} {l : List (ℕ × Ty)} (hw : RowsOk w)
    (hl : ∀ o ∈ l, o = (a, τ) ∨ o ∈ w.live) (ho : OnlyChanges a τ w.mem s) (hr : RowOk τ (s a τ)) :
    RowsOk ⟨s, l⟩ := by
  rintro ⟨b, σ⟩ hb
  by_cases h : b = a ∧ τ = σ
  · obtain ⟨rfl, rfl⟩ := h
    exact hr
  · refine (congrArg (RowOk σ) (ho b σ h)).mpr ?_
    rcases hl _ hb with hh | hh
    · cases hh
      exact absurd ⟨rfl, rfl⟩ h
    · exact hw _ hh

theorem rowOk_of_rest : (k : RigK) → {x y : k.Val} → k.rest x = k.rest y → RowOk (.rigid k) y →
    RowOk (.rigid k) x
  | .mat, _, _, h, h' => bottomRow_rest.mpr (h.trans (bottomRow_rest.mp h'))
  | .compact, _, _, _, _ => trivial

theorem assignBlock_mat_rest {a : ℕ} {σ : Ty} {pos : List ((Ty.rigid .mat).Coef × σ.Coef)}
    (hpos : ∀ j, (3, j) ∉ pos.map Prod.fst) {e : SExpr} {s s' : Mem}
    (h : assignBlock ε a .mat σ pos e s = some s') :
    RigK.mat.rest (s' a (.rigid .mat)) = RigK.mat.rest (s a (.rigid .mat)) ∧
      OnlyChanges a (.rigid .mat) s s' := by
  unfold assignBlock at h
  rw [if_neg (by simp)] at h
  obtain ⟨v, -, rfl⟩ := Option.map_eq_some_iff.mp h
  exact ⟨funext fun j => copyLoop_out a (.rigid .mat) _ (3, j) pos s (hpos j),
    copyLoop_only _ _ _ _ _⟩

theorem c05_step {w w' : World} {c : Step} (hw : RowsOk w) (hc : c.RawRowOk)
    (h : c.run ε w = some w') : RowsOk w' := by
  cases c with
  | init a τ v =>
    simp only [Step.run] at h
    split at h
    · cases h
    · rename_i hτ
      obtain ⟨-, s, hs, rfl⟩ := World.new_some h
      cases hs
      refine rowsOk_write hw (fun o ho => List.mem_cons.mp ho) (storeAll_only _ _ _ _) ?_
      rcases τ with k | _ | k | k
      · trivial
      · trivial
      · trivial
      · cases k
        · exact absurd rfl hτ
        · trivial
  | ctorDefault a g =>
    obtain ⟨-, s, hs, rfl⟩ := World.new_some h
    cases hs
    exact rowsOk_write hw (fun o ho => List.mem_cons.mp ho) (defaultRT_only _ _ _)
      (defaultRT_row a g w.mem)
  | ctorParts a g R t =>
    simp only [Step.run] at h
    split at h
    · obtain ⟨-, s, hs, rfl⟩ := World.new_some h
      obtain ⟨s1, h1, h2⟩ := Option.bind_eq_some_iff.mp hs
      obtain ⟨k1, o1⟩ := assignBlock_mat_rest (by decide) h1
      obtain ⟨k2, o2⟩ := assignBlock_mat_rest (by decide) h2
      refine rowsOk_write hw (fun o ho => List.mem_cons.mp ho)
        (((defaultRT_only _ _ _).trans o1).trans o2) ?_
      exact rowOk_of_rest .mat (k2.trans k1) (defaultRT_row a g w.mem)
    · cases h
  | ctorEigen a g R t =>
    obtain ⟨-, s, hs, rfl⟩ := World.new_some h
    cases hs
    refine rowsOk_write hw (fun o ho => List.mem_cons.mp ho)
      (((defaultRT_only a g w.mem).trans (copyLoop_only _ _ _ _ _)).trans
        (copyLoop_only _ _ _ _ _)) ?_
    exact rowOk_of_rest .mat ((copyTrans .mat (steady_const _ _ _) _).2.2.trans
      (copyRot .mat (steady_const _ _ _) _).2.2) (defaultRT_row a g w.mem)
  | ctorRotation a g q t =>
    obtain ⟨-, s, hs, rfl⟩ := World.new_some h
    cases hs
    refine rowsOk_write hw (fun o ho => List.mem_cons.mp ho)
      (((defaultRT_only a g w.mem).trans (copyLoop_only _ _ _ _ _)).trans
        (copyLoop_only _ _ _ _ _)) ?_
    exact rowOk_of_rest .mat ((copyTrans .mat (steady_const _ _ _) _).2.2.trans
      (copyRot .mat (steady_const _ _ _) _).2.2) (defaultRT_row a g w.mem)
  | ctorMatrix a m =>
    obtain ⟨-, s, hs, rfl⟩ := World.new_some h
    cases hs
    refine rowsOk_write hw (fun o ho => List.mem_cons.mp ho) (storeAll_only _ _ _ _) ?_
    rw [storeAll_eq]
    exact hc
  | ctorExpr a τ e =>
    simp only [Step.run] at h
    split at h
    · rename_i hok
      obtain ⟨-, s, hs, rfl⟩ := World.new_some h
      obtain ⟨v, hv, rfl⟩ := Option.map_eq_some_iff.mp hs
      refine rowsOk_write hw (fun o ho => List.mem_cons.mp ho) (storeAll_only _ _ _ _) ?_
      rw [storeAll_eq]
      exact rowOk_evaluateTo hv fun o ho => hw o (hok o ho)
    · cases h
  | assign a τ e =>
    have hs := c40_assign h
    simp only [Step.run] at h
    split at h
    · rename_i hok
      obtain ⟨-, s, -, rfl⟩ := World.modify_some h
      refine rowsOk_write hw (fun o ho => .inr ho) hs.2 ?_
      exact rowOk_evaluateTo (evaluateTo_iff.mpr hs.1) fun o ho => hw o (hok o ho)
    · cases h
  | assignRot f a k e =>
    have hs := c40_assign_rotation h
    simp only [Step.run] at h
    split at h
    · obtain ⟨hl, s, -, rfl⟩ := World.modify_some h
      refine rowsOk_write hw (fun o ho => .inr ho) hs.2.2.2 ?_
      exact rowOk_of_rest k hs.2.2.1 (hw _ hl)
    · cases h
  | assignTrans f a k e =>
    have hs := c40_assign_translation h
    simp only [Step.run] at h
    split at h
    · obtain ⟨hl, s, -, rfl⟩ := World.modify_some h
      refine rowsOk_write hw (fun o ho => .inr ho) hs.2.2.2 ?_
      exact rowOk_of_rest k hs.2.2.1 (hw _ hl)
    · cases h

theorem c05_steps : (cs : List Step) → {w w' : World} → RowsOk w → (∀ c ∈ cs, c.RawRowOk) →
    runSteps ε cs w = some w' → RowsOk w'
  | [], w, w', hw, _, h => by cases h; exact hw
  | c :: cs, w, w', hw, hc, h => by
    obtain ⟨v, hv, h⟩ := Option.bind_eq_some_iff.mp h
    exact c05_steps cs (c05_step hw (hc c List.mem_cons_self) hv)
      (fun d hd => hc d (List.mem_cons_of_mem c hd)) h

/-- **C05 (partial).** After any history of constructions and assignments, from arbitrary initial
contents of memory, every matrix-stored rigid transform has bottom row `(0, 0, 0, 1)`, provided that
every raw 4x4 matrix handed to the unchecked constructor has it.  Missing from the full claim: that
last condition, which the code does not enforce (`c05_false`). -/
theorem c05_bottom_row_partial {cs : List Step} {s : Mem} {w : World}
    (hc : ∀ a m, Step.ctorMatrix a m ∈ cs → BottomRow m)
    (h : runSteps ε cs (World.start s) = some w) {a : ℕ} (ha : (a, .rigid .mat) ∈ w.live) :
    BottomRow (w.mem a (.rigid .mat)) := by
  refine c05_steps cs (fun o ho => by cases ho) (fun c hcs => ?_) h _ ha
  cases c <;> first | exact hc _ _ hcs | trivial

/-- **C05.** Assigning to one block of a matrix-stored transform leaves the other block unchanged. -/
theorem c05_blocks_independent {w w' : World} {f : Bool} {a : ℕ} {e : SExpr} :
    ((Step.assignRot f a .mat e).run ε w = some w' →
      transBlock (w'.mem a (.rigid .mat)) = transBlock (w.mem a (.rigid .mat))) ∧
    ((Step.assignTrans f a .mat e).run ε w = some w' →
      rotBlock (w'.mem a (.rigid .mat)) = rotBlock (w.mem a (.rigid .mat))) :=
  ⟨fun h => (c40_assign_rotation h).2.1, fun h => (c40_assign_translation h).2.1⟩

/-- **C05 is false as stated**: the constructor from a 4x4 matrix stores any last row. -/
theorem c05_false : ¬ ∀ (cs : List Step) (s : Mem) (w : World) (a : ℕ),
    runSteps ε cs (World.start s) = some w → (a, .rigid .mat) ∈ w.live →
      BottomRow (w.mem a (.rigid .mat)) := by
  intro h
  have := h [.ctorMatrix 1 0] demo ⟨storeAll 1 (.rigid .mat) 0 demo, [(1, .rigid .mat)]⟩ 1 rfl
    List.mem_cons_self
  have e := storeAll_eq 1 (.rigid .mat) 0 demo
  exact zero_ne_one ((congrFun (congrFun e 3) 3).symm.trans this.2.2.2)

/-- **C05 (exact).** The unchecked constructor is the only way to lose the row: the object it builds
has the row if and only if the matrix given has it. -/
theorem c05_matrix_constructor {w w' : World} {a : ℕ} {m : M4}
    (h : (Step.ctorMatrix a m).run ε w = some w') :
    BottomRow (w'.mem a (.rigid .mat)) ↔ BottomRow m := by
  obtain ⟨-, s, hs, rfl⟩ := World.new_some h
  cases hs
  exact iff_of_eq (congrArg BottomRow (storeAll_eq a (.rigid .mat) m w.mem))

/-! ## Cases -/

/-- A world with transforms of both classes. -/
noncomputable def exWorld : World := ⟨demo, [(1, .rigid .mat), (1, .rigid .compact)]⟩

/-- `T = T⁻¹ * T⁻¹`: an assignment whose operand mentions the target twice. -/
example : ∃ w' o, (Step.assign 1 (.rigid .mat) ((lf (.rigid .mat))⁻¹ * (lf (.rigid .mat))⁻¹)).run
    dblEps exWorld = some w' ∧ Means dblEps demo ((lf (.rigid .mat))⁻¹ * (lf (.rigid .mat))⁻¹) o ∧
    obj (.rigid .mat) (w'.mem 1 (.rigid .mat)) = o := by
  have k : WellKinded demo ((lf (.rigid .mat))⁻¹ * (lf (.rigid .mat))⁻¹) .motion :=
    .mulMotion (.inverseMotion (.leaf _ _ (.rigid .mat) (demo_valid _ _)))
      (.inverseMotion (.leaf _ _ (.rigid .mat) (demo_valid _ _)))
  obtain ⟨o, hk, ho, -⟩ := c01_total dblEps_pos k
  obtain ⟨w', h1, -, h2⟩ := c40_assign_meaning (w := exWorld) (a := 1) (τ := .rigid .mat) dblEps_pos
    List.mem_cons_self (by decide) (by decide) ho (Kind.kindOk_of hk)
  exact ⟨w', o, h1, ho, h2⟩

/-- `T.rotation() = inverse(T.rotation())` for a compact transform with frames, and
`T.translation() = T * T.translation()` for a matrix transform without: both go through. -/
example : (∃ w', (Step.assignRot true 1 .compact (.un .inverse (.un .rotation (lf (.rigid .compact))))).run
      dblEps exWorld = some w') ∧
    (∃ w', (Step.assignTrans false 1 .mat (lf (.rigid .mat) * .un .translation (lf (.rigid .mat)))).run
      dblEps exWorld = some w') := by
  constructor
  · have k : WellKinded demo (.un .inverse (.un .rotation (lf (.rigid .compact)))) .rot :=
      .inverseRot (.rotation (.leaf _ _ (.rigid .compact) (demo_valid _ _)))
    obtain ⟨o, hk, ho, -⟩ := c01_total dblEps_pos k
    obtain ⟨v, hv, -⟩ := assigned_value (τ := .rot .quat) dblEps_pos ho (Kind.kindOk_of hk)
    exact c40_rotation_accepted (w := exWorld) (a := 1) (k := .compact) (by decide) (by decide) hv
  · have k : WellKinded demo (lf (.rigid .mat) * .un .translation (lf (.rigid .mat))) (.vec .trans) :=
      .act (.leaf _ _ (.rigid .mat) (demo_valid _ _))
        (.translation (.leaf _ _ (.rigid .mat) (demo_valid _ _)))
    obtain ⟨o, hk, ho, -⟩ := c01_total dblEps_pos k
    obtain ⟨v, hv, -⟩ := assigned_value (τ := .vec .trans) dblEps_pos ho (Kind.kindOk_of hk)
    exact c40_translation_accepted (w := exWorld) (a := 1) (k := .mat) (by decide) (by decide) hv

/-- A history meeting the hypotheses of `c05_bottom_row_partial`: a transform is built from parts with
arbitrary previous contents of memory, a second one is default-constructed, the second is assigned
the first, and the first is assigned a translation. -/
example (s : Mem) (g g' : M4) (R : M3) (t u : V3) : ∃ w,
    runSteps dblEps [.ctorEigen 1 g R t, .ctorDefault 2 g', .assign 2 (.rigid .mat) (lf (.rigid .mat)),
      .init 3 (.vec .trans) u, .assignTrans false 1 .mat (.leaf 3 0 (.vec .trans))] (World.start s) =
        some w ∧ (1, .rigid .mat) ∈ w.live ∧ (2, .rigid .mat) ∈ w.live := by
  have e : ∀ s' : Mem, evaluateTo dblEps s' (.vec .trans) (.leaf 3 0 (.vec .trans)) =
      some (s' 3 (.vec .trans)) := fun s' => evaluateTo_leaf s' (.vec .trans) 3 0
  simp only [runSteps, Step.run, World.start, World.new, World.modify, Option.bind_some, Option.map_some,
    assignLeaf, SExpr.isLeafOf, World.ok, SExpr.reads, assignMember, assignBlock, e]
  simp

/-- Each remaining theorem at a concrete world. -/
example : (Step.assign 1 (.rigid .compact) ((lf (.rigid .compact))⁻¹)).run dblEps exWorld = none :=
  c40_compact_rejected _ _ _ fun _ _ h => by cases h

example : ∃ w', (Step.ctorMatrix 5 (0 : M4)).run dblEps exWorld = some w' ∧
    (BottomRow (w'.mem 5 (.rigid .mat)) ↔ BottomRow 0) :=
  ⟨_, rfl, c05_matrix_constructor (ε := dblEps) (w := exWorld) rfl⟩

end WG
