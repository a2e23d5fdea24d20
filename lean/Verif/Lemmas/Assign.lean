import Verif.Model.Assign
import Verif.Spec.Assign
import Verif.Lemmas.ElabRegular

/-! Coefficient-wise writes. -/

namespace WG
open Matrix Spec

variable {ε : ℝ}

theorem get_ofFun : (τ : Ty) → (f : τ.Coef → ℝ) → τ.get (τ.ofFun f) = f
  | .vec _, _ => rfl
  | .point, _ => rfl
  | .rot .quat, f => by
    funext i
    change Quat.get (Quat.ofFun f) i = f i
    fin_cases i <;> rfl
  | .rot .mat, _ => rfl
  | .rot .aa, f => by
    funext i
    cases i <;> rfl
  | .rigid .mat, _ => rfl
  | .rigid .compact, f => by
    funext i
    rcases i with i | i
    · change Quat.get (Quat.ofFun _) i = f (.inl i)
      fin_cases i <;> rfl
    · rfl

theorem ofFun_get : (τ : Ty) → (v : τ.Val) → τ.ofFun (τ.get v) = v
  | .vec _, _ => rfl
  | .point, _ => rfl
  | .rot .quat, _ => rfl
  | .rot .mat, _ => rfl
  | .rot .aa, _ => rfl
  | .rigid .mat, _ => rfl
  | .rigid .compact, _ => rfl

theorem get_inj {τ : Ty} {v w : τ.Val} (h : ∀ c, τ.get v c = τ.get w c) : v = w := by
  rw [← ofFun_get τ v, ← ofFun_get τ w, funext h]

theorem put_self_get (s : Mem) (a : ℕ) (τ : Ty) (c : τ.Coef) (x : ℝ) :
    τ.get (s.put a τ c x a τ) = Function.update (τ.get (s a τ)) c x := by
  unfold Mem.put
  rw [dif_pos ⟨rfl, rfl⟩]
  exact get_ofFun τ _

theorem put_only (s : Mem) (a : ℕ) (τ : Ty) (c : τ.Coef) (x : ℝ) :
    OnlyChanges a τ s (s.put a τ c x) := fun b σ h => by
  unfold Mem.put
  rw [dif_neg h]

theorem Spec.OnlyChanges.refl (a : ℕ) (τ : Ty) (s : Mem) : OnlyChanges a τ s s := fun _ _ _ => rfl

theorem Spec.OnlyChanges.trans {a : ℕ} {τ : Ty} {s s' s'' : Mem} (h : OnlyChanges a τ s s')
    (h' : OnlyChanges a τ s' s'') : OnlyChanges a τ s s'' := fun b σ k =>
  (h' b σ k).trans (h b σ k)

theorem mem_ext {a : ℕ} {τ : Ty} {s s' : Mem} (h : OnlyChanges a τ s s') (h' : s' a τ = s a τ) :
    s' = s := by
  funext b σ
  by_cases k : b = a ∧ τ = σ
  · obtain ⟨rfl, rfl⟩ := k
    exact h'
  · exact h b σ k

theorem put_same (s : Mem) (a : ℕ) (τ : Ty) (c : τ.Coef) : s.put a τ c (τ.get (s a τ) c) = s :=
  mem_ext (put_only s a τ c _) (get_inj fun d => by rw [put_self_get, Function.update_eq_self])

theorem copyLoop_only {κ : Type} (a : ℕ) (τ : Ty) (src : Mem → κ → ℝ) :
    (l : List (τ.Coef × κ)) → (s : Mem) → OnlyChanges a τ s (copyLoop a τ src l s)
  | [], s => OnlyChanges.refl a τ s
  | p :: ps, s => (put_only s a τ p.1 _).trans (copyLoop_only a τ src ps _)

/-- A source that does not look at the object written. -/
def Steady {κ : Type} (a : ℕ) (τ : Ty) (src : Mem → κ → ℝ) : Prop :=
  ∀ s s', OnlyChanges a τ s s' → ∀ k, src s' k = src s k

theorem copyLoop_out {κ : Type} (a : ℕ) (τ : Ty) (src : Mem → κ → ℝ) (c : τ.Coef) :
    (l : List (τ.Coef × κ)) → (s : Mem) → c ∉ l.map Prod.fst →
      τ.get (copyLoop a τ src l s a τ) c = τ.get (s a τ) c
  | [], _, _ => rfl
  | p :: ps, s, h => by
    rw [List.map_cons, List.mem_cons, not_or] at h
    refine (copyLoop_out a τ src c ps _ h.2).trans ?_
    rw [put_self_get, Function.update_of_ne h.1]

theorem copyLoop_in {κ : Type} {a : ℕ} {τ : Ty} {src : Mem → κ → ℝ} (hs : Steady a τ src)
    {c : τ.Coef} {k : κ} :
    (l : List (τ.Coef × κ)) → (s : Mem) → (l.map Prod.fst).Nodup → (c, k) ∈ l →
      τ.get (copyLoop a τ src l s a τ) c = src s k
  | p :: ps, s, h, h' => by
    rw [List.map_cons, List.nodup_cons] at h
    rcases List.mem_cons.mp h' with rfl | h'
    · refine (copyLoop_out a τ src c ps _ h.1).trans ?_
      rw [put_self_get, Function.update_self]
    · refine (copyLoop_in hs ps _ h.2 h').trans ?_
      exact hs _ _ (put_only s a τ p.1 _) k

theorem copyLoop_self (a : ℕ) (τ : Ty) (s : Mem) : (l : List τ.Coef) →
    copyLoop a τ (fun s c => τ.get (s a τ) c) (l.map fun c => (c, c)) s = s
  | [] => rfl
  | c :: cs => by
    rw [List.map_cons, copyLoop, put_same]
    exact copyLoop_self a τ s cs

theorem steady_const {κ : Type} (a : ℕ) (τ : Ty) (f : κ → ℝ) : Steady a τ (fun _ => f) :=
  fun _ _ _ _ => rfl

theorem steady_other {a b : ℕ} {τ σ : Ty} (h : ¬ (b = a ∧ τ = σ)) :
    Steady a τ (fun s c => σ.get (s b σ) c) := fun s s' k c => by
  change σ.get (s' b σ) c = σ.get (s b σ) c
  rw [k b σ h]

theorem coefs_nodup (τ : Ty) : τ.coefs.Nodup := by
  rcases τ with k | _ | k | k <;> try (rcases k) <;> decide
  decide

theorem sum_complete {m n : ℕ} (c : Fin m ⊕ Fin n) :
    c ∈ (List.finRange m).map Sum.inl ++ (List.finRange n).map Sum.inr := by
  rcases c with c | c <;> simp

theorem coefs_complete (τ : Ty) (c : τ.Coef) : c ∈ τ.coefs := by
  rcases τ with k | _ | k | k
  · rcases k
    · revert c; decide
    · revert c; decide
    · revert c; decide
    · exact sum_complete c
  · revert c; decide
  · rcases k <;> (revert c; decide)
  · rcases k
    · revert c; decide
    · exact sum_complete c

theorem copyAll {a : ℕ} {τ : Ty} {src : Mem → τ.Coef → ℝ} (hs : Steady a τ src) (s : Mem)
    (c : τ.Coef) :
    τ.get (copyLoop a τ src (τ.coefs.map fun c => (c, c)) s a τ) c = src s c := by
  refine copyLoop_in hs _ s ?_ (List.mem_map.mpr ⟨c, coefs_complete τ c, rfl⟩)
  rw [List.map_map]
  exact (congrArg List.Nodup (List.map_id _)).mpr (coefs_nodup τ)

theorem storeAll_eq (a : ℕ) (τ : Ty) (v : τ.Val) (s : Mem) : storeAll a τ v s a τ = v :=
  get_inj fun c => copyAll (steady_const a τ _) s c

theorem storeAll_only (a : ℕ) (τ : Ty) (v : τ.Val) (s : Mem) :
    OnlyChanges a τ s (storeAll a τ v s) := copyLoop_only _ _ _ _ _

theorem evaluateTo_iff {s : Mem} {τ : Ty} {e : SExpr} {v : τ.Val} :
    evaluateTo ε s τ e = some v ↔ (SExpr.un (.to τ) e).value ε s = some ⟨τ, v⟩ := by
  unfold evaluateTo
  constructor
  · intro h
    obtain ⟨⟨σ, w⟩, h1, h2⟩ := Option.bind_eq_some_iff.mp h
    rw [h1]
    dsimp only at h2
    split at h2
    · rename_i k
      subst k
      cases h2
      rfl
    · cases h2
  · intro h
    rw [h]
    exact dif_pos rfl

theorem value_to_ty {s : Mem} {τ : Ty} {e : SExpr} {o : (τ : Ty) × τ.Val}
    (h : (SExpr.un (.to τ) e).value ε s = some o) : o.1 = τ := by
  unfold SExpr.value at h
  obtain ⟨x, hx, h⟩ := Option.bind_eq_some_iff.mp h
  obtain ⟨v, -, rfl⟩ := Option.map_eq_some_iff.mp h
  obtain ⟨y, -, hx⟩ := Option.bind_eq_some_iff.mp hx
  change elabTo τ y = some x at hx
  unfold elabTo at hx
  split at hx
  · cases hx; rfl
  · obtain ⟨op, -, rfl⟩ := Option.map_eq_some_iff.mp hx
    rfl

theorem evaluateTo_leaf (s : Mem) (τ : Ty) (b c : ℕ) :
    evaluateTo ε s τ (.leaf b c τ) = some (s b τ) := by
  rw [evaluateTo_iff]
  unfold SExpr.value SExpr.elab elabUn elabTo
  simp only [SExpr.elab, Option.bind_some, dif_pos]
  rfl

theorem isLeafOf_some {τ : Ty} {e : SExpr} {b : ℕ} (h : e.isLeafOf τ = some b) :
    ∃ c, e = .leaf b c τ := by
  cases e <;> simp only [SExpr.isLeafOf] at h
  · rename_i x c σ
    split at h
    · rename_i k; subst k; cases h; exact ⟨c, rfl⟩
    · cases h
  all_goals cases h

/-- What a transform holds besides its two blocks: the last row of the 4x4 matrix. -/
def RigK.rest : (k : RigK) → k.Val → Fin 4 → ℝ
  | .mat, m => m 3
  | .compact, _ => 0

theorem copyRot {a : ℕ} : (k : RigK) → {src : Mem → (Ty.rot k.rotK).Coef → ℝ} →
    Steady a (.rigid k) src → (s : Mem) →
    k.rot (copyLoop a (.rigid k) src k.rotCoefs s a (.rigid k)) = (Ty.rot k.rotK).ofFun (src s) ∧
    k.trans (copyLoop a (.rigid k) src k.rotCoefs s a (.rigid k)) = k.trans (s a (.rigid k)) ∧
    k.rest (copyLoop a (.rigid k) src k.rotCoefs s a (.rigid k)) = k.rest (s a (.rigid k))
  | .mat, src, hs, s => by
    refine ⟨?_, ?_, ?_⟩
    · ext i j
      refine copyLoop_in (c := (i.castLE (by decide), j.castLE (by decide))) (k := (i, j)) hs
        RigK.mat.rotCoefs s (by decide) ?_
      refine List.mem_map.mpr ⟨(i, j), ?_, rfl⟩
      revert i j; decide
    · funext i
      refine copyLoop_out a (.rigid .mat) src (i.castLE (by decide), 3) RigK.mat.rotCoefs s ?_
      revert i; decide
    · funext i
      refine copyLoop_out a (.rigid .mat) src (3, i) RigK.mat.rotCoefs s ?_
      revert i; decide
  | .compact, src, hs, s => by
    refine ⟨?_, ?_, rfl⟩
    · refine get_inj (τ := .rot .quat) fun i => ?_
      rw [get_ofFun]
      refine copyLoop_in (c := .inl i) (k := i) hs RigK.compact.rotCoefs s (by decide) ?_
      exact List.mem_map.mpr ⟨i, List.mem_finRange i, rfl⟩
    · funext i
      refine copyLoop_out a (.rigid .compact) src (.inr i) RigK.compact.rotCoefs s ?_
      simp [RigK.rotCoefs]

theorem copyTrans {a : ℕ} : (k : RigK) → {src : Mem → (Ty.vec .trans).Coef → ℝ} →
    Steady a (.rigid k) src → (s : Mem) →
    k.trans (copyLoop a (.rigid k) src k.transCoefs s a (.rigid k)) = src s ∧
    k.rot (copyLoop a (.rigid k) src k.transCoefs s a (.rigid k)) = k.rot (s a (.rigid k)) ∧
    k.rest (copyLoop a (.rigid k) src k.transCoefs s a (.rigid k)) = k.rest (s a (.rigid k))
  | .mat, src, hs, s => by
    refine ⟨?_, ?_, ?_⟩
    · funext i
      refine copyLoop_in (c := (i.castLE (by decide), 3)) (k := i) hs RigK.mat.transCoefs s
        (by decide) ?_
      exact List.mem_map.mpr ⟨i, List.mem_finRange i, rfl⟩
    · ext i j
      refine copyLoop_out a (.rigid .mat) src (i.castLE (by decide), j.castLE (by decide))
        RigK.mat.transCoefs s ?_
      revert i j; decide
    · funext i
      refine copyLoop_out a (.rigid .mat) src (3, i) RigK.mat.transCoefs s ?_
      revert i; decide
  | .compact, src, hs, s => by
    refine ⟨?_, ?_, rfl⟩
    · funext i
      refine copyLoop_in (c := .inr i) (k := i) hs RigK.compact.transCoefs s (by decide) ?_
      exact List.mem_map.mpr ⟨i, List.mem_finRange i, rfl⟩
    · refine get_inj (τ := .rot .quat) fun i => ?_
      refine copyLoop_out a (.rigid .compact) src (.inl i) RigK.compact.transCoefs s ?_
      simp [RigK.transCoefs]

/-- Both forms of block assignment copy the value of the operand in the memory before. -/
theorem assignMember_form {f : Bool} {a : ℕ} {k : RigK} {σ : Ty} (hσ : σ ≠ .rigid k)
    {pos : List ((Ty.rigid k).Coef × σ.Coef)} {e : SExpr} {s s' : Mem}
    (h : assignMember ε f a k σ pos e s = some s') :
    ∃ (v : σ.Val) (src : Mem → σ.Coef → ℝ), evaluateTo ε s σ e = some v ∧
      Steady a (.rigid k) src ∧ src s = σ.get v ∧ s' = copyLoop a (.rigid k) src pos s := by
  have key : ∀ {s' : Mem}, ((evaluateTo ε s σ e).map fun tmp =>
      copyLoop a (.rigid k) (fun _ c => σ.get tmp c) pos s) = some s' →
      ∃ (v : σ.Val) (src : Mem → σ.Coef → ℝ), evaluateTo ε s σ e = some v ∧
      Steady a (.rigid k) src ∧ src s = σ.get v ∧ s' = copyLoop a (.rigid k) src pos s := by
    intro s' h
    obtain ⟨v, hv, rfl⟩ := Option.map_eq_some_iff.mp h
    exact ⟨v, fun _ c => σ.get v c, hv, steady_const _ _ _, rfl, rfl⟩
  unfold assignMember at h
  split at h
  · exact key h
  · unfold assignBlock at h
    split at h
    · rename_i b hb
      cases h
      split at hb
      · obtain ⟨c, rfl⟩ := isLeafOf_some hb
        exact ⟨s b σ, fun s c => σ.get (s b σ) c, evaluateTo_leaf s σ b c,
          steady_other (fun hh => hσ hh.2.symm), rfl, rfl⟩
      · cases hb
    · exact key h

theorem assignLeaf_form {a : ℕ} {τ : Ty} {e : SExpr} {s s' : Mem}
    (h : assignLeaf ε a τ e s = some s') :
    ∃ v, evaluateTo ε s τ e = some v ∧ s' a τ = v ∧ OnlyChanges a τ s s' := by
  unfold assignLeaf at h
  split at h
  · rename_i b hb
    cases h
    obtain ⟨c, rfl⟩ := isLeafOf_some hb
    refine ⟨s b τ, evaluateTo_leaf s τ b c, ?_, copyLoop_only _ _ _ _ _⟩
    by_cases hab : b = a
    · subst hab
      rw [copyLoop_self]
    · exact get_inj fun c => copyAll (steady_other fun hh => hab hh.1) s c
  · split at h
    · cases h
    · obtain ⟨v, hv, rfl⟩ := Option.map_eq_some_iff.mp h
      exact ⟨v, hv, storeAll_eq a τ v s, copyLoop_only _ _ _ _ _⟩

/-! ### Bottom row of computed transforms -/

/-- The bottom row of a value of class `MatrixRigidTransform`; nothing for other classes. -/
def RowOk : (τ : Ty) → τ.Val → Prop
  | .rigid .mat, m => BottomRow m
  | _, _ => True

theorem rowOk_un {a b : Ty} (op : Un a b) (x : a.Val) (v : b.Val) (hx : RowOk a x)
    (h : evalUn ε op x = some v) : RowOk b v := by
  cases op with
  | recast τ => cases h; exact hx
  | invRigid k => cases k <;> cases h <;> first | exact bottomRow_mk4 _ _ | trivial
  | expTwist =>
    change expTwist ε x = some v at h
    unfold expTwist at h
    simp only at h
    split at h
    · obtain ⟨A, -, h⟩ := Option.bind_eq_some_iff.mp h
      obtain ⟨B, -, h⟩ := Option.bind_eq_some_iff.mp h
      obtain ⟨C, -, h⟩ := Option.bind_eq_some_iff.mp h
      cases h
      exact bottomRow_mk4 _ _
    · cases h
      exact bottomRow_mk4 _ _
  | convRigid k l =>
    cases l with
    | compact => trivial
    | mat =>
      cases k with
      | mat => cases h; exact hx
      | compact => cases h; exact bottomRow_mk4 _ _
  | convRot k l => cases l <;> trivial
  | getRot k => cases k <;> trivial
  | invRot k => cases k <;> trivial
  | _ => trivial

theorem rowOk_compose {a b : RigK} {x : a.Val} {y : b.Val} {v : b.Val}
    (h : composeRigid a b x y = some v) : RowOk (.rigid b) v := by
  obtain ⟨R, -, rfl⟩ := Option.map_eq_some_iff.mp h
  cases b
  · exact bottomRow_mk4 _ _
  · trivial

theorem rowOk_bin {a b c : Ty} (op : Bin a b c) (x : a.Val) (y : b.Val) (v : c.Val)
    (h : evalBin op x y = some v) : RowOk c v := by
  cases op with
  | composeRigid a b => exact rowOk_compose h
  | flipRigid a b => exact rowOk_compose h
  | _ => trivial

theorem rowOk_eval (s : Mem) : {τ : Ty} → (e : Expr (geoLib ε) τ) →
    (∀ o ∈ objects e, RowOk o.ty (s o.addr o.ty)) → ∀ v, e.eval (L := geoLib ε) s = some v → RowOk τ v
  | _, .leaf a c τ, h, v, hv => by
    cases hv
    exact h ⟨a, c, τ⟩ (List.mem_singleton.mpr rfl)
  | _, .un a op e, h, v, hv => by
    obtain ⟨x, hx, hv⟩ := Option.bind_eq_some_iff.mp hv
    exact rowOk_un op x v (rowOk_eval s e h x hx) hv
  | _, .bin a op l r, h, v, hv => by
    obtain ⟨x, -, hv⟩ := Option.bind_eq_some_iff.mp hv
    obtain ⟨y, -, hv⟩ := Option.bind_eq_some_iff.mp hv
    exact rowOk_bin op x y v hv
  | _, .proxy a e, h, v, hv => rowOk_eval s e h v hv

theorem written_reads (e : SExpr) : (written ε e).map (fun o => (o.addr, o.ty)) = e.reads := by
  induction e with
  | leaf a c τ => rfl
  | un op e ih => exact ih
  | bin op l r ihl ihr =>
    refine (List.map_append ..).trans ?_
    rw [ihl, ihr]
    rfl
  | dynamic a e ih => exact ih

theorem rowOk_evaluateTo {s : Mem} {τ : Ty} {e : SExpr} {v : τ.Val}
    (h : evaluateTo ε s τ e = some v) (hr : ∀ o ∈ e.reads, RowOk o.2 (s o.1 o.2)) : RowOk τ v := by
  rw [evaluateTo_iff] at h
  obtain ⟨x, hx, h⟩ := Option.bind_eq_some_iff.mp h
  obtain ⟨w, hw, h⟩ := Option.map_eq_some_iff.mp h
  cases h
  refine rowOk_eval s x.2 (fun o ho => ?_) _ hw
  rw [(elab_written _ hx).1] at ho
  refine hr (o.addr, o.ty) ?_
  rw [← written_reads (ε := ε) e]
  exact List.mem_map.mpr ⟨o, ho, rfl⟩

theorem bottomRow_rest {m : M4} : BottomRow m ↔ RigK.mat.rest m = ![0, 0, 0, 1] := by
  constructor
  · rintro ⟨h0, h1, h2, h3⟩
    funext i
    fin_cases i <;> assumption
  · intro h
    exact ⟨congrFun h 0, congrFun h 1, congrFun h 2, congrFun h 3⟩

theorem defaultRT_row (a : ℕ) (g : M4) (s : Mem) : BottomRow (defaultRT a g s a (.rigid .mat)) := by
  have key : ∀ j x, ((3, j), x) ∈ lastRow →
      (defaultRT a g s a (.rigid .mat) : M4) 3 j = x := by
    intro j x h
    exact copyLoop_in (c := (3, j)) (k := x) (steady_const a (.rigid .mat) fun x : ℝ => x) lastRow _
      (by simp [lastRow]) h
  exact ⟨key 0 0 (by simp [lastRow]), key 1 0 (by simp [lastRow]), key 2 0 (by simp [lastRow]),
    key 3 1 (by simp [lastRow])⟩

theorem defaultRT_only (a : ℕ) (g : M4) (s : Mem) : OnlyChanges a (.rigid .mat) s (defaultRT a g s) :=
  (copyLoop_only _ _ _ _ _).trans (copyLoop_only _ _ _ _ _)

end WG
