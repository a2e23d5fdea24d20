import Verif.Lemmas.MapLeaf
import Verif.Props.Assign
import Verif.Props.DerivativeUser
import Verif.Lemmas.Represent

/-!
# C58: leaf objects that map memory they do not own

Several leaf objects may share cells.  What is stated uses the public `eval` of expressions on what
the objects hold (`view`), the cells (`cellOf`) and `CellsHold`.
-/

namespace WG
open Matrix Spec Filter Topology

variable {ε : ℝ}

/-- **C58.** `x = e` for an expression `e` that is not a leaf of the very class of `x`: whatever cells
`x` shares with the operands of `e`, and in whatever order the coefficients are stored, `x` ends up
with the value that `e` had before, and no cell outside `x` changes. -/
theorem c58_assign {Γ : Objects} {x : ℕ} {e : SExpr} {l : List (Act (Γ x).ty.Coef)}
    {cs : List (Γ x).ty.Coef} {h h' : Heap} (hcs : ∀ c, c ∈ cs)
    (he : ∀ b c, e = .leaf b c (Γ x).ty → (Γ b).sto ≠ (Γ x).sto)
    (H : assignMapped ε Γ x e l cs h = some h') :
    ∃ v, (SExpr.un (.to (Γ x).ty) e).value ε (view Γ h) = some ⟨(Γ x).ty, v⟩ ∧
      CellsHold Γ x (Γ x).ty v h h' := by
  unfold assignMapped at H
  rw [ite_eq_iff] at H
  obtain ⟨-, H⟩ | ⟨-, H⟩ := H
  · cases H
  cases hs : sameClass Γ x e with
  | some b =>
    obtain ⟨⟨c, hc⟩, hb⟩ := sameClass_some hs
    exact absurd hb (he b c hc)
  | none =>
    rw [hs] at H
    dsimp only at H
    split_ifs at H
    obtain ⟨v, hv, rfl⟩ := Option.map_eq_some_iff.mp H
    exact ⟨v, evaluateTo_iff.mp hv,
      fun c => storeFrom_held (cellOf_inj Γ x _) _ c cs h (hcs c),
      fun k hk => storeFrom_keeps _ _ k cs h fun c _ => hk c⟩

/-- **C58 (acceptance).** The assignment goes through whenever `e` has a value of the class of `x`,
unless `x` maps constants or is a compact rigid transform. -/
theorem c58_accepted {Γ : Objects} {x : ℕ} {e : SExpr} (l : List (Act (Γ x).ty.Coef))
    (cs : List (Γ x).ty.Coef) {h : Heap} (hx : (Γ x).sto.readOnly = false)
    (ht : ∀ o ∈ e.reads, (Γ o.1).ty = o.2) (hc : (Γ x).ty ≠ .rigid .compact)
    {o : (τ : Ty) × τ.Val} (hv : (SExpr.un (.to (Γ x).ty) e).value ε (view Γ h) = some o) :
    ∃ h', assignMapped ε Γ x e l cs h = some h' := by
  obtain ⟨v, hv⟩ := evaluateTo_of_value hv
  unfold assignMapped
  rw [if_neg (not_or.mpr ⟨Bool.eq_false_iff.mp hx, not_not.mpr (show e.typed Γ from ht)⟩)]
  cases sameClass Γ x e with
  | some b => exact ⟨_, rfl⟩
  | none =>
    dsimp only
    rw [if_neg hc, hv]
    exact ⟨_, rfl⟩

/-- **C58 (constants).** Nothing can be assigned to a leaf that maps constants. -/
theorem c58_const_rejected {Γ : Objects} {x : ℕ} (hx : (Γ x).sto.readOnly = true) (e : SExpr)
    (l : List (Act (Γ x).ty.Coef)) (cs : List (Γ x).ty.Coef) (h : Heap) :
    assignMapped ε Γ x e l cs h = none := if_pos (.inl hx)

/-- **C58 (meaning).** If `e` means the object `o` before the assignment, then afterwards `x` holds a
valid representation of `o`, also when `x` and the operands of `e` overlap. -/
theorem c58_meaning (hε : 0 < ε) {Γ : Objects} {x : ℕ} {e : SExpr} (l : List (Act (Γ x).ty.Coef))
    {cs : List (Γ x).ty.Coef} {h : Heap} {o : Obj} (hcs : ∀ c, c ∈ cs)
    (hx : (Γ x).sto.readOnly = false) (ht : ∀ o ∈ e.reads, (Γ o.1).ty = o.2)
    (hc : (Γ x).ty ≠ .rigid .compact)
    (he : ∀ b c, e = .leaf b c (Γ x).ty → (Γ b).sto ≠ (Γ x).sto)
    (hm : Means ε (view Γ h) e o) (hk : o.kindOk (Γ x).ty) :
    ∃ h', assignMapped ε Γ x e l cs h = some h' ∧ Valid (Γ x).ty (view Γ h' x (Γ x).ty) ∧
      obj (Γ x).ty (view Γ h' x (Γ x).ty) = o := by
  obtain ⟨v, hval, h3, h4⟩ := assigned_value hε hm hk
  obtain ⟨h', H⟩ := c58_accepted l cs hx ht hc hval
  refine ⟨h', H, ?_⟩
  obtain ⟨w, hw, ho⟩ := c58_assign hcs he H
  rw [hval] at hw
  cases hw
  rw [ho.view_eq]
  exact ⟨h3, h4⟩

/-- **C58 (other objects).** After a write to `x`, every object in the same place shows the new value,
and every object apart from `x` shows its old one. -/
theorem c58_others {Γ : Objects} {x : ℕ} {τ : Ty} {v : τ.Val} {h h' : Heap}
    (H : CellsHold Γ x τ v h h') :
    (∀ y, (Γ y).base = (Γ x).base → view Γ h' y τ = v) ∧
    ∀ y σ, NoSharedCell Γ y σ x τ → view Γ h' y σ = view Γ h y σ := by
  refine ⟨fun y hy => ?_, fun y σ hy => H.view_apart hy⟩
  refine get_inj fun c => ?_
  rw [get_view]
  unfold cellOf
  rw [hy]
  exact H.held c

theorem assignMapped_copy {Γ : Objects} {x b c : ℕ} (hx : (Γ x).sto.readOnly = false)
    (ht : (Γ b).ty = (Γ x).ty) (hs : (Γ b).sto = (Γ x).sto) (l : List (Act (Γ x).ty.Coef))
    (cs : List (Γ x).ty.Coef) (h : Heap) :
    assignMapped ε Γ x (.leaf b c (Γ x).ty) l cs h =
      some (runActs (cellOf Γ b (Γ x).ty) (cellOf Γ x (Γ x).ty) l (fun _ => 0, h)).2 := by
  unfold assignMapped
  rw [if_neg (not_or.mpr ⟨Bool.eq_false_iff.mp hx, not_not.mpr ?_⟩)]
  · have : sameClass Γ x (.leaf b c (Γ x).ty) = some b := by
      have h1 : (SExpr.leaf b c (Γ x).ty).isLeafOf (Γ x).ty = some b := if_pos rfl
      unfold sameClass
      rw [h1]
      exact if_pos hs
    rw [this]
    rfl
  · intro o ho
    cases List.mem_singleton.mp ho
    exact ht

/-- **C58 (copy assignment).** `x = y` for a leaf `y` of the very class of `x` copies in place.  It is
right for every order of loads and stores and all contents of memory exactly when the two objects are
in the same place or share no cell. -/
theorem c58_copy_iff {Γ : Objects} {x y c : ℕ} (hx : (Γ x).sto.readOnly = false)
    (ht : (Γ y).ty = (Γ x).ty) (hs : (Γ y).sto = (Γ x).sto) (cs : List (Γ x).ty.Coef) :
    (∀ l, Sched l → ∀ h, ∃ h', assignMapped ε Γ x (.leaf y c (Γ x).ty) l cs h = some h' ∧
      CellsHold Γ x (Γ x).ty (view Γ h y (Γ x).ty) h h') ↔
    ((Γ y).base = (Γ x).base ∨ NoSharedCell Γ x (Γ x).ty y (Γ x).ty) := by
  constructor
  · intro H
    by_contra hno
    rw [not_or] at hno
    obtain ⟨hb, hap⟩ := hno
    unfold NoSharedCell at hap
    push Not at hap
    obtain ⟨p, q, hpq⟩ := hap
    have hne : p ≠ q := by
      rintro rfl
      exact hb (Nat.add_right_cancel hpq).symm
    have hnd : (p :: (Γ x).ty.coefs.erase p).Nodup :=
      List.nodup_cons.mpr ⟨fun hm => (coefs_nodup _).not_mem_erase hm, (coefs_nodup _).erase _⟩
    have hall : ∀ d, d ∈ p :: (Γ x).ty.coefs.erase p := fun d => by
      by_cases hd : d = p
      · exact hd ▸ List.mem_cons_self
      · exact List.mem_cons_of_mem _ ((List.mem_erase_of_ne hd).mpr (coefs_complete _ d))
    have hql : q ∈ (Γ x).ty.coefs.erase p :=
      (List.mem_erase_of_ne hne.symm).mpr (coefs_complete _ q)
    let h : Heap := fun k => if k = cellOf Γ y (Γ x).ty p then 1 else 0
    obtain ⟨h', H1, H2⟩ := H _ (sched_scalarLoop hnd hall) h
    rw [assignMapped_copy hx ht hs] at H1
    cases H1
    have hq := H2.held q
    rw [get_view] at hq
    have hz : h (cellOf Γ y (Γ x).ty q) = 0 :=
      if_neg fun hh => hne (cellOf_inj Γ y _ hh).symm
    rw [hz] at hq
    -- the coefficient `q` is loaded after `p` has been stored in its cell
    obtain ⟨l, m, hlm⟩ := List.append_of_mem hql
    have hlm' : p :: (Γ x).ty.coefs.erase p = (p :: l) ++ q :: m := by rw [hlm]; rfl
    rw [hlm'] at hnd hq
    have hqn : q ∉ (p :: l) ++ m := (List.nodup_cons.mp (List.nodup_middle.mp hnd)).1
    have hqm : q ∉ m := fun hm => hqn (List.mem_append_right _ hm)
    have hpl : p ∉ l := by
      have := (List.nodup_cons.mp hnd).1
      exact fun hm => this (List.mem_append_left _ hm)
    have hsplit : scalarLoop ((p :: l) ++ q :: m) =
        scalarLoop (p :: l) ++ .load q :: ([] ++ .store q :: scalarLoop m) := scalarLoop_append _ _
    rw [hsplit, runActs_copy (cellOf_inj Γ x _) (by simp) (fun hm => hqm (store_scalarLoop.mp hm)),
      ← hpq] at hq
    have hsplit2 : scalarLoop (p :: l) = [] ++ .load p :: ([] ++ .store p :: scalarLoop l) := rfl
    rw [hsplit2, runActs_copy (cellOf_inj Γ x _) (by simp) (fun hm => hpl (store_scalarLoop.mp hm))] at hq
    change h (cellOf Γ y (Γ x).ty p) = 0 at hq
    have : h (cellOf Γ y (Γ x).ty p) = 1 := if_pos rfl
    linarith
  · intro hh l hl h
    refine ⟨_, assignMapped_copy hx ht hs l cs h, fun c => ?_, fun k hk => sched_keeps _ _ _ _ _ hk⟩
    rw [get_view]
    refine sched_copies (cellOf_inj Γ x _) hl (fun p q hpq => ?_) _ c
    rcases hh with hb | hap
    · unfold cellOf at hpq
      rw [hb] at hpq
      exact ofs_inj _ (Nat.add_left_cancel hpq)
    · exact absurd hpq (hap p q)

/-- **C58 (copy construction).** The copy of a mapped leaf is another name for the same cells: it shows
the same value whatever happens to memory later.  The copy of an owning leaf has the value of the
original at that moment, in cells of its own. -/
theorem c58_copy_construct (Γ : Objects) {x y : ℕ} (hxy : y ≠ x) (fresh : ℕ)
    (cs : List (Γ y).ty.Coef) (hcs : ∀ c, c ∈ cs) (h : Heap) {Γ' : Objects} {h₁ : Heap}
    (H : copyConstruct Γ x y fresh cs h = (Γ', h₁)) :
    (Γ' x).ty = (Γ y).ty ∧ (Γ' x).sto = (Γ y).sto ∧ view Γ' h₁ x (Γ y).ty = view Γ h y (Γ y).ty ∧
      ((Γ y).sto ≠ .own → h₁ = h ∧ ∀ h' τ, view Γ' h' x τ = view Γ' h' y τ) ∧
      ((Γ y).sto = .own → ∀ k, (∀ c, cellOf Γ' x (Γ y).ty c ≠ k) → h₁ k = h k) := by
  unfold copyConstruct at H
  cases hs : (Γ y).sto with
  | own =>
    rw [hs] at H
    cases H
    have hx : Function.update Γ x ⟨(Γ y).ty, .own, fresh⟩ x = ⟨(Γ y).ty, .own, fresh⟩ :=
      Function.update_self _ _ _
    have hinj : Function.Injective fun c => fresh + (Γ y).ty.ofs c := fun _ _ hh =>
      ofs_inj _ (Nat.add_left_cancel hh)
    refine ⟨by rw [hx], by rw [hx], ?_, fun hh => absurd rfl hh, fun _ k hk => ?_⟩
    · refine get_inj fun c => ?_
      rw [get_view, get_view]
      unfold cellOf
      rw [hx]
      exact storeFrom_held hinj _ c cs h (hcs c)
    · refine storeFrom_keeps _ _ k cs h fun c _ => ?_
      have := hk c
      unfold cellOf at this
      rwa [hx] at this
  | _ =>
    rw [hs] at H
    cases H
    refine ⟨by simp, by simp, ?_, fun _ => ⟨rfl, fun h' τ => ?_⟩, fun hh => nomatch hh⟩
    · unfold view
      simp
    · unfold view
      simp [hxy]

/-- **C58 (Jacobians).** If no other object that `e` reads shares a cell with the target, the Jacobian
of `e` with respect to a mapped leaf is the derivative with respect to the contents of the mapped
memory: of `d ↦ eval(e with x + d written to the cells of x) - eval(e)`. -/
theorem c58_jacobian (hε : 0 < ε) (hε1 : ε ≤ 1) {Γ : Objects} {h : Heap} {e : SExpr} {o : Obj}
    (hm : Means ε (view Γ h) e o) (hp : NoDynamic e) {x : Tree ε} (hx : e.elab ε = some x)
    {t : Target (geoLib ε)} (ht : t ∈ written ε e)
    (ha : ∀ u ∈ written ε e, u ≠ t → NoSharedCell Γ u.addr u.ty t.addr t.ty)
    {w : (v : t.ty.Val) → Heap} (hw : ∀ v, CellsHold Γ t.addr t.ty v h (w v))
    {J : Matrix x.1.Idx t.ty.Idx ℝ}
    (hJ : x.2.jacobianAuto (L := geoLib ε) (view Γ h) t = some J) :
    ∃ F : (t.ty.Idx → ℝ) → x.1.Idx → ℝ,
      (∀ᶠ d in 𝓝 0, ((boxPlusVal ε t.ty (view Γ h t.addr t.ty) d).bind fun v =>
        (x.2.eval (L := geoLib ε) (view Γ (w v))).bind fun y =>
          (x.2.eval (L := geoLib ε) (view Γ h)).bind fun y₀ => boxMinusVal ε x.1 y y₀) =
            some (F d)) ∧
      F 0 = 0 ∧ HasFDerivAt F (linMap J) 0 := by
  have hno : ∀ u ∈ written ε e, u.addr = t.addr → u.ty = t.ty → u = t := by
    intro u hu h1 h2
    by_contra hne
    have hA := ha u hu hne
    obtain ⟨ua, uc, uτ⟩ := u
    obtain ⟨ta, tc, tτ⟩ := t
    dsimp only at h1 h2
    subst h1 h2
    have hc : ∃ c : Ty.Coef uτ, True := by
      cases uτ with
      | vec k => cases k <;> first | exact ⟨(0 : Fin _), trivial⟩ | exact ⟨.inl 0, trivial⟩
      | point => exact ⟨(0 : Fin 3), trivial⟩
      | rot k => cases k <;> first | exact ⟨(0 : Fin 4), trivial⟩ | exact ⟨(0, 0), trivial⟩ | exact ⟨none, trivial⟩
      | rigid k => cases k <;> first | exact ⟨(0, 0), trivial⟩ | exact ⟨.inl 0, trivial⟩
    obtain ⟨c, -⟩ := hc
    exact hA c c rfl
  obtain ⟨F, h1, h2, h3⟩ := c14_expression hε hε1 hm hp hx ht hno hJ
  refine ⟨F, ?_, h2, h3⟩
  filter_upwards [h1] with d hd
  rw [← hd]
  congr 1
  funext v
  have : x.2.eval (L := geoLib ε) (view Γ (w v)) =
      x.2.eval (Store.set (L := geoLib ε) (view Γ h) t.addr t.ty v) := by
    refine eval_congr x.2 fun u hu => ?_
    obtain ⟨he, -, -⟩ := elab_written e hx
    by_cases hut : u = t
    · subst hut
      rw [(hw v).view_eq]
      exact (Store.set_get (L := geoLib ε) _ _ _ _).symm
    · rw [(hw v).view_apart (ha u (he ▸ hu) hut)]
      refine (Store.set_of_ne (L := geoLib ε) _ _ ?_).symm
      exact fun hh => hut (hno u (he ▸ hu) hh.1 hh.2.symm)
  rw [this]

/-- Memory with a value written to the cells of an object exists, and there is only one. -/
theorem overwritten_unique (Γ : Objects) (x : ℕ) (τ : Ty) (v : τ.Val) (h : Heap) :
    ∃! h', CellsHold Γ x τ v h h' := by
  refine ⟨storeFrom (cellOf Γ x τ) (τ.get v) τ.coefs h,
    ⟨fun c => storeFrom_held (cellOf_inj Γ x τ) _ c _ h (coefs_complete τ c),
      fun k hk => storeFrom_keeps _ _ k _ h fun c _ => hk c⟩, fun h' H => ?_⟩
  funext k
  by_cases hk : ∃ c, cellOf Γ x τ c = k
  · obtain ⟨c, rfl⟩ := hk
    rw [H.held, storeFrom_held (cellOf_inj Γ x τ) _ c _ h (coefs_complete τ c)]
  · have hk' : ∀ c, cellOf Γ x τ c ≠ k := fun c hc => hk ⟨c, hc⟩
    rw [H.kept k hk', storeFrom_keeps _ _ k _ h fun c _ => hk' c]

/-! ## What goes wrong when objects overlap -/

/-- Objects for the cases below: translations that map cells 0-2 (objects 1 and 3) and 1-3 (object 2),
and a
quaternion rotation in cells 10-13 (object 4), mapped by
object 5; object 6 is a translation with storage of its own. -/
def exObjects : Objects
  | 1 => ⟨.vec .trans, .map, 0⟩
  | 2 => ⟨.vec .trans, .map, 1⟩
  | 3 => ⟨.vec .trans, .map, 0⟩
  | 4 => ⟨.rot .quat, .own, 10⟩
  | 5 => ⟨.rot .quat, .map, 10⟩
  | 6 => ⟨.vec .trans, .own, 30⟩
  | _ => ⟨.point, .own, 20⟩

/-- **C58 (counterexample).** `t2 = t1` for two mapped translations, of which `t2` begins one cell
later: Eigen's loop, one coefficient after the other, fills `t2` with the first coefficient of `t1`,
whereas `t2 = t1 + zero`, say, would be right (`c58_assign`). -/
theorem c58_copy_overlap (ε : ℝ) (h : Heap) (cs : List (Fin 3)) :
    ∃ h', assignMapped ε exObjects 2 (.leaf 1 0 (.vec .trans)) (scalarLoop (List.finRange 3)) cs h =
        some h' ∧ view exObjects h' 2 (.vec .trans) = (fun _ => h 0 : V3) := by
  refine ⟨_, assignMapped_copy (Γ := exObjects) (x := 2) (b := 1) (c := 0) (by decide) rfl rfl _ cs h, ?_⟩
  refine get_inj (τ := .vec .trans) fun c => (get_view _ _ _ _ _).trans ?_
  change Fin 3 at c
  fin_cases c <;> rfl

/-- **C58 (Jacobians with respect to one of two maps).** The Jacobian is taken with respect to the
leaf object, not with respect to memory: of the sum of two leaves that map the same cells, the
Jacobian with respect to one of them is the identity, although writing `v` to those cells makes the
sum `2 v`. -/
theorem c58_jacobian_shared (ε : ℝ) (h : Heap) :
    ∃ x, (SExpr.leaf 1 0 (.vec .trans) + .leaf 3 0 (.vec .trans)).elab ε =
        some (⟨.vec .trans, x⟩ : Tree ε) ∧
      x.jacobianAuto (L := geoLib ε) (view exObjects h) ⟨1, 0, .vec .trans⟩ =
        some (1 : Matrix (Fin 3) (Fin 3) ℝ) ∧
      ∀ (v : V3) (h' : Heap), CellsHold exObjects 1 (.vec .trans) v h h' →
        x.eval (L := geoLib ε) (view exObjects h') = some (v + v) := by
  refine ⟨_, rfl, ?_, fun v h' H => ?_⟩
  · refine (c20_auto (L := geoLib ε) (view exObjects h) ⟨1, 0, .vec .trans⟩ _
      (List.mem_cons_self ..) (.inl rfl)).trans ?_
    have o3 : occurrences (L := geoLib ε) (view exObjects h) ⟨1, 0, .vec .trans⟩
        (gleaf ε 3 0 (.vec .trans)) = [] :=
      occ_leaf_ne (L := geoLib ε) _ fun hh => by cases congrArg Target.addr hh
    refine (congrArg total (congrArg₂ (· ++ ·)
      (congrArg (List.map _) (occ_leaf_self (L := geoLib ε) _ 1 0 (.vec .trans)))
      (congrArg (List.map _) o3))).trans ?_
    refine (@add_zero (OMat (Fin 3) (Fin 3)) _ _).trans ?_
    exact congrArg some (one_mul (1 : M3))
  · have h1 := (c58_others H).1
    have e1 : view exObjects h' 1 (.vec .trans) = v := h1 1 rfl
    have e3 : view exObjects h' 3 (.vec .trans) = v := h1 3 rfl
    change some (view exObjects h' 1 (.vec .trans) + view exObjects h' 3 (.vec .trans)) = _
    rw [e1, e3]

/-! ## Cases -/

theorem exObjects_quat (h : Heap) : view exObjects h 5 (.rot .quat) = ⟨h 13, h 10, h 11, h 12⟩ := rfl

/-- `t2 = t1 + t2` with overlapping operands. -/
example (h : Heap) : ∃ h', assignMapped ε exObjects 2
    (.bin .add (.leaf 1 0 (.vec .trans)) (.leaf 2 0 (.vec .trans))) [] (List.finRange 3) h = some h' ∧
    view exObjects h' 2 (.vec .trans) = (![h 0 + h 1, h 1 + h 2, h 2 + h 3] : V3) := by
  have hv : (SExpr.un (.to (.vec .trans))
      (.bin .add (.leaf 1 0 (.vec .trans)) (.leaf 2 0 (.vec .trans)))).value ε (view exObjects h) =
      some ⟨.vec .trans, (view exObjects h 1 (.vec .trans) + view exObjects h 2 (.vec .trans) : V3)⟩ :=
    rfl
  obtain ⟨h', H⟩ := c58_accepted (Γ := exObjects) (x := 2) [] (List.finRange 3) (by decide)
    (by decide) (by decide) hv
  refine ⟨h', H, ?_⟩
  obtain ⟨v, h1, h2⟩ := c58_assign (Γ := exObjects) (x := 2) (fun c => List.mem_finRange c)
    (by rintro b c ⟨⟩) H
  cases hv.symm.trans h1
  refine h2.view_eq.trans ?_
  refine funext fun i : Fin 3 => ?_
  fin_cases i <;> rfl

/-- `r = inverse(q)` where `r` maps the very quaternion `q`: as in rotation_misc_test.cpp:19-31, both
then show the inverse. -/
example (hε : 0 < ε) (h : Heap) (hu : h 13 ^ 2 + h 10 ^ 2 + h 11 ^ 2 + h 12 ^ 2 = 1) :
    ∃ h', assignMapped ε exObjects 5 (.un .inverse (.leaf 4 0 (.rot .quat))) [] (List.finRange 4) h =
        some h' ∧ Valid (.rot .quat) (view exObjects h' 5 (.rot .quat)) ∧
      view exObjects h' 4 (.rot .quat) = view exObjects h' 5 (.rot .quat) := by
  have hval : Valid (.rot .quat) (view exObjects h 4 (.rot .quat)) := by
    refine (validRot_quat _).mpr ?_
    exact hu
  obtain ⟨h', H, h1, -⟩ := c58_meaning (Γ := exObjects) (x := 5) hε [] (cs := List.finRange 4)
    (fun c => List.mem_finRange c) (by decide) (by decide) (by decide) (by rintro b c ⟨⟩)
    (.inverseRot (.leaf 4 0 (.rot .quat) hval)) ⟨.quat, rfl⟩
  exact ⟨h', H, h1, rfl⟩

/-- A copy of the mapped rotation follows the quaternion. -/
example (h h' : Heap) : view (copyConstruct exObjects 9 5 100 (List.finRange 4) h).1 h' 9 (.rot .quat) =
    view exObjects h' 4 (.rot .quat) := rfl

example : NoSharedCell exObjects 1 (.vec .trans) 4 (.rot .quat) ∧
    ¬ NoSharedCell exObjects 1 (.vec .trans) 2 (.vec .trans) ∧ (exObjects 2).base ≠ (exObjects 1).base := by
  refine ⟨?_, fun h => h (1 : Fin 3) (0 : Fin 3) rfl, by decide⟩
  intro c d
  change Fin 3 at c
  change Fin 4 at d
  fin_cases c <;> fin_cases d <;> decide

/-- A mapped and an owning translation: the hypotheses of `c58_jacobian` hold. -/
example (h : Heap) : ∃ (w : V3 → Heap) (x : Tree ε) (J : Matrix x.1.Idx (Fin 3) ℝ),
    (∀ v, CellsHold exObjects 1 (.vec .trans) v h (w v)) ∧
    (SExpr.bin .add (.leaf 1 0 (.vec .trans)) (.leaf 6 0 (.vec .trans))).elab ε = some x ∧
    (∀ u ∈ written ε (.bin .add (.leaf 1 0 (.vec .trans)) (.leaf 6 0 (.vec .trans))),
      u ≠ ⟨1, 0, .vec .trans⟩ → NoSharedCell exObjects u.addr u.ty 1 (.vec .trans)) ∧
    x.2.jacobianAuto (L := geoLib ε) (view exObjects h) ⟨1, 0, .vec .trans⟩ = some J := by
  refine ⟨fun v => (overwritten_unique exObjects 1 (.vec .trans) v h).choose, _, (1 : M3),
    fun v => (overwritten_unique exObjects 1 (.vec .trans) v h).choose_spec.1, rfl, ?_, ?_⟩
  · intro u hu hne
    change u ∈ [_, _] at hu
    simp only [List.mem_cons, List.not_mem_nil, or_false] at hu
    rcases hu with rfl | rfl
    · exact absurd rfl hne
    · intro c d
      change Fin 3 at c
      change Fin 3 at d
      change 30 + c.val ≠ 0 + d.val
      omega
  · have o6 : occurrences (L := geoLib ε) (view exObjects h) ⟨1, 0, .vec .trans⟩
        (gleaf ε 6 0 (.vec .trans)) = [] :=
      occ_leaf_ne (L := geoLib ε) _ fun hh => by cases congrArg Target.addr hh
    refine (c20_auto (L := geoLib ε) (view exObjects h) ⟨1, 0, .vec .trans⟩ _
      (List.mem_cons_self ..) (.inl rfl)).trans ?_
    refine (congrArg total (congrArg₂ (· ++ ·)
      (congrArg (List.map _) (occ_leaf_self (L := geoLib ε) _ 1 0 (.vec .trans)))
      (congrArg (List.map _) o6))).trans ?_
    refine (@add_zero (OMat (Fin 3) (Fin 3)) _ _).trans ?_
    exact congrArg some (one_mul (1 : M3))

end WG
