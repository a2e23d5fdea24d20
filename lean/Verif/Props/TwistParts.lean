import Verif.Props.MapLeaf

/-!
# C59: the rotation and translation parts of a twist; swapping leaves

`xi.rotation()` and `xi.translation()` are leaf objects whose storage is a block of that of `xi`.
-/

namespace WG
open Matrix Spec

variable {ε : ℝ}

/-! ## The parts read the twist -/

/-- **C59 (parts).** At any time `xi.rotation()` has the first three coefficients of `xi`, and
`xi.translation()` has the last three, however long ago the part was taken. -/
theorem c59_parts {Γ : Objects} {x p q : ℕ} {b c : Bool} (hp : Γ p = twistRotation b (Γ x))
    (hq : Γ q = twistTranslation c (Γ x)) (h : Heap) (i : Fin 3) :
    (view Γ h p (.vec .relrot) : V3) i = (view Γ h x (.vec .twist) : Twist) (.inl i) ∧
      (view Γ h q (.vec .trans) : V3) i = (view Γ h x (.vec .twist) : Twist) (.inr i) := by
  unfold view
  rw [hp, hq]
  refine ⟨rfl, ?_⟩
  change h ((Γ x).base + 3 + i.val) = h ((Γ x).base + (3 + i.val))
  rw [add_assoc]

/-- **C59 (live parts).** An expression that was built from the parts of a twist has, when it is
evaluated, the value of the parts at that time: after `xi` is assigned the twist `v`, the parts are
those of `v`. -/
theorem c59_live {Γ : Objects} {x p q : ℕ} {b c : Bool} (hp : Γ p = twistRotation b (Γ x))
    (hq : Γ q = twistTranslation c (Γ x)) {v : Twist} {h h' : Heap}
    (H : CellsHold Γ x (.vec .twist) v h h') :
    view Γ h' p (.vec .relrot) = (fun i => v (.inl i) : V3) ∧
      view Γ h' q (.vec .trans) = (fun i => v (.inr i) : V3) := by
  have hv : view Γ h' x (.vec .twist) = v := H.view_eq
  constructor
  · funext i
    exact ((c59_parts hp hq h' i).1).trans (congrFun hv _)
  · funext i
    exact ((c59_parts hp hq h' i).2).trans (congrFun hv _)

/-- `Twist(rr, t)`: its parts are `rr` and `t`, in that order, and nothing else changes. -/
theorem c59_construct (Γ : Objects) (x fresh : ℕ) (rr t : V3) (h : Heap) {Γ' : Objects} {h' : Heap}
    (H : constructTwist Γ x fresh rr t h = (Γ', h')) :
    CellsHold Γ' x (.vec .twist) (Sum.elim rr t : Twist) h h' := by
  cases H
  have hx : Function.update Γ x ⟨.vec .twist, .own, fresh⟩ x = ⟨.vec .twist, .own, fresh⟩ :=
    Function.update_self _ _ _
  have i1 : Function.Injective fun i : Fin 3 => fresh + i.val := fun a b e =>
    Fin.ext (Nat.add_left_cancel e)
  have i2 : Function.Injective fun i : Fin 3 => fresh + (3 + i.val) := fun a b e =>
    Fin.ext (Nat.add_left_cancel (Nat.add_left_cancel e))
  constructor
  · intro c
    unfold cellOf
    rw [hx]
    rcases c with i | i
    · refine (storeFrom_keeps _ _ _ _ _ fun j _ => ?_).trans
        (storeFrom_held i1 rr i _ h (List.mem_finRange i))
      change fresh + (3 + j.val) ≠ fresh + i.val
      omega
    · exact storeFrom_held i2 t i _ _ (List.mem_finRange i)
  · intro k hk
    unfold cellOf at hk
    rw [hx] at hk
    refine (storeFrom_keeps _ _ k _ _ fun j _ => hk (.inr j)).trans
      (storeFrom_keeps _ _ k _ _ fun j _ => hk (.inl j))

/-- **C59 (documentation).** The class comment (Twist.hpp:16-17) has the translation first.  It is the
rotation that is first: a twist made of different vectors tells them apart. -/
theorem c59_documentation (Γ : Objects) (x fresh : ℕ) (h : Heap) {rr t : V3} (hne : rr ≠ t) :
    let s := constructTwist Γ x fresh rr t h
    (fun i => s.2 (fresh + i.val) : V3) = rr ∧ (fun i => s.2 (fresh + i.val) : V3) ≠ t := by
  have H := c59_construct Γ x fresh rr t h (Γ' := (constructTwist Γ x fresh rr t h).1)
    (h' := (constructTwist Γ x fresh rr t h).2) rfl
  have hb : ((constructTwist Γ x fresh rr t h).1 x).base = fresh := by
    unfold constructTwist
    simp
  have h1 : (fun i => (constructTwist Γ x fresh rr t h).2 (fresh + i.val) : V3) = rr := by
    funext i
    have := H.held (.inl i)
    unfold cellOf at this
    rw [hb] at this
    exact this
  exact ⟨h1, fun e => hne (h1.symm.trans e)⟩

/-! ## Assignments to a part -/

/-- **C59.** `xi.rotation() = e` writes the value of `e` into the rotation part of the twist; the
translation part, and every object that has no cell in common with the rotation part, keeps its value.
This holds also when `e` reads the twist or its parts. -/
theorem c59_assign_rotation {Γ : Objects} {x p : ℕ} {b : Bool} (hp : Γ p = twistRotation b (Γ x))
    {e : SExpr} {l : List (Act (Γ p).ty.Coef)} {cs : List (Γ p).ty.Coef} {h h' : Heap}
    (hcs : ∀ c, c ∈ cs) (he : ∀ a c, e = .leaf a c (.vec .relrot) → (Γ a).sto ≠ (Γ p).sto)
    (H : assignMapped ε Γ p e l cs h = some h') :
    ∃ v : V3, (SExpr.un (.to (.vec .relrot)) e).value ε (view Γ h) = some ⟨.vec .relrot, v⟩ ∧
      view Γ h' x (.vec .twist) =
        (Sum.elim v fun i => (view Γ h x (.vec .twist) : Twist) (.inr i) : Twist) ∧
      ∀ y σ, NoSharedCell Γ y σ p (.vec .relrot) → view Γ h' y σ = view Γ h y σ := by
  have hty : (Γ p).ty = .vec .relrot := by rw [hp]; rfl
  have hb : (Γ p).base = (Γ x).base := by rw [hp]; rfl
  obtain ⟨v, hv, hC⟩ := c58_assign hcs (hty ▸ he) H
  clear H
  generalize (Γ p).ty = τ at v hv hC hty
  subst hty
  refine ⟨v, hv, get_inj (τ := .vec .twist) fun c => ?_, fun y σ hy => hC.view_apart hy⟩
  rw [get_view]
  rcases c with i | i
  · have := hC.held i
    unfold cellOf at this ⊢
    rw [hb] at this
    exact this
  · refine hC.kept _ fun c => ?_
    unfold cellOf
    rw [hb]
    change Fin 3 at c
    change (Γ x).base + c.val ≠ (Γ x).base + (3 + i.val)
    omega

/-- **C59.** `xi.translation() = e`, likewise. -/
theorem c59_assign_translation {Γ : Objects} {x q : ℕ} {b : Bool}
    (hq : Γ q = twistTranslation b (Γ x))
    {e : SExpr} {l : List (Act (Γ q).ty.Coef)} {cs : List (Γ q).ty.Coef} {h h' : Heap}
    (hcs : ∀ c, c ∈ cs) (he : ∀ a c, e = .leaf a c (.vec .trans) → (Γ a).sto ≠ (Γ q).sto)
    (H : assignMapped ε Γ q e l cs h = some h') :
    ∃ v : V3, (SExpr.un (.to (.vec .trans)) e).value ε (view Γ h) = some ⟨.vec .trans, v⟩ ∧
      view Γ h' x (.vec .twist) =
        (Sum.elim (fun i => (view Γ h x (.vec .twist) : Twist) (.inl i)) v : Twist) ∧
      ∀ y σ, NoSharedCell Γ y σ q (.vec .trans) → view Γ h' y σ = view Γ h y σ := by
  have hty : (Γ q).ty = .vec .trans := by rw [hq]; rfl
  have hb : (Γ q).base = (Γ x).base + 3 := by rw [hq]; rfl
  obtain ⟨v, hv, hC⟩ := c58_assign hcs (hty ▸ he) H
  clear H
  generalize (Γ q).ty = τ at v hv hC hty
  subst hty
  refine ⟨v, hv, get_inj (τ := .vec .twist) fun c => ?_, fun y σ hy => hC.view_apart hy⟩
  rw [get_view]
  rcases c with i | i
  · refine hC.kept _ fun c => ?_
    unfold cellOf
    rw [hb]
    change Fin 3 at c
    change (Γ x).base + 3 + c.val ≠ (Γ x).base + i.val
    omega
  · have := hC.held i
    unfold cellOf at this ⊢
    rw [hb, add_assoc] at this
    exact this

/-- **C59 (constant twists).** Nothing can be assigned to a part of a constant twist, nor to a part of
a twist that maps constants. -/
theorem c59_const_rejected {Γ : Objects} {x p : ℕ} {b : Bool}
    (hp : Γ p = twistRotation b (Γ x) ∨ Γ p = twistTranslation b (Γ x))
    (hb : b = true ∨ (Γ x).sto.readOnly = true) (e : SExpr) (l : List (Act (Γ p).ty.Coef))
    (cs : List (Γ p).ty.Coef) (h : Heap) : assignMapped ε Γ p e l cs h = none := by
  refine c58_const_rejected ?_ e l cs h
  have : (Γ p).sto = if b then .constBlock (Γ x).sto else .block (Γ x).sto := by
    rcases hp with hp | hp <;> rw [hp] <;> rfl
  rw [this]
  cases b with
  | true => rfl
  | false => exact hb.resolve_left (by simp)

/-! ## Differentiation with respect to the twist -/

/-- **C59 (Jacobians).** An expression that reads parts of a twist does not contain the twist: if it
contains no leaf of the class of `xi`, then `jacobian(xi)` is zero, although the value of the
expression may depend on `xi` (`c59_jacobian_missed`). -/
theorem c59_jacobian_zero {Γ : Objects} {h : Heap} {τ : Ty} {e : Expr (geoLib ε) τ}
    (hp : e.noProxy) {x c : ℕ} (hx : ∀ o ∈ objects e, o.ty ≠ .vec .twist) :
    e.jacobianAuto (L := geoLib ε) (view Γ h) ⟨x, c, Ty.vec .twist⟩ = 0 := by
  refine c19_absent_partial (L := geoLib ε) (view Γ h) ⟨x, c, Ty.vec .twist⟩ e
    (fun hm => hx _ hm rfl) (.inl hp) fun hh => ?_
  obtain ⟨o, ho, hoe⟩ := List.mem_map.mp hh.2
  exact hx o ho (congrArg Prod.fst hoe)

/-- Objects for the cases below: a twist in cells 0-5 (object 1), its parts (objects 2 and 3), a
translation in cells 10-12 (object 4) and a relative rotation in cells 20-22 (object 5). -/
def exTwist : Objects
  | 1 => ⟨.vec .twist, .own, 0⟩
  | 2 => twistRotation false ⟨.vec .twist, .own, 0⟩
  | 3 => twistTranslation false ⟨.vec .twist, .own, 0⟩
  | 4 => ⟨.vec .trans, .own, 10⟩
  | 5 => ⟨.vec .relrot, .own, 20⟩
  | _ => ⟨.point, .own, 30⟩

/-- **C59 (counterexample).** `e = xi.translation() + t`: `jacobian(e, xi)` is zero, yet assigning to
`xi` the twist `v` changes the value of `e` by the change of the translation part. -/
theorem c59_jacobian_missed (ε : ℝ) (h : Heap) :
    ∃ x, (SExpr.bin .add (.leaf 3 0 (.vec .trans)) (.leaf 4 0 (.vec .trans))).elab ε =
        some (⟨.vec .trans, x⟩ : Tree ε) ∧
      x.jacobianAuto (L := geoLib ε) (view exTwist h) ⟨1, 0, Ty.vec .twist⟩ = 0 ∧
      ∀ (v : Twist) (h' : Heap), CellsHold exTwist 1 (.vec .twist) v h h' →
        x.eval (L := geoLib ε) (view exTwist h') =
          some ((fun i => v (.inr i) : V3) + view exTwist h 4 (.vec .trans)) := by
  refine ⟨_, rfl, c59_jacobian_zero rfl ?_, fun v h' H => ?_⟩
  · intro o ho
    change o ∈ [_, _] at ho
    simp only [List.mem_cons, List.not_mem_nil, or_false] at ho
    rcases ho with rfl | rfl <;> exact fun hh => nomatch hh
  · have h1 := (c59_live (Γ := exTwist) (x := 1) (p := 2) (q := 3) (b := false) (c := false) rfl rfl H).2
    have h2 : view exTwist h' 4 (.vec .trans) = view exTwist h 4 (.vec .trans) := by
      refine H.view_apart fun c d => ?_
      change Fin 3 at c
      change Fin 3 ⊕ Fin 3 at d
      revert c d
      decide
    rw [← h1, ← h2]
    rfl

/-! ## Swapping -/

/-- Copying in place between leaves of one class that have no cell in common. -/
theorem copy_effect {Γ : Objects} {x y c : ℕ} (hx : (Γ x).sto.readOnly = false)
    (ht : (Γ y).ty = (Γ x).ty) (hs : (Γ y).sto = (Γ x).sto)
    (ha : (Γ y).base = (Γ x).base ∨ NoSharedCell Γ x (Γ x).ty y (Γ x).ty)
    (cs : List (Γ x).ty.Coef) {l : List (Act (Γ x).ty.Coef)} (hl : Sched l) (h : Heap) :
    ∃ h', assignMapped ε Γ x (.leaf y c (Γ x).ty) l cs h = some h' ∧
      CellsHold Γ x (Γ x).ty (view Γ h y (Γ x).ty) h h' :=
  (c58_copy_iff hx ht hs cs).mpr ha l hl h

/-- **C59 (swap).** `std::swap(x, y)` of two leaves of one class without common cells: `x` gets the
value of `y`.  If they own their storage, `y` gets the value of `x`.  If they are maps or blocks, as
the parts of twists are, the temporary of `std::swap` refers to the cells of `x`, and `y` keeps its
value: the value of `x` is lost. -/
theorem c59_swap {Γ : Objects} {x y k fresh : ℕ} (hkx : k ≠ x) (hky : k ≠ y)
    (hw : (Γ x).sto.readOnly = false) (ht : (Γ y).ty = (Γ x).ty) (hs : (Γ y).sto = (Γ x).sto)
    (ha : NoSharedCell Γ x (Γ x).ty y (Γ x).ty)
    (hf : (Γ x).sto = .own → ∀ c d, fresh + (Γ x).ty.ofs c ≠ cellOf Γ x (Γ x).ty d ∧
      fresh + (Γ x).ty.ofs c ≠ cellOf Γ y (Γ x).ty d)
    {cs : List (Γ x).ty.Coef} (hcs : ∀ c, c ∈ cs) {l₁ l₂ : (τ : Ty) → List (Act τ.Coef)}
    (hl₁ : ∀ τ, Sched (l₁ τ)) (hl₂ : ∀ τ, Sched (l₂ τ)) (h : Heap) :
    ∃ h', swapLeaves ε Γ x y k fresh cs l₁ l₂ h = some h' ∧
      view Γ h' x (Γ x).ty = view Γ h y (Γ x).ty ∧
      view Γ h' y (Γ x).ty =
        if (Γ x).sto = .own then view Γ h x (Γ x).ty else view Γ h y (Γ x).ty := by
  obtain ⟨Γ', h₁, hc⟩ : ∃ Γ' h₁, copyConstruct Γ k x fresh cs h = (Γ', h₁) := ⟨_, _, rfl⟩
  have hΓ : ∀ z, z ≠ k → Γ' z = Γ z := by
    intro z hz
    unfold copyConstruct at hc
    split at hc <;> cases hc <;> exact Function.update_of_ne hz _ _
  have hbase : (Γ' k).base = if (Γ x).sto = .own then fresh else (Γ x).base := by
    unfold copyConstruct at hc
    split at hc
    · next e => cases hc; rw [if_pos e]; simp
    · next e => cases hc; rw [if_neg e]; simp
  obtain ⟨kt, ks, kv, knon, kown⟩ := c58_copy_construct Γ hkx.symm fresh cs hcs h hc
  have ex := hΓ x hkx.symm
  have ey := hΓ y hky.symm
  have vx : ∀ m τ, view Γ' m x τ = view Γ m x τ := fun m τ => by unfold view; rw [ex]
  have vy : ∀ m τ, view Γ' m y τ = view Γ m y τ := fun m τ => by unfold view; rw [ey]
  have cx : ∀ τ c, cellOf Γ' x τ c = cellOf Γ x τ c := fun τ c => by unfold cellOf; rw [ex]
  have cy : ∀ τ c, cellOf Γ' y τ c = cellOf Γ y τ c := fun τ c => by unfold cellOf; rw [ey]
  -- the temporary leaves `x` and `y` alone
  have keep : ∀ z, (z = x ∨ z = y) → view Γ h₁ z (Γ x).ty = view Γ h z (Γ x).ty := by
    intro z hz
    by_cases ho : (Γ x).sto = .own
    · refine get_inj fun d => ?_
      rw [get_view, get_view]
      refine kown ho _ fun c => ?_
      have : cellOf Γ' k (Γ x).ty c = fresh + (Γ x).ty.ofs c := by
        unfold cellOf; rw [hbase, if_pos ho]
      rw [this]
      rcases hz with rfl | rfl
      · exact (hf ho c d).1
      · exact (hf ho c d).2
    · rw [(knon ho).1]
  have etx : (Γ' x).ty = (Γ x).ty := by rw [ex]
  have ety : (Γ' y).ty = (Γ x).ty := by rw [ey, ht]
  have apart : NoSharedCell Γ' x (Γ x).ty y (Γ x).ty := fun c d => by
    rw [cx, cy]
    exact ha c d
  have kapart : (Γ x).sto = .own → ∀ z, (z = x ∨ z = y) →
      NoSharedCell Γ' k (Γ x).ty z (Γ x).ty := by
    intro ho z hz c d
    have : cellOf Γ' k (Γ x).ty c = fresh + (Γ x).ty.ofs c := by
      unfold cellOf; rw [hbase, if_pos ho]
    rw [this]
    rcases hz with rfl | rfl
    · rw [cx]; exact (hf ho c d).1
    · rw [cy]; exact (hf ho c d).2
  obtain ⟨h₂, A₂, H₂⟩ := copy_effect (ε := ε) (Γ := Γ') (x := x) (y := y) (c := 0) (by rw [ex]; exact hw)
    (by rw [etx, ety]) (by rw [ex, ey, hs]) (.inr (by rw [etx]; exact apart)) [] (hl₁ _) h₁
  rw [etx] at H₂
  have ha₂ : (Γ' k).base = (Γ' y).base ∨ NoSharedCell Γ' y (Γ x).ty k (Γ x).ty := by
    refine .inr fun c d hcd => ?_
    by_cases ho : (Γ x).sto = .own
    · exact kapart ho y (.inr rfl) d c hcd.symm
    · refine apart d c (.trans ?_ hcd.symm)
      unfold cellOf
      rw [hbase, if_neg ho, ex]
  obtain ⟨h₃, A₃, H₃⟩ := copy_effect (ε := ε) (Γ := Γ') (x := y) (y := k) (c := 0)
    (by rw [ey, hs]; exact hw) (by rw [ety, kt]) (by rw [ks, ey, hs]) (by rw [ety]; exact ha₂) []
    (hl₂ _) h₂
  rw [ety] at H₃
  refine ⟨h₃, ?_, ?_, ?_⟩
  · unfold swapLeaves
    rw [hc]
    change (assignMapped ε Γ' x _ _ _ h₁).bind _ = _
    rw [A₂, Option.bind_some]
    exact A₃
  · rw [← vx, H₃.view_apart apart, H₂.view_eq, vy, keep y (.inr rfl)]
  · rw [← vy, H₃.view_eq]
    split_ifs with ho
    · rw [H₂.view_apart (kapart ho x (.inl rfl)), kv]
    · rw [(knon ho).2 h₂, H₂.view_eq, vy, keep y (.inr rfl)]

/-! ## Cases -/

/-- `xi.rotation() = xi.rotation() + w`: the rotation part is read before it is written. -/
example (ε : ℝ) (h : Heap) : ∃ h', assignMapped ε exTwist 2
    (.bin .add (.leaf 2 0 (.vec .relrot)) (.leaf 5 0 (.vec .relrot))) [] (List.finRange 3) h =
      some h' ∧
    view exTwist h' 1 (.vec .twist) =
      (Sum.elim ![h 0 + h 20, h 1 + h 21, h 2 + h 22] ![h 3, h 4, h 5] : Twist) := by
  have hv : (SExpr.un (.to (.vec .relrot))
      (.bin .add (.leaf 2 0 (.vec .relrot)) (.leaf 5 0 (.vec .relrot)))).value ε (view exTwist h) =
      some ⟨.vec .relrot,
        (view exTwist h 2 (.vec .relrot) + view exTwist h 5 (.vec .relrot) : V3)⟩ := rfl
  obtain ⟨h', H⟩ := c58_accepted (Γ := exTwist) (x := 2) [] (List.finRange 3) (by decide)
    (by decide) (by decide) hv
  refine ⟨h', H, ?_⟩
  obtain ⟨v, h1, h2, -⟩ := c59_assign_rotation (Γ := exTwist) (x := 1) (p := 2) (b := false) rfl
    (fun c => List.mem_finRange c) (by rintro a c ⟨⟩) H
  rw [hv] at h1
  cases h1
  rw [h2]
  funext c
  rcases c with i | i <;> fin_cases i <;> rfl

/-- Two twists' rotation parts, in cells 0-2 and 6-8: the hypotheses of `c59_swap` hold, and the first
value is lost. -/
example (ε : ℝ) (h : Heap) :
    let Γ : Objects := fun n => twistRotation false ⟨.vec .twist, .own, 6 * n⟩
    let l : (τ : Ty) → List (Act τ.Coef) := fun τ => scalarLoop τ.coefs
    ∃ h', swapLeaves ε Γ 0 1 2 100 (List.finRange 3) l l h = some h' ∧
      view Γ h' 0 (.vec .relrot) = view Γ h 1 (.vec .relrot) ∧
      view Γ h' 1 (.vec .relrot) = view Γ h 1 (.vec .relrot) := by
  intro Γ l
  have hl : ∀ τ, Sched (l τ) := fun τ => sched_scalarLoop (coefs_nodup τ) (coefs_complete τ)
  refine c59_swap (Γ := Γ) (x := 0) (y := 1) (by decide) (by decide) rfl rfl rfl ?_
    (fun h => nomatch h) (fun c => List.mem_finRange c) hl hl h
  intro c d
  change Fin 3 at c d
  change 6 * 0 + c.val ≠ 6 * 1 + d.val
  omega

/-- Two owning translations are exchanged. -/
example (ε : ℝ) (h : Heap) :
    let Γ : Objects := fun n => ⟨.vec .trans, .own, 3 * n⟩
    let l : (τ : Ty) → List (Act τ.Coef) := fun τ => scalarLoop τ.coefs
    ∃ h', swapLeaves ε Γ 0 1 2 6 (List.finRange 3) l l h = some h' ∧
      view Γ h' 0 (.vec .trans) = view Γ h 1 (.vec .trans) ∧
      view Γ h' 1 (.vec .trans) = view Γ h 0 (.vec .trans) := by
  intro Γ l
  have hl : ∀ τ, Sched (l τ) := fun τ => sched_scalarLoop (coefs_nodup τ) (coefs_complete τ)
  refine c59_swap (Γ := Γ) (x := 0) (y := 1) (by decide) (by decide) rfl rfl rfl ?_
    (fun _ => ?_) (fun c => List.mem_finRange c) hl hl h
  · intro c d
    change Fin 3 at c d
    change 3 * 0 + c.val ≠ 3 * 1 + d.val
    omega
  · intro c d
    change Fin 3 at c d
    change 6 + c.val ≠ 3 * 0 + d.val ∧ 6 + c.val ≠ 3 * 1 + d.val
    omega

/-- Nothing can be assigned to the parts of a constant twist. -/
example (ε : ℝ) (h : Heap) (e : SExpr) :
    let Γ : Objects := fun n => if n = 0 then ⟨.vec .twist, .own, 0⟩
      else twistTranslation true ⟨.vec .twist, .own, 0⟩
    assignMapped ε Γ 1 e [] [] h = none := by
  intro Γ
  exact c59_const_rejected (Γ := Γ) (x := 0) (p := 1) (b := true) (.inr rfl) (.inl rfl) e [] [] h

end WG
