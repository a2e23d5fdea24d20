import Verif.Lemmas.Frames
import Verif.Lemmas.NeutralPlain
import Verif.Props.Evaluation

/-!
# C63: which expressions can be wrapped in a dynamic node

`kind`, `exposed`, `differentiable`, `wrappable` and `handlesOk` (Verif/Spec/Wrap.lean) are read off the
expression as written.
-/

namespace WG
open Matrix Spec

variable {ε : ℝ}

/-- **C63 (acceptance).** An expression is accepted by the compiler exactly if it is well kinded and
every dynamic node in it is made from an expression that can be wrapped. -/
theorem c63_compiles_iff (e : SExpr) :
    (e.elab ε).isSome ↔ (kind e).isSome ∧ handlesOk e = true := elab_isSome e

/-- **C63 (wrapping).** An accepted expression can be wrapped exactly if its derivative with respect to
no handle in it is the identity by construction, and it takes no `translation()` of a rotation. -/
theorem c63_wrap_iff (a : ℕ) (e : SExpr) :
    ((SExpr.dynamic a e).elab ε).isSome ↔ (e.elab ε).isSome ∧ wrappable e = true := by
  rw [elab_isSome, elab_isSome]
  change (kind e).isSome ∧ (handlesOk e && wrappable e) = true ↔ _
  rw [Bool.and_eq_true]
  tauto

/-- **C63 (no handle to a handle).** -/
theorem c63_handle_of_handle (a b : ℕ) (e : SExpr) : (SExpr.dynamic a (.dynamic b e)).elab ε = none := by
  rw [← Option.not_isSome_iff_eq_none, c63_wrap_iff]
  exact fun h => Bool.noConfusion h.2

/-- **C63 (products).** A product of rotations or of rigid transforms whose left factor is a handle
cannot be wrapped. -/
theorem c63_composed_handle (a b : ℕ) {e f : SExpr} {κ : Kind} (hκ : κ = .rot ∨ κ = .motion)
    (he : kind e = some κ) (hf : kind f = some κ) :
    (SExpr.dynamic a (.dynamic b e * f)).elab ε = none := by
  rw [← Option.not_isSome_iff_eq_none, c63_wrap_iff]
  rintro ⟨-, h⟩
  have : exposed (.dynamic b e * f) = true := by
    change (true && (kind e == some .rot && kind f == some .rot ||
      kind e == some .motion && kind f == some .motion)) = true
    rw [he, hf]
    rcases hκ with rfl | rfl <;> rfl
  rw [wrappable, this] at h
  cases h

/-- **C63 (sums and differences).** Nor can a sum of vectors or points with a handle as either
summand, nor a difference with a handle as minuend. -/
theorem c63_sum_of_handle (a b : ℕ) (e f : SExpr) :
    (Flat (kind e) = true → (SExpr.dynamic a (.dynamic b e + f)).elab ε = none) ∧
    (Flat (kind f) = true → (SExpr.dynamic a (f + .dynamic b e)).elab ε = none) ∧
    (Flat (kind e) = true → (SExpr.dynamic a (.dynamic b e - f)).elab ε = none) := by
  refine ⟨fun h => ?_, fun h => ?_, fun h => ?_⟩ <;>
    (rw [← Option.not_isSome_iff_eq_none, c63_wrap_iff]; rintro ⟨-, h'⟩)
  · have : exposed (.dynamic b e + f) = true := by
      change (Flat (kind e) && (true || exposed f)) = true
      rw [h]; rfl
    rw [wrappable, this] at h'
    cases h'
  · have : exposed (f + .dynamic b e) = true := by
      change (Flat (kind f) && (exposed f || true)) = true
      rw [h, Bool.or_true]; rfl
    rw [wrappable, this] at h'
    cases h'
  · have : exposed (.dynamic b e - f) = true := by
      change (Flat (kind e) && true) = true
      rw [h]; rfl
    rw [wrappable, this] at h'
    cases h'

/-- **C63 (accepted uses of a handle).** With accepted operands, these can be wrapped again, handle or
not: a handle acting on a vector or acted on, the right factor of a product, a negated, inverted,
normalised or scaled operand, both operands of box-plus and box-minus. -/
theorem c63_accepted (a : ℕ) {e f : SExpr} (he : ((e.elab ε)).isSome) (hf : (f.elab ε).isSome)
    (de : differentiable e = true) (df : differentiable f = true) :
    (kind e = some .rot ∨ kind e = some .motion → kind f = some (.vec .trans) →
      ((SExpr.dynamic a (e * f)).elab ε).isSome) ∧
    (kind e = kind f → kind f = some .rot ∨ kind f = some .motion → exposed e = false →
      ((SExpr.dynamic a (e * f)).elab ε).isSome) ∧
    ((∃ k, kind e = some (.vec k)) → ((SExpr.dynamic a (-e)).elab ε).isSome) ∧
    (kind e = some .rot ∨ kind e = some .motion → ((SExpr.dynamic a e⁻¹).elab ε).isSome) ∧
    ((∃ k, kind e = some (.vec k)) → kind f = some (.vec .scalar) →
      ((SExpr.dynamic a (f * e)).elab ε).isSome ∧ ((SExpr.dynamic a (e * f)).elab ε).isSome ∧
        ((SExpr.dynamic a (e / f)).elab ε).isSome) ∧
    (kind e = some .rot ∧ kind f = some (.vec .relrot) ∨ kind e = some .motion ∧ kind f = some (.vec .twist) →
      ((SExpr.dynamic a (e + f)).elab ε).isSome) ∧
    (kind e = some .rot ∧ kind f = some .rot ∨ kind e = some .motion ∧ kind f = some .motion →
      ((SExpr.dynamic a (e - f)).elab ε).isSome) := by
  rw [elab_isSome] at he hf
  have key : ∀ {g : SExpr}, (kind g).isSome → handlesOk g = true → exposed g = false →
      differentiable g = true → ((SExpr.dynamic a g).elab ε).isSome := by
    intro g h1 h2 h3 h4
    rw [c63_wrap_iff, elab_isSome]
    exact ⟨⟨h1, h2⟩, by simp [wrappable, h3, h4]⟩
  have bin : ∀ (op : BOp) (g h : SExpr) {κ κ' : Kind}, handlesOk g = true → handlesOk h = true →
      differentiable g = true → differentiable h = true → kind g = some κ → kind h = some κ' →
      (kindBin op κ κ').isSome → exposed (.bin op g h) = false →
      ((SExpr.dynamic a (.bin op g h)).elab ε).isSome := by
    intro op g h κ κ' h1 h2 h3 h4 h5 h6 h7 h8
    refine key ?_ (by simp [handlesOk, h1, h2]) h8 (by simp [differentiable, h3, h4])
    change ((kind g).bind fun x => (kind h).bind fun y => kindBin op x y).isSome
    rw [h5, h6]
    exact h7
  refine ⟨?_, ?_, ?_, ?_, ?_, ?_, ?_⟩
  · rintro (h | h) h' <;> refine bin .mul e f he.2 hf.2 de df h h' rfl ?_ <;> simp [exposed, h, h']
  · rintro h (h' | h') hx <;> refine bin .mul e f he.2 hf.2 de df (h.trans h') h' rfl ?_ <;>
      simp [exposed, hx]
  · rintro ⟨k, h⟩
    refine key (g := .un .neg e) ?_ he.2 rfl de
    change ((kind e).bind _).isSome
    rw [h]; rfl
  · rintro (h | h) <;>
    · refine key (g := .un .inverse e) ?_ he.2 rfl de
      change ((kind e).bind _).isSome
      rw [h]; rfl
  · rintro ⟨k, h⟩ h'
    refine ⟨bin .mul f e hf.2 he.2 df de h' h rfl ?_, bin .mul e f he.2 hf.2 de df h h' ?_ ?_,
      bin .div e f he.2 hf.2 de df h h' rfl rfl⟩
    · simp [exposed, h, h']
    · cases k <;> rfl
    · simp [exposed, h, h']
  · rintro (⟨h, h'⟩ | ⟨h, h'⟩) <;> refine bin .add e f he.2 hf.2 de df h h' rfl ?_ <;>
      simp [exposed, h, Flat]
  · rintro (⟨h, h'⟩ | ⟨h, h'⟩) <;> refine bin .sub e f he.2 hf.2 de df h h' rfl ?_ <;>
      simp [exposed, h, Flat]

/-- A chain of rotation handles applied one after the other to a vector handle, each step wrapped. -/
def handleChain (v : ℕ) : List (ℕ × ℕ × ℕ × RotK) → SExpr
  | [] => .dynamic v (.leaf v 0 (.vec .trans))
  | (a, b, n, k) :: l => .dynamic a (.dynamic b (.leaf n 0 (.rot k)) * handleChain v l)

/-- **C63 (chains).** A vector can be rotated by any number of handles, one after the other, with a new
handle at every step. -/
theorem c63_chain (v : ℕ) (l : List (ℕ × ℕ × ℕ × RotK)) :
    ((handleChain v l).elab ε).isSome ∧ kind (handleChain v l) = some (.vec .trans) := by
  induction l with
  | nil => exact ⟨by rw [elab_isSome]; exact ⟨rfl, rfl⟩, rfl⟩
  | cons x l ih =>
    obtain ⟨a, b, n, k⟩ := x
    refine ⟨(c63_accepted a ?_ ih.1 rfl ?_).1 (.inl rfl) ih.2, ?_⟩
    · rw [elab_isSome]
      exact ⟨rfl, rfl⟩
    · cases l <;> rfl
    · change (kind (handleChain v l)).bind _ = _
      rw [ih.2]
      rfl

/-- **C63 (dispatch).** In an accepted expression, reverse mode with an adjoint of 1, 2, 3 or 6 rows
calls the overload for that number of rows at every handle, also inside nested nodes; no call falls
back to matrices of run-time size.  An adjoint of another or of run-time size, given to an expression
that can be wrapped, is passed on by the template at every handle. -/
theorem c63_dispatch {e : SExpr} {x : Tree ε} (hx : e.elab ε = some x) (hd : differentiable e = true) :
    (∀ r ∈ [1, 2, 3, 6], ∀ o ∈ revCalls (geoKinds ε) x.2 ⟨some r, some x.1.dim⟩, o = some (.rows r)) ∧
    (∀ r, r ∉ [1, 2, 3, 6] → ∀ o ∈ revCalls (geoKinds ε) x.2 ⟨some r, some x.1.dim⟩,
      o = some .template) ∧
    (wrappable e = true → ∀ o ∈ revCalls (geoKinds ε) x.2 ⟨none, none⟩, o = some .template) := by
  have hn := elab_nodes e hx
  have hr := (elab_agrees e hx).rev
  have hc : ∀ r : ℕ, revCompiles (geoKinds ε) x.2 ⟨some r, some x.1.dim⟩ = true := fun r => by
    rw [hr, hd]; simp
  refine ⟨fun r h o ho => ?_, fun r h o ho => ?_, fun hw o ho => ?_⟩
  · rw [revCalls_eq x.2 hn _ (hc r) o ho]
    simp only [overloadFor, if_pos h]
  · rw [revCalls_eq x.2 hn _ (hc r) o ho]
    simp only [overloadFor, if_neg h]
  · refine revCalls_eq x.2 hn _ ?_ o ho
    rw [hr]
    simp only [wrappable, Bool.and_eq_true, Bool.not_eq_true'] at hw
    simp [hw.1, hw.2]

/-- **C63 (dispatch from the top).** Reverse mode starts with a square adjoint, whose number of rows is
1, 3 or 6 for every class: in an accepted expression it never uses matrices of run-time size. -/
theorem c63_top_level {e : SExpr} {x : Tree ε} (hx : e.elab ε = some x) (hd : differentiable e = true) :
    ∀ o ∈ revCalls (geoKinds ε) x.2 ⟨some x.1.dim, some x.1.dim⟩, o = some (.rows x.1.dim) := by
  refine (c63_dispatch hx hd).1 _ ?_
  rcases x.1 with (_ | _ | _ | _) | _ | _ | _ <;> simp [Ty.dim]

/-- **C63 (a way around).** Negating a vector twice, or inverting a rotation twice, makes any
differentiable expression one that can be wrapped, and the handle means the same. -/
theorem c63_workaround (hε : 0 < ε) {s : Memory} (a : ℕ) {e : SExpr} (hd : differentiable e = true) :
    (∀ {k x}, Means ε s e (.vec k x) → Yields ε s (.dynamic a (-(-e))) (.vec k x)) ∧
    (∀ {R}, Means ε s e (.rot R) → Yields ε s (.dynamic a e⁻¹⁻¹) (.rot R)) := by
  constructor
  · intro k x h
    have := c01_evaluation_meaning hε (.dynamic a (e := -(-e)) hd (.neg (.neg h)))
    rwa [neg_neg] at this
  · intro R h
    have h2 := c01_evaluation_meaning hε (.dynamic a (e := e⁻¹⁻¹) hd (.inverseRot (.inverseRot h)))
    obtain ⟨⟨τ, p⟩, -, v, -, hv, ho⟩ := means_acc hε h
    have hR : IsUnit R.det := by
      cases τ with
      | rot k =>
        obtain rfl : rotDen k v = R := by injection ho
        rw [(rotDen_rotation hv).2]; exact isUnit_one
      | _ => cases ho
    rwa [nonsing_inv_nonsing_inv _ hR] at h2

/-- The identity on tangent spaces of equal dimension, row by row in the order of storage. -/
def SameTangent {a b : Ty} (J : Option (Matrix a.Idx b.Idx ℝ)) : Prop :=
  a.dim = b.dim ∧ ∃ M, J = some M ∧
    ∀ i j, M i j = if (a.enum i).val = (b.enum j).val then 1 else 0

theorem sameTangent_one (a : Ty) : SameTangent (a := a) (b := a) (some 1) := by
  refine ⟨rfl, 1, rfl, fun i j => ?_⟩
  rw [Matrix.one_apply]
  simp only [Fin.val_inj, EmbeddingLike.apply_eq_iff_eq]

/-- **C63 (the types tell the truth).** Where the type of a local Jacobian is `identity_t`, the Jacobian
is the identity; where there is no function, there is no Jacobian. -/
theorem c63_identity_types :
    (∀ {a b : Ty} (op : Un a b), op.jacKind = some .identity → ∀ y x, SameTangent (jacUn ε op y x)) ∧
    (∀ {a b : Ty} (op : Un a b), op.jacKind = none → ∀ y x, jacUn ε op y x = none) ∧
    (∀ {a b c : Ty} (op : Bin a b c), op.jacKindL = .identity → ∀ v x y, SameTangent (jacL op v x y)) ∧
    (∀ {a b c : Ty} (op : Bin a b c), op.jacKindR = .identity → ∀ v x y, SameTangent (jacR op v x y)) := by
  refine ⟨fun op h y x => ?_, fun op h y x => ?_, fun op h v x y => ?_, fun op h v x y => ?_⟩
  · cases op <;> first
      | exact sameTangent_one (.rot .quat) | exact sameTangent_one (.rigid .mat)
      | exact sameTangent_one _ | cases h
  · cases op <;> first | rfl | cases h
  · cases op <;> first
      | exact sameTangent_one (.rot .quat) | exact sameTangent_one (.rigid .mat)
      | exact sameTangent_one _ | exact sameTangent_one .point | cases h
  · cases op <;> first
      | exact sameTangent_one (.rot .quat) | exact sameTangent_one (.rigid .mat)
      | exact sameTangent_one _ | exact sameTangent_one .point | cases h

/-- **C63 (frames).** Frames and frame casts do not matter for wrapping. -/
theorem c63_frames (a : ℕ) (e : FExpr) :
    ((FExpr.dynamic a e).build ε).isSome ↔ (e.build ε).isSome ∧ wrappable e.erase = true := by
  change ((e.build ε).bind _).isSome ↔ _
  cases he : e.build ε with
  | none => simp
  | some x =>
    obtain ⟨x, f⟩ := x
    have h := build_erase e he
    have h1 := wrapDynamic_forget a x
    rw [wrapDynamic_eq h] at h1
    simp only [Option.bind_some, Option.isSome_map, Option.isSome_some, true_and]
    rw [← Option.isSome_map (f := forgetT), ← h1]
    cases wrappable e.erase <;> simp

/-- **C35 is false for wrapping**: an expression can have a meaning, and wrapping it be rejected. -/
theorem c35_wrapping_rejected : ∃ (e : SExpr) (o : Obj), Means dblEps demo e o ∧
    ∀ a, ¬ Yields dblEps demo (.dynamic a e) o := by
  refine ⟨.dynamic 8 (lf (.rot .quat)) * lf (.rot .mat), _,
    .mulRot (.dynamic 8 rfl (demo_means (.rot .quat))) (demo_means (.rot .mat)), fun a h => ?_⟩
  obtain ⟨τ, p, v, h, -⟩ := h
  rw [c63_composed_handle (κ := .rot) a 8 (.inl rfl) rfl rfl] at h
  cases h

/-- **C63 (Identity).** The product of an `Identity` and a vector has no Jacobian with respect to the
vector, so it cannot be wrapped, although it can be evaluated. -/
theorem c63_identity_times_vector (h a d n c : ℕ) (τ : Ty)
    (hτ : τ = .rot .quat ∨ τ = .rot .mat ∨ τ = .rot .aa ∨ τ = .rigid .mat ∨ τ = .rigid .compact) :
    NExpr.elab ε (.dynamic h (.bin .mul (.neutral a d τ) (.leaf n c (.vec .trans)))) = none ∧
    ∃ p : Expr (xLib ε) (.plain (.vec .trans)),
      NExpr.elab ε (.bin .mul (.neutral a d τ) (.leaf n c (.vec .trans))) = some ⟨_, p⟩ ∧
      ∀ s : Memory, p.eval (xmem ε s) = some (s n (.vec .trans)) := by
  rcases hτ with rfl | rfl | rfl | rfl | rfl <;> exact ⟨rfl, _, rfl, fun s => rfl⟩

/-! ## Cases -/

/-- `makeProxy(R * v)` and `makeProxy(makeProxy(R) * v)` are accepted, `makeProxy(makeProxy(R) * R)` is
not, `makeProxy(R * makeProxy(R))` is. -/
example : ((SExpr.dynamic 7 (lf (.rot .quat) * lf (.vec .trans))).elab dblEps).isSome ∧
    ((SExpr.dynamic 7 (.dynamic 8 (lf (.rot .quat)) * lf (.vec .trans))).elab dblEps).isSome ∧
    (SExpr.dynamic 7 (.dynamic 8 (lf (.rot .quat)) * lf (.rot .quat))).elab dblEps = none ∧
    ((SExpr.dynamic 7 (lf (.rot .quat) * .dynamic 8 (lf (.rot .quat)))).elab dblEps).isSome := by
  refine ⟨?_, ?_, c63_composed_handle (κ := .rot) 7 8 (.inl rfl) rfl rfl, ?_⟩ <;>
    (rw [c63_compiles_iff]; exact ⟨rfl, rfl⟩)

/-- The left factor of a product can be a handle if it is inverted: `makeProxy(inverse(makeProxy(R)) * R)`. -/
example : ((SExpr.dynamic 7 ((.dynamic 8 (lf (.rot .quat)))⁻¹ * lf (.rot .quat))).elab dblEps).isSome := by
  rw [c63_compiles_iff]; exact ⟨rfl, rfl⟩

/-- `makeProxy(makeProxy(v) + v)` is rejected, `makeProxy(-(-(makeProxy(v) + v)))` is accepted and means
twice `v`. -/
example : (SExpr.dynamic 7 (.dynamic 8 (lf (.vec .trans)) + lf (.vec .trans))).elab dblEps = none ∧
    ∃ x, Yields dblEps demo (.dynamic 7 (-(-(.dynamic 8 (lf (.vec .trans)) + lf (.vec .trans)))))
      (.vec .trans x) :=
  ⟨(c63_sum_of_handle 7 8 _ _).1 rfl, _,
    (c63_workaround dblEps_pos 7 rfl).1
      (.addVec (.dynamic 8 rfl (demo_means (.vec .trans))) (demo_means (.vec .trans)))⟩

/-- A vector handle rotated through three handles. -/
example : ((handleChain 0 [(11, 21, 1, .quat), (12, 22, 2, .mat), (13, 23, 3, .quat)]).elab dblEps).isSome :=
  (c63_chain 0 _).1

/-- Two nested handles: every reverse call uses the overload for three rows. -/
example : ∃ x : Tree dblEps,
    (SExpr.dynamic 7 (lf (.rot .quat) * .dynamic 8 (lf (.vec .trans)))).elab dblEps = some x ∧
    (revCalls (geoKinds dblEps) x.2 ⟨some 3, some 3⟩) = [some (.rows 3), some (.rows 3)] :=
  ⟨_, rfl, rfl⟩

/-- `translation()` of a rotation can be evaluated, not wrapped. -/
example : ((SExpr.un .translation (lf (.rot .quat))).elab dblEps).isSome ∧
    (SExpr.dynamic 7 (.un .translation (lf (.rot .quat)))).elab dblEps = none := by
  refine ⟨by rw [c63_compiles_iff]; exact ⟨rfl, rfl⟩, ?_⟩
  rw [← Option.not_isSome_iff_eq_none, c63_wrap_iff]
  exact fun h => Bool.noConfusion h.2

end WG
