import Verif.Lemmas.CppType
import Verif.Spec.Response
import Verif.Props.Evaluation

/-!
# C27 (`isSame`), C65: differentiating with respect to a sub-expression
-/

namespace WG
open Matrix Spec Filter Topology CExpr

variable {L : Lib}

/-! ## C27 -/

/-- **C27.** `isSame` holds exactly for the same structure over the same objects *with all operands
passed in the same form*. -/
theorem c27_isSame {τ σ : L.Ty} (e : CExpr L τ) (f : CExpr L σ) :
    e.isSame f = true ↔ SameExpr e f ∧ forms e = forms f := by
  rw [isSame_iff, ctype_eq_iff]
  unfold SameExpr
  tauto

/-- **C27 (partial).** `isSame` decides whether two expressions are the same (operators and objects)
*when their operands were passed in the same forms*.  Missing: the other pairs, for which the statement
is false (`c27_false`). -/
theorem c27_isSame_partial {τ σ : L.Ty} (e : CExpr L τ) (f : CExpr L σ) (h : forms e = forms f) :
    e.isSame f = true ↔ SameExpr e f := by
  rw [c27_isSame]
  exact ⟨fun h => h.1, fun h' => ⟨h', h⟩⟩

/-- **C27.** No false positives: `isSame` implies the same structure over the same objects. -/
theorem c27_sound {τ σ : L.Ty} (e : CExpr L τ) (f : CExpr L σ) (h : e.isSame f = true) :
    SameExpr e f := ((c27_isSame e f).1 h).1

/-- **C27.** `isSame` is reflexive, symmetric and transitive. -/
theorem c27_equivalence {τ σ ρ : L.Ty} (e : CExpr L τ) (f : CExpr L σ) (g : CExpr L ρ) :
    e.isSame e = true ∧ (e.isSame f = true → f.isSame e = true) ∧
      (e.isSame f = true → f.isSame g = true → e.isSame g = true) := by
  refine ⟨(isSame_iff e e).2 ⟨rfl, rfl⟩, fun h => ?_, fun h h' => ?_⟩
  · obtain ⟨h1, h2⟩ := (isSame_iff e f).1 h
    exact (isSame_iff f e).2 ⟨h1.symm, h2.symm⟩
  · obtain ⟨h1, h2⟩ := (isSame_iff e f).1 h
    obtain ⟨h1', h2'⟩ := (isSame_iff f g).1 h'
    exact (isSame_iff e g).2 ⟨h1.trans h1', h2.trans h2'⟩

/-- `-v` for a named vector at address `a`. -/
def negNamed (ε : ℝ) (a : ℕ) : CExpr (geoLib ε) (.vec .trans) :=
  .un (L := geoLib ε) (α := .vec .trans) (β := .vec .trans) (Un.minus .trans) 0 .cref
    (CExpr.leaf (L := geoLib ε) a 0 (Ty.vec .trans))

/-- `-p` for a named `p = -v` (`.cref`), or `-(-v)` written at once (`.value`). -/
def negNeg (ε : ℝ) (a : ℕ) (f : Form) : CExpr (geoLib ε) (.vec .trans) :=
  .un (L := geoLib ε) (α := .vec .trans) (β := .vec .trans) (Un.minus .trans) 0 f (negNamed ε a)

/-- **C27 is false as stated.** With `p = -v`, the expressions `-p` and `-(-v)` have the same structure
and refer to the same object, both are written as `arg_t` prescribes, yet `isSame` is false: the C++
types `Minus<const Minus<const V &> &>` and `Minus<Minus<const V &>>` differ. -/
theorem c27_false (ε : ℝ) (a : ℕ) :
    (negNeg ε a .cref).Written ∧ (negNeg ε a .value).Written ∧
      SameExpr (negNeg ε a .cref) (negNeg ε a .value) ∧
      (negNeg ε a .cref).isSame (negNeg ε a .value) = false := by
  refine ⟨⟨⟨.named, rfl⟩, ⟨.named, rfl⟩, trivial⟩, ⟨⟨.temporary, rfl⟩, ⟨.named, rfl⟩, trivial⟩,
    ⟨rfl, rfl⟩, ?_⟩
  rw [Bool.eq_false_iff]
  intro h
  have := ((c27_isSame _ _).1 h).2
  simp [negNeg, forms] at this

/-! ## C65 -/

theorem geo_faithful (ε : ℝ) : TagsFaithful (geoLib ε) where
  un := by
    intro a b f g h
    change Un a b at f g
    change Un.tag f = Un.tag g at h
    cases f <;> cases g <;> first | rfl | (simp [Un.tag] at h)
  bin := by
    intro a b c f g h
    change Bin a b c at f g
    change Bin.tag f = Bin.tag g at h
    cases f <;> cases g <;> first | rfl | (simp [Bin.tag] at h)

/-- **C65.** `expr.evalWithJacobians(p)` is accepted exactly when `p` is a leaf or one operation on
named constant leaves and a sub-expression of that structure occurs in `expr`. -/
theorem c65_accepted (s : Store L) {τ σ : L.Ty} (e : CExpr L τ) (q : CExpr L σ) (hp : e.noProxy)
    (hq : q.Written) :
    (jacobianNode s e q).isSome = true ↔ OnLeaves q ∧ ∃ n ∈ subterms e, shape n.2 = shape q := by
  rw [jacobianNode_isSome s e q hp]
  constructor
  · intro h
    have hp' : e.prepare.noProxy := by unfold CExpr.noProxy; rw [expr_prepare]; exact hp
    have h' := h
    rw [hasNode_iff _ _ hp', subterms_prepare] at h'
    obtain ⟨n, hn, hc⟩ := h'
    obtain ⟨m, hm, rfl⟩ := List.mem_map.1 hn
    have hf := flat_of_ctype m.2 q (subterm_noProxy e hp m hm) hq hc
    exact ⟨hf, (hasNode_prepare_iff e q hp hf).1 h⟩
  · rintro ⟨hf, h⟩
    exact (hasNode_prepare_iff e q hp hf).2 h

/-- **C65.** `expr.jacobian(p)` is accepted for leaves only. -/
theorem c65_method {σ : L.Ty} (q : CExpr L σ) :
    jacobianMethodAccepts q = true ↔ ∃ a c, q = .leaf a c σ := by
  cases q <;> simp [jacobianMethodAccepts]

/-- **C65.** If `p` occurs in `expr` and is accepted, the result is the sum, over the occurrences of
`p`, of the products of local derivatives: what the chain rule gives for the expression in which `p`
has been replaced by a new variable `y` holding its value. -/
theorem c65_sum (hL : TagsFaithful L) (s : Store L) {τ σ : L.Ty} (e : CExpr L τ) (q : CExpr L σ)
    (hp : e.noProxy) (hq : OnLeaves q) (hin : ∃ n ∈ subterms e, SameExpr n.2 q) (y c : ℕ)
    (hy : y ∉ refers e) {v : L.Val σ} (hv : value s q.expr = some v) :
    jacobianNode s e q =
        some (total (occurrences (s.set y σ v) ⟨y, c, σ⟩ (abstracted q y c e))) ∧
      value (s.set y σ v) (abstracted q y c e) = value s e.expr :=
  ⟨jacobianNode_eq hL s e q hp hq hin y c hy hv, value_abstracted hL s q y c hv e hp hy⟩

section Geo
variable {ε : ℝ}

theorem regular_leaf (s : Store (geoLib ε)) {σ τ : Ty} {q : CExpr (geoLib ε) σ} (y c : ℕ)
    {v : σ.Val} (hval : Valid σ v) {e : CExpr (geoLib ε) τ} (h : SameExpr (L := geoLib ε) e q) :
    RegularAt ε (Store.set (L := geoLib ε) s y σ v) (Expr.leaf (L := geoLib ε) y c τ) := by
  obtain rfl := shape_ty h.1
  show Valid τ (Store.set (L := geoLib ε) s y τ v y τ)
  rw [Store.set_get]; exact hval

theorem regular_abstracted (s : Store (geoLib ε)) {σ : Ty} (q : CExpr (geoLib ε) σ) (y c : ℕ)
    {v : σ.Val} (hv : value s q.expr = some v) (hval : Valid σ v) : {τ : Ty} →
    (e : CExpr (geoLib ε) τ) → e.noProxy → y ∉ refers (L := geoLib ε) e → RegularAt ε s e.expr →
    RegularAt ε (Store.set (L := geoLib ε) s y σ v) (abstracted (L := geoLib ε) q y c e)
  | _, .leaf a d τ, hp, hy, hr => by
    by_cases h : SameExpr (CExpr.leaf a d τ : CExpr (geoLib ε) τ) q
    · unfold abstracted; rw [if_pos h]; exact regular_leaf s y c hval h
    · unfold abstracted; rw [if_neg h]
      simp only [refers, List.mem_singleton] at hy
      show Valid τ (Store.set (L := geoLib ε) s y σ v a τ)
      rw [Store.set_of_ne]
      · exact hr
      · rintro ⟨h, -⟩; exact hy h.symm
  | _, .un op x f a, hp, hy, hr => by
    by_cases h : SameExpr (.un op x f a) q
    · unfold abstracted; rw [if_pos h]; exact regular_leaf s y c hval h
    · rw [abstracted_un h]
      refine ⟨regular_abstracted s q y c hv hval a hp hy hr.1, fun z hz => ?_⟩
      rw [value_abstracted (geo_faithful ε) s q y c hv a hp hy] at hz
      exact hr.2 z hz
  | _, .bin op x f l f' r, hp, hy, hr => by
    have hp' := hp
    simp only [CExpr.noProxy, CExpr.expr, Expr.noProxy, Bool.and_eq_true] at hp'
    simp only [refers, List.mem_append, not_or] at hy
    by_cases h : SameExpr (.bin op x f l f' r) q
    · unfold abstracted; rw [if_pos h]; exact regular_leaf s y c hval h
    · rw [abstracted_bin h]
      refine ⟨regular_abstracted s q y c hv hval l hp'.1 hy.1 hr.1,
        regular_abstracted s q y c hv hval r hp'.2 hy.2 hr.2.1, fun z w hz hw => ?_⟩
      rw [value_abstracted (geo_faithful ε) s q y c hv l hp'.1 hy.1] at hz
      rw [value_abstracted (geo_faithful ε) s q y c hv r hp'.2 hy.2] at hw
      exact hr.2.2 z w hz hw
  | _, .proxy _ _, hp, _, _ => by simp [CExpr.noProxy, CExpr.expr, Expr.noProxy] at hp

theorem abstracted_addr {L : Lib} {σ : L.Ty} (q : CExpr L σ) (y c : ℕ) : {τ : L.Ty} → (e : CExpr L τ) →
    e.noProxy → y ∉ refers e → ∀ o ∈ objects (abstracted q y c e), o.addr = y →
      o = ⟨y, c, σ⟩
  | _, .leaf a d τ, hp, hy => by
    intro o ho h
    by_cases hs : SameExpr (CExpr.leaf a d τ : CExpr L τ) q
    · unfold abstracted at ho; rw [if_pos hs] at ho
      obtain rfl := shape_ty hs.1
      simpa [objects] using ho
    · unfold abstracted at ho; rw [if_neg hs] at ho
      simp only [objects, List.mem_singleton] at ho
      subst ho
      simp only at h
      simp [refers, h] at hy
  | τ, .un op x f a, hp, hy => by
    intro o ho h
    by_cases hs : SameExpr (.un op x f a) q
    · unfold abstracted at ho; rw [if_pos hs] at ho
      obtain rfl := shape_ty hs.1
      simpa [objects] using ho
    · rw [abstracted_un hs] at ho
      exact abstracted_addr q y c a hp hy o ho h
  | τ, .bin op x f l f' r, hp, hy => by
    intro o ho h
    by_cases hs : SameExpr (.bin op x f l f' r) q
    · unfold abstracted at ho; rw [if_pos hs] at ho
      obtain rfl := shape_ty hs.1
      simpa [objects] using ho
    · rw [abstracted_bin hs] at ho
      simp only [CExpr.noProxy, CExpr.expr, Expr.noProxy, Bool.and_eq_true] at hp
      simp only [refers, List.mem_append, not_or] at hy
      simp only [objects, List.mem_append] at ho
      rcases ho with ho | ho
      · exact abstracted_addr q y c l hp.1 hy.1 o ho h
      · exact abstracted_addr q y c r hp.2 hy.2 o ho h
  | _, .proxy _ _, h, _ => by simp [CExpr.noProxy, CExpr.expr, Expr.noProxy] at h

theorem subterm_regular {s : Store (geoLib ε)} : {τ : Ty} → (e : CExpr (geoLib ε) τ) →
    RegularAt ε s e.expr → ∀ n ∈ subterms (L := geoLib ε) e, RegularAt ε s n.2.expr
  | _, .leaf a c τ, h => by
    intro n hn
    simp only [subterms, List.mem_singleton] at hn
    subst hn; exact h
  | _, .un _ _ _ a, h => by
    intro n hn
    simp only [subterms, List.mem_cons] at hn
    rcases hn with rfl | hn
    · exact h
    · exact subterm_regular a h.1 n hn
  | _, .bin _ _ _ l _ r, h => by
    intro n hn
    simp only [subterms, List.mem_cons, List.mem_append] at hn
    rcases hn with rfl | hn | hn
    · exact h
    · exact subterm_regular l h.1 n hn
    · exact subterm_regular r h.2.1 n hn
  | _, .proxy a e, h => by
    intro n hn
    simp only [subterms, List.mem_singleton] at hn
    subst hn; exact h

theorem set_set {L : Lib} (s : Store L) (a : ℕ) (τ : L.Ty) (v w : L.Val τ) :
    (s.set a τ v).set a τ w = s.set a τ w := by
  funext b σ
  unfold Store.set
  split_ifs <;> rfl

/-- **C65.** At a regular point, if `p` occurs in `expr` and is accepted, then the result, when finite,
is the derivative at zero of `d ↦ value(expr with p replaced by p + d) - value(expr)`, with `+` and
`-` the library's box operators; the new variable `y` carries the replaced value. -/
theorem c65_derivative (hε : 0 < ε) (hε1 : ε ≤ 1) (s : Store (geoLib ε)) {τ σ : Ty}
    (e : CExpr (geoLib ε) τ) (q : CExpr (geoLib ε) σ) (hp : e.noProxy) (hq : OnLeaves (L := geoLib ε) q)
    (hin : ∃ n ∈ subterms (L := geoLib ε) e, SameExpr (L := geoLib ε) n.2 q)
    (hreg : RegularAt ε s e.expr) (y c : ℕ) (hy : y ∉ refers (L := geoLib ε) e)
    {J : Matrix τ.Idx σ.Idx ℝ} (hJ : jacobianNode (L := geoLib ε) s e q = some (some J)) :
    ∃ v, value s q.expr = some v ∧ ∃ F : (σ.Idx → ℝ) → τ.Idx → ℝ,
      (∀ᶠ d in 𝓝 0, ((boxPlusVal ε σ v d).bind fun w =>
        (value (Store.set (L := geoLib ε) s y σ w) (abstracted (L := geoLib ε) q y c e)).bind
          fun z => (e.expr.eval s).bind fun z₀ => boxMinusVal ε τ z z₀) = some (F d)) ∧
      F 0 = 0 ∧ HasFDerivAt F (linMap J) 0 := by
  obtain ⟨n, hn, hs⟩ := hin
  have hnp := subterm_noProxy e hp n hn
  have hnr := subterm_regular e hreg n hn
  obtain ⟨ρ, n⟩ := n
  obtain rfl := shape_ty hs.1
  obtain ⟨v, _, hv, -, hval, -, -⟩ := value_den (s' := s) hε n.expr hnr
    (fun o ho => ⟨regular_leaves _ hnr o ho, rfl⟩)
  have hv' : value s q.expr = some v := by rw [← value_same (geo_faithful ε) s n q hnp hs]; exact hv
  refine ⟨v, hv', ?_⟩
  obtain ⟨h1, h2⟩ := c65_sum (geo_faithful ε) s e q hp hq ⟨_, hn, hs⟩ y c hy hv'
  rw [h1] at hJ
  have hr' := regular_abstracted s q y c hv' hval e hp hy hreg
  have hJ' := Option.some.inj hJ
  obtain ⟨F, F1, F2, F3⟩ := response_deriv_of_valid hε hε1 (Store.set (L := geoLib ε) s y ρ v)
    ⟨y, c, ρ⟩ _ hr' (by show Valid ρ (Store.set (L := geoLib ε) s y ρ v y ρ)
                        rw [Store.set_get]; exact hval)
    (fun o ho h _ => abstracted_addr (L := geoLib ε) q y c e hp hy o ho h) hJ'
  refine ⟨F, ?_, F2, F3⟩
  filter_upwards [F1] with d hd
  rw [← hd]
  unfold response
  simp only [Expr.eval, mk_val, Store.set_get, set_set, h2]

end Geo

/-- **C65.** In an expression with unique leaf types the answer depends on the *type* of `p` only: for
another object of the same type, occurring or not, the same matrix is returned. -/
theorem c65_type_only (s : Store L) {τ σ : L.Ty} (e : CExpr L τ) (q q' : CExpr L σ)
    (hu : e.expr.uniqueLeaves) (h : q.ctype = q'.ctype) :
    jacobianNode s e q = jacobianNode s e q' := by
  have key : ∀ {τ : L.Ty} (e : CExpr L τ), typedNode s q e = typedNode s q' e := by
    intro τ e
    induction e with
    | leaf a c τ => unfold typedNode; simp only [h]
    | un op x f a ih => rw [typedNode.eq_def, typedNode.eq_def s q']; simp only [h, ih]
    | bin op x f l f' r ihl ihr =>
      rw [typedNode.eq_def, typedNode.eq_def s q']; simp only [h, ihl, ihr]
    | proxy => rfl
  unfold jacobianNode
  simp only [expr_prepare, hu, if_true, h, key]

theorem nodeAddrs_zero : {τ : L.Ty} → (e : CExpr L τ) → e.noProxy → ∀ a ∈ nodeAddrs e.expr, a = 0
  | _, .leaf _ _ _, _ => by simp [CExpr.expr, nodeAddrs]
  | _, .un _ _ _ a, h => by
    intro b hb
    simp only [CExpr.expr, nodeAddrs, List.mem_cons] at hb
    exact hb.elim id (nodeAddrs_zero a h b)
  | _, .bin _ _ _ l _ r, h => by
    simp only [CExpr.noProxy, CExpr.expr, Expr.noProxy, Bool.and_eq_true] at h
    intro b hb
    simp only [CExpr.expr, nodeAddrs, List.mem_cons, List.mem_append] at hb
    rcases hb with hb | hb | hb
    · exact hb
    · exact nodeAddrs_zero l h.1 b hb
    · exact nodeAddrs_zero r h.2 b hb
  | _, .proxy _ _, h => by simp [CExpr.noProxy, CExpr.expr, Expr.noProxy] at h

theorem evalDelta_fresh (s : Store L) (t : ℕ) (σ : L.Ty) (d : L.Idx σ → ℝ) : {τ : L.Ty} →
    (e : Expr L τ) → t ∉ nodeAddrs e → (∀ o ∈ objects e, o.addr ≠ t) →
    e.evalDelta s t σ d = value s e
  | _, .leaf a c τ, _, h => by
    have := h _ (by simp [objects]; rfl)
    simp only at this
    unfold Expr.evalDelta Expr.evalDelta.bump
    rw [if_neg this]; rfl
  | _, .un a op e, hn, h => by
    simp only [nodeAddrs, List.mem_cons, not_or] at hn
    rw [Expr.evalDelta.eq_def]
    simp only [Expr.evalDelta.bump, if_neg (Ne.symm hn.1)]
    rw [evalDelta_fresh s t σ d e hn.2 h]; rfl
  | _, .bin a op l r, hn, h => by
    simp only [nodeAddrs, List.mem_cons, List.mem_append, not_or] at hn
    rw [Expr.evalDelta.eq_def]
    simp only [Expr.evalDelta.bump, if_neg (Ne.symm hn.1)]
    rw [evalDelta_fresh s t σ d l hn.2.1 fun o ho => h o (by simp [objects, ho]),
      evalDelta_fresh s t σ d r hn.2.2 fun o ho => h o (by simp [objects, ho])]; rfl
  | _, .proxy a e, hn, h => by
    simp only [nodeAddrs, List.mem_cons, not_or] at hn
    rw [Expr.evalDelta.eq_def]
    simp only [Expr.evalDelta.bump, if_neg (Ne.symm hn.1)]
    rw [evalDelta_fresh s t σ d e hn.2 h]; rfl

/-- **C65.** The dynamic and the numerical evaluator look for the *address* of `p` among the nodes of
the prepared copy, and no node is there: for an operation `p` at any address of its own, the dynamic
Jacobian is zero, and so is every column of the numerical one (at regular points), whatever the
derivative is. -/
theorem c65_address_evaluators {ε : ℝ} (hε : 0 < ε) (s : Store (geoLib ε)) {τ : Ty}
    (e : CExpr (geoLib ε) τ) (hp : e.noProxy) (hreg : RegularAt ε s e.expr) (a : ℕ) (σ : Ty)
    (ha : a ≠ 0) (hr : a ∉ refers (L := geoLib ε) e) :
    e.expr.dynJacobian (L := geoLib ε) s a σ = some 0 ∧
      ∀ (δ : ℝ), δ ≠ 0 → ∀ j, e.expr.numColumn (L := geoLib ε) s a σ δ j = some 0 := by
  have hn : a ∉ nodeAddrs e.expr := fun h => ha (nodeAddrs_zero e hp a h)
  have ho : ∀ o ∈ objects e.expr, o.addr ≠ a := fun o ho h => hr (h ▸ objects_addr e hp o ho)
  constructor
  · have hd : Distinguished (L := geoLib ε) ⟨a, 0, σ⟩ e.expr :=
      ⟨fun o h h' => absurd h' (ho o h), hn⟩
    show orZero ((ETree.mk s e.expr).dyn a σ) = _
    have := dyn_eq s ⟨a, 0, σ⟩ e.expr hd
    simp only at this
    rw [this, orZero_blockOf, occurrences_fresh]
    · rfl
    · intro o h h'
      exact ho o h (by rw [h'])
  · intro δ hδ j
    obtain ⟨v, _, hv, -, hval, -, -⟩ := value_den (s' := s) hε e.expr hreg
      (fun o ho => ⟨regular_leaves _ hreg o ho, rfl⟩)
    obtain ⟨F, F1, F2, -⟩ := moves_boxMinus (E := ℝ) (x := 0) hε τ (moves_const hval) hval hval rfl
    have hz : boxMinusVal ε τ v v = some 0 := by rw [F1.self_of_nhds, F2]
    unfold Expr.numColumn Expr.eval
    rw [evalDelta_fresh s a σ _ e.expr hn ho, mk_val, hv]
    simp only [Option.bind_some]
    show (boxMinusVal ε τ v v).bind _ = _
    rw [hz]
    simp only [Option.bind_some, if_neg hδ]
    congr 1
    funext i
    simp

/-! ### Leaves as targets -/

theorem hasNode_leaf (t : Target L) : {τ : L.Ty} → (e : CExpr L τ) →
    e.hasNode (.leaf t.ty t.cls) = e.expr.hasType t
  | _, .leaf a c τ => by simp [hasNode, ctype, CExpr.expr, Expr.hasType]
  | _, .un _ _ _ a => by
    simp only [hasNode, ctype, reduceCtorEq, decide_false, Bool.false_or]
    exact hasNode_leaf t a
  | _, .bin _ _ _ l _ r => by
    simp only [hasNode, ctype, reduceCtorEq, decide_false, Bool.false_or, hasNode_leaf t l,
      hasNode_leaf t r]
    rfl
  | _, .proxy _ _ => rfl

theorem fwdCompiles_leaf (t : Target L) : {τ : L.Ty} → (e : CExpr L τ) →
    e.fwdCompiles (.leaf t.ty t.cls) = e.expr.fwdCompiles t
  | _, .leaf a c τ => rfl
  | _, .un _ _ _ a => by
    simp only [CExpr.fwdCompiles, ctype, reduceCtorEq, decide_false, Bool.false_or]
    exact fwdCompiles_leaf t a
  | _, .bin _ _ _ l _ r => by
    simp only [CExpr.fwdCompiles, ctype, reduceCtorEq, decide_false, Bool.false_or, hasNode_leaf]
    rfl
  | _, .proxy _ _ => rfl

theorem fwdNode_leaf (s : Store L) (t : Target L) : {τ : L.Ty} → (e : CExpr L τ) → e.noProxy →
    fwdNode s (.leaf t.addr t.cls t.ty) e = (ETree.mk s e.expr).fwd t
  | _, .leaf a c τ, _ => by
    simp only [fwdNode, ctype, CType.leaf.injEq, selfBlock, CExpr.isSame, CExpr.expr, ETree.mk,
      ETree.fwd]
    by_cases h : τ = t.ty ∧ c = t.cls
    · rw [if_pos h, dif_pos h.1, dif_pos h]
      simp [h.1, h.2]
    · rw [if_neg h, dif_neg h]
  | _, .un _ _ _ a, h => by
    simp only [fwdNode, ctype, reduceCtorEq, if_false, fwdNode_leaf s t a h, CExpr.expr, ETree.mk,
      ETree.fwd]
    cases (ETree.mk s a.expr).fwd t <;> rfl
  | _, .bin _ _ _ l _ r, h => by
    simp only [CExpr.noProxy, CExpr.expr, Expr.noProxy, Bool.and_eq_true] at h
    simp only [fwdNode, ctype, reduceCtorEq, if_false, fwdNode_leaf s t l h.1,
      fwdNode_leaf s t r h.2, hasNode_leaf, CExpr.expr, ETree.mk, ETree.fwd]
    rw [← mk_hasType s t l.expr, ← mk_hasType s t r.expr]
    cases (ETree.mk s l.expr).fwd t <;> cases (ETree.mk s r.expr).fwd t <;> rfl
  | _, .proxy _ _, h => by simp [CExpr.noProxy, CExpr.expr, Expr.noProxy] at h

theorem typedNode_leaf (s : Store L) (t : Target L) : {τ : L.Ty} → (e : CExpr L τ) →
    typedNode s (.leaf t.addr t.cls t.ty) e = (ETree.mk s e.expr).typed t
  | _, .leaf a c τ => by
    simp only [typedNode, ctype, CType.leaf.injEq, CExpr.expr, ETree.mk, ETree.typed]
    by_cases h : τ = t.ty ∧ c = t.cls
    · rw [dif_pos ⟨h, h.1⟩, dif_pos h]
    · rw [dif_neg (fun h' => h h'.1), dif_neg h]
  | _, .un _ _ _ a => by
    simp only [typedNode, ctype, reduceCtorEq, false_and, dite_false, typedNode_leaf s t a]
    rfl
  | _, .bin _ _ _ l _ r => by
    simp only [typedNode, ctype, reduceCtorEq, false_and, dite_false, typedNode_leaf s t l,
      typedNode_leaf s t r, hasNode_leaf]
    rw [← mk_hasType s t l.expr, ← mk_hasType s t r.expr]
    rfl
  | _, .proxy _ _ => rfl

/-- **C65.** For a leaf the result is that of C22's `evalWithJacobians`: one notion of target. -/
theorem c65_leaf (s : Store L) (t : Target L) {τ : L.Ty} (e : CExpr L τ) (hp : e.noProxy) :
    (jacobianNode s e (.leaf t.addr t.cls t.ty)).map (fun J => (e.expr.eval s, [⟨t.ty, J⟩])) =
      e.expr.evalWithJacobians s [t] := by
  have hp' : e.prepare.noProxy := by unfold CExpr.noProxy; rw [expr_prepare]; exact hp
  unfold jacobianNode Expr.evalWithJacobians Expr.evalWithJacobiansLog
  rw [mkLog_eq]
  have h1 : (CExpr.leaf t.addr t.cls t.ty : CExpr L t.ty).ctype = .leaf t.ty t.cls := rfl
  simp only [h1, hasNode_leaf, fwdCompiles_leaf, fwdNode_leaf s t e.prepare hp', typedNode_leaf,
    expr_prepare, List.all_cons, List.all_nil, Bool.and_true, List.map_cons, List.map_nil]
  split_ifs <;> rfl

/-! ### Concrete cases -/

section Examples
open Ty

/-- `p + w` for a named `p = -v`; `v` at 1, `w` at 2, of the types 0 and `c`. -/
def exSum (ε : ℝ) (c : ℕ) : CExpr (geoLib ε) (.vec .trans) :=
  .bin (L := geoLib ε) (α := .vec .trans) (β := .vec .trans) (γ := .vec .trans) (Bin.sum .trans) 0
    .cref (negNamed ε 1) .cref (CExpr.leaf (L := geoLib ε) 2 c (Ty.vec .trans))

theorem exSum_subterm (ε : ℝ) (c : ℕ) :
    (⟨_, negNamed ε 1⟩ : (τ : Ty) × CExpr (geoLib ε) τ) ∈ subterms (exSum ε c) :=
  List.mem_cons_of_mem _ (List.mem_append_left _ (self_mem_subterms _))

theorem exSum_occurs (ε : ℝ) (c : ℕ) :
    ∃ n ∈ subterms (exSum ε c), SameExpr n.2 (negNamed ε 1) :=
  ⟨_, exSum_subterm ε c, rfl, rfl⟩

theorem occurrences_self {L : Lib} (s : Store L) (t : Target L) :
    occurrences s t (.leaf t.addr t.cls t.ty) = [idBlock rfl] := by
  unfold occurrences
  rw [dif_pos rfl]
  rfl

/-- **C65 (disagreement).** For `p + w` with `p = -v`, `evalWithJacobians(p)` returns the identity, the
derivative; the dynamic Jacobian with respect to `p` (at any address of its own) is zero. -/
theorem c65_disagree {ε : ℝ} (s : Store (geoLib ε)) (c a : ℕ) (ha : a ≠ 0) (h1 : a ≠ 1)
    (h2 : a ≠ 2) :
    jacobianNode s (exSum ε c) (negNamed ε 1) = some (some 1) ∧
      (exSum ε c).expr.dynJacobian s a (Ty.vec .trans) = some 0 := by
  constructor
  · have hv : value s (negNamed ε 1).expr = some (-(s 1 (Ty.vec .trans)) : V3) := rfl
    obtain ⟨h, -⟩ := c65_sum (geo_faithful ε) s (exSum ε c) (negNamed ε 1) rfl rfl
      (exSum_occurs ε c) 3 0 (by simp [exSum, negNamed, refers]) hv
    rw [h]
    unfold exSum
    rw [abstracted_bin (by simp [SameExpr, shape, negNamed])]
    have e1 : abstracted (negNamed ε 1) 3 0 (negNamed ε 1) =
        Expr.leaf (L := geoLib ε) 3 0 (Ty.vec .trans) := by
      rw [abstracted.eq_def]; exact if_pos ⟨rfl, rfl⟩
    have e2 : abstracted (negNamed ε 1) 3 0 (CExpr.leaf (L := geoLib ε) 2 c (Ty.vec .trans)) =
        Expr.leaf (L := geoLib ε) 2 c (Ty.vec .trans) := by
      rw [abstracted.eq_def]; exact if_neg (by simp [SameExpr, shape, negNamed])
    rw [e1, e2, occurrences.eq_def]
    simp only
    rw [occurrences_self (L := geoLib ε) _ ⟨3, 0, Ty.vec .trans⟩,
      occurrences_fresh _ _ (Expr.leaf 2 c _) (by simp [objects])]
    rw [List.map_cons, List.map_nil, List.map_nil, List.append_nil]
    refine (congrArg some List.sum_singleton).trans ?_
    show some (some ((1 : Matrix (Fin 3) (Fin 3) ℝ) * 1)) = _
    rw [one_mul]
  · have hd : Distinguished (L := geoLib ε) ⟨a, 0, Ty.vec .trans⟩ (exSum ε c).expr := by
      refine ⟨fun o h h' => ?_, ?_⟩
      · simp only [exSum, negNamed, CExpr.expr, objects, List.mem_append, List.mem_singleton] at h
        rcases h with rfl | rfl
        · exact absurd h'.symm h1
        · exact absurd h'.symm h2
      · simp [exSum, negNamed, CExpr.expr, nodeAddrs, ha]
    show orZero ((ETree.mk s (exSum ε c).expr).dyn a (Ty.vec .trans)) = _
    have := dyn_eq s ⟨a, 0, Ty.vec .trans⟩ (exSum ε c).expr hd
    simp only at this
    rw [this, orZero_blockOf, occurrences_fresh]
    · rfl
    · intro o h h'
      subst h'
      simp only [exSum, negNamed, CExpr.expr, objects, List.mem_append, List.mem_singleton,
        Target.mk.injEq] at h
      rcases h with h | h
      · exact h1 h.1
      · exact h2 h.1

/-- **C65 (wrong object).** In `-v` the answer for `p = -u`, which does not occur, is the identity. -/
theorem c65_wrong_object {ε : ℝ} (s : Store (geoLib ε)) :
    (∀ n ∈ subterms (negNamed ε 1), ¬ SameExpr n.2 (negNamed ε 5)) ∧
      jacobianNode s (negNamed ε 1) (negNamed ε 5) = some (some 1) := by
  constructor
  · intro n hn
    simp only [negNamed, subterms, List.mem_cons, List.not_mem_nil, or_false] at hn
    rcases hn with rfl | rfl
    · simp [SameExpr, negNamed, refers]
    · simp [SameExpr, negNamed, shape]
  · rw [c65_type_only s (negNamed ε 1) (negNamed ε 5) (negNamed ε 1) rfl rfl]
    obtain ⟨h, -⟩ := c65_sum (geo_faithful ε) s (negNamed ε 1) (negNamed ε 1) rfl rfl
      ⟨_, self_mem_subterms _, rfl, rfl⟩ 3 0 (by simp [negNamed, refers])
      (show value s (negNamed ε 1).expr = some (-(s 1 (Ty.vec .trans)) : V3) from rfl)
    rw [h]
    have e1 : abstracted (negNamed ε 1) 3 0 (negNamed ε 1) =
        Expr.leaf (L := geoLib ε) 3 0 (Ty.vec .trans) := by
      rw [abstracted.eq_def]; exact if_pos ⟨rfl, rfl⟩
    rw [e1, occurrences_self (L := geoLib ε) _ ⟨3, 0, Ty.vec .trans⟩]
    exact congrArg some (List.sum_singleton (x := idBlock (L := geoLib ε) rfl))

example (ε : ℝ) (a : ℕ) : (negNeg ε a .cref).isSame (negNeg ε a .cref) = true :=
  (c27_isSame_partial _ _ rfl).2 ⟨rfl, rfl⟩

example (ε : ℝ) (a : ℕ) := (c27_equivalence (negNeg ε a .cref) (negNeg ε a .cref)
  (negNeg ε a .cref)).2.2 ((c27_equivalence _ (negNamed ε a) (negNamed ε a)).1)
  ((c27_equivalence _ (negNamed ε a) (negNamed ε a)).1)

example (ε : ℝ) (s : Store (geoLib ε)) :
    (jacobianNode s (exSum ε 0) (negNamed ε 1)).isSome = true :=
  (c65_accepted s (exSum ε 0) (negNamed ε 1) rfl ⟨⟨.named, rfl⟩, trivial⟩).2
    ⟨rfl, _, exSum_subterm ε 0, rfl⟩

/-- A target with an operation inside is rejected even though it occurs. -/
example (ε : ℝ) (s : Store (geoLib ε)) (f : Form) (hf : (negNeg ε 1 f).Written) :
    (jacobianNode s (negNeg ε 1 f) (negNeg ε 1 f)).isSome = false := by
  rw [Bool.eq_false_iff]
  intro h
  have := ((c65_accepted s _ _ rfl hf).1 h).1
  simp [negNeg, negNamed, OnLeaves] at this

example : jacobianMethodAccepts (CExpr.leaf (L := geoLib dblEps) 1 0 (Ty.vec .trans)) = true :=
  (c65_method _).2 ⟨_, _, rfl⟩

example :=
  c65_derivative (by norm_num [dblEps]) (by norm_num [dblEps]) demo (exSum dblEps 0)
    (negNamed dblEps 1) rfl rfl (exSum_occurs dblEps 0)
    (by simp [exSum, negNamed, CExpr.expr, RegularAt, RegularUn, RegularBin, Valid]) 3 0
    (by simp [exSum, negNamed, refers])
    (c65_disagree (ε := dblEps) demo 0 7 (by simp) (by simp) (by simp)).1

example := c65_address_evaluators (ε := dblEps) (by norm_num [dblEps]) demo (exSum dblEps 0) rfl
    (by simp [exSum, negNamed, CExpr.expr, RegularAt, RegularUn, RegularBin, Valid]) 7 (.vec .trans)
    (by simp) (by simp [exSum, negNamed, refers])

example := c65_leaf (L := geoLib dblEps) demo ⟨2, 0, Ty.vec .trans⟩ (exSum dblEps 0) rfl

end Examples

end WG
