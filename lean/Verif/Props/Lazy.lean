import Verif.Lemmas.LazyCompound
import Verif.Props.Compound

/-!
# C52, C24: intermediate results that are unevaluated Eigen expressions
-/

namespace WG
open Matrix Spec

variable {L : Lib} (Z : Laziness L) (s : Store L)

/-! ## C52: evaluators of expressions other than compounds -/

/-- **C52 (value).** Whatever the overloads leave unevaluated, `eval()` reads no destroyed object and
returns the value of the expression. -/
theorem c52_value {τ : L.Ty} (e : Expr L τ) : e.evalRun Z s = .ok (value s e) := by
  obtain ⟨m, h1, h2, _⟩ := build_ok Z s e false 0 [] fun _ => none
  unfold Expr.evalRun
  rw [h1]
  simp only [force_placed Z s e false 0 [] h2, shape_den, mk_val]

/-- **C52 (Jacobians).** The same for the Jacobian of every expression with respect to every target
told apart by its address: it is the sum over the occurrences of the products of local derivatives. -/
theorem c52_dynamic (t : Target L) {τ : L.Ty} (e : Expr L τ) (hd : Distinguished t e) :
    e.dynRun Z s t.addr t.ty = .ok (blockOf (occurrences s t e)) := by
  obtain ⟨m, h1, h2, _⟩ := build_ok Z s e false 0 [] fun _ => none
  unfold Expr.dynRun
  rw [h1]
  simp only [dyn_placed Z s t.addr t.ty e false 0 [] h2, dyn_eq s t e hd]

/-- **C52 (Jacobians, static evaluator).** -/
theorem c52_static (t : Target L) {τ : L.Ty} (e : Expr L τ) (hp : e.noProxy) :
    e.fwdRun Z s t = .ok (blockOf (occurrences s t e)) := by
  obtain ⟨m, h1, h2, _⟩ := build_ok Z s e false 0 [] fun _ => none
  unfold Expr.fwdRun
  rw [h1]
  simp only [fwd_placed Z s t e false 0 [] h2, fwd_eq s t e hp]

/-- **C52 (isolation).** An evaluator built among any others, in any state of the memory, does not
disturb them; and as long as nothing is changed in it, it can be read, with the same outcome for
every result and Jacobian, whatever happens to the others. -/
theorem c52_isolated {τ : L.Ty} (e : Expr L τ) (n : ℕ) (m : EMem L) :
    ∃ x m', LTree.build Z s false n [] e m = some (x, m') ∧
      (∀ l : Loc, l.obj ≠ n → m' l = m l) ∧
      ∀ m'' : EMem L, (∀ l : Loc, l.obj = n → m'' l = m' l) →
        x.res.force m'' = some (value s e) ∧ x.observe m'' = some (ETree.mk s e) ∧
        (∀ t σ, x.dyn Z m'' t σ = some ((ETree.mk s e).dyn t σ)) ∧
        ∀ t, x.fwd Z m'' t = some ((ETree.mk s e).fwd t) := by
  obtain ⟨m', h1, h2, h3⟩ := build_ok Z s e false n [] m
  refine ⟨_, m', h1, fun l hl => h3 l fun h => hl h.1, fun m'' hm => ?_⟩
  have h4 := placed_congr Z s e false n [] (fun l hl => hm l hl.1) h2
  refine ⟨?_, observe_placed Z s e false n [] h4, fun t σ => dyn_placed Z s t σ e false n [] h4,
    fun t => fwd_placed Z s t e false n [] h4⟩
  rw [force_placed Z s e false n [] h4, shape_den, mk_val]

open Classical in
/-- **C52, limit.** Once the evaluator has been copied and the original destroyed, the result can be
read exactly if it is not an unevaluated expression, and a Jacobian exactly if the way from the
target to the root passes no operation reading an unevaluated result. -/
theorem c52_moved {τ : L.Ty} (e : Expr L τ) (n : ℕ) (m : EMem L) :
    ∃ x m', LTree.build Z s false n [] e m = some (x, m') ∧
      x.res.force (m'.kill n) = (if Unevaluated Z e then none else some (value s e)) ∧
      (∀ t : Target L, Distinguished t e → x.dyn Z (m'.kill n) t.addr t.ty =
        if Dangles Z t e then none else some (blockOf (occurrences s t e))) ∧
      (∀ t : Target L, e.noProxy → x.fwd Z (m'.kill n) t =
        if Dangles Z t e then none else some (blockOf (occurrences s t e))) := by
  obtain ⟨m', h1, h2, _⟩ := build_ok Z s e false n [] m
  have hg : Gone (m'.kill n) n := fun p => if_pos ⟨rfl, rfl⟩
  have hh : HeapPlaced Z s (m'.kill n) n [] e :=
    heapPlaced_of_placed Z s e n [] (fun l _ hl => kill_other m' n l (.inl hl)) h2
  refine ⟨_, m', h1, ?_, fun t hd => dyn_gone Z s hg t e [] hh hd,
    fun t hp => fwd_gone Z s hg t e [] hp⟩
  by_cases hu : Unevaluated Z e
  · rw [if_pos hu, force_gone Z s hg e [] ((unevaluated_iff Z e).2 hu)]
  · rw [if_neg hu, shape_plain Z s e false n [] (by
      simpa using (unevaluated_iff Z e).not.2 hu), shape_den, mk_val]
    rfl

/-! ## The tables of arguments read -/

/-- **C52 (tables).** The Jacobian overloads of the library do not depend on the arguments listed as
not read. -/
theorem c52_reads_unary (ε : ℝ) {a b : Ty} (op : Un a b) (v v' : b.Val) (x x' : a.Val)
    (hv : (Un.reads op).1 = true → v = v') (hx : (Un.reads op).2 = true → x = x') :
    (geoLib ε).jacU op v x = (geoLib ε).jacU op v' x' := by
  show jacUn ε op v x = jacUn ε op v' x'
  cases op <;> simp only [Un.reads, Bool.false_eq_true, false_implies, true_implies] at hv hx <;>
    first
    | (subst hv; subst hx; rfl)
    | (subst hv; rfl)
    | (subst hx; rfl)
    | rfl

theorem c52_reads_left (ε : ℝ) {a b c : Ty} (op : Bin a b c) (v v' : c.Val) (x x' : a.Val)
    (y y' : b.Val) (hv : (Bin.readsL op).1 = true → v = v') (hx : (Bin.readsL op).2.1 = true → x = x')
    (hy : (Bin.readsL op).2.2 = true → y = y') :
    (geoLib ε).jacL op v x y = (geoLib ε).jacL op v' x' y' := by
  show jacL op v x y = jacL op v' x' y'
  cases op <;>
    simp only [Bin.readsL, Bool.false_eq_true, false_implies, true_implies] at hv hx hy <;>
    first
    | (subst hv; rfl)
    | (subst hy; rfl)
    | rfl

theorem c52_reads_right (ε : ℝ) {a b c : Ty} (op : Bin a b c) (v v' : c.Val) (x x' : a.Val)
    (y y' : b.Val) (hv : (Bin.readsR op).1 = true → v = v') (hx : (Bin.readsR op).2.1 = true → x = x')
    (hy : (Bin.readsR op).2.2 = true → y = y') :
    (geoLib ε).jacR op v x y = (geoLib ε).jacR op v' x' y' := by
  show jacR op v x y = jacR op v' x' y'
  cases op <;>
    simp only [Bin.readsR, Bool.false_eq_true, false_implies, true_implies] at hv hx hy <;>
    first
    | (subst hx; subst hy; rfl)
    | (subst hx; rfl)
    | rfl

/-! ## Examples -/

/-- `exp(-φ)` and `-φ` with `φ` a rotation vector. -/
noncomputable abbrev exNeg (ε : ℝ) : Expr (geoLib ε) (.vec .relrot) :=
  .un 7 (.minus .relrot) (gleaf ε 1 0 (.vec .relrot))
noncomputable abbrev exExpNeg (ε : ℝ) : Expr (geoLib ε) (.rot .quat) := .un 8 .expRel (exNeg ε)

theorem exNeg_unevaluated (ε : ℝ) : Unevaluated (geoLazy ε) (exNeg ε) := .nest rfl
theorem exExpNeg_dangles (ε : ℝ) : Dangles (geoLazy ε) ⟨1, 0, .vec .relrot⟩ (exExpNeg ε) :=
  .unOperand (by simp [objects, gleaf]) rfl (exNeg_unevaluated ε)

example (ε : ℝ) (s : Store (geoLib ε)) :
    (exExpNeg ε).dynRun (geoLazy ε) s 1 (.vec .relrot) =
      .ok (blockOf (occurrences s ⟨1, 0, .vec .relrot⟩ (exExpNeg ε))) ∧
    blockOf (occurrences s ⟨1, 0, .vec .relrot⟩ (exExpNeg ε)) ≠ none :=
  ⟨c52_dynamic (geoLazy ε) s ⟨1, 0, .vec .relrot⟩ _ (by simp [Distinguished, objects, nodeAddrs, gleaf]),
    by rw [ne_eq, block_none_iff]; simp [objects, gleaf]⟩

/-! ## C24: compounds, whose child evaluators are moved into a tuple -/

/-- **C24 (value).** `compound.eval()` is accepted exactly if no element is an unevaluated expression
(the evaluated type would not be the plain one), and then returns the compound of the element
values. -/
theorem c24_value (c : Compound L) :
    ((∀ e ∈ c, ¬ Unevaluated Z e.2) →
      c.evalRun Z s = .ok (c.map fun e => ⟨e.1, value s e.2⟩)) ∧
    ((∃ e ∈ c, Unevaluated Z e.2) → c.evalRun Z s = .rejected) := by
  rw [evalRun_eq]
  exact ⟨fun h => if_neg (by push Not; exact h), fun h => if_pos h⟩

/-- **C24 (dynamic evaluator).** For every compound and every target told apart by its address, unless
an unevaluated result in a moved child is read: the matrix returned has in the rows of each element
exactly that element's Jacobian (zero rows where the target does not occur), and no row is left
unwritten.  Missing for the full claim: the compounds in which such a result is read, where the
behaviour is undefined (`c24_dynamic_undefined`). -/
theorem c24_dynamic_partial (t : Target L) (c : Compound L) (hd : ∀ e ∈ c, Distinguished t e.2)
    (hz : ∀ e ∈ c, ¬ Dangles Z t e.2) :
    ∃ m, c.dynJacobianRun Z s t.addr t.ty = .ok m ∧ IsStacked s t c m := by
  obtain ⟨m, h1, h2⟩ := compound_dynamic s t c hd
  refine ⟨m, ?_, h2⟩
  rw [dynJacobianRun_eq Z s t c hd, if_neg (by push Not; exact hz), h1]

/-- **C24, limit.** If on the way from the target to the root of an element there is an operation
whose Jacobian reads an unevaluated result, `evaluateDynamicJacobian` has undefined behaviour. -/
theorem c24_dynamic_undefined (t : Target L) (c : Compound L) (hd : ∀ e ∈ c, Distinguished t e.2)
    (hz : ∃ e ∈ c, Dangles Z t e.2) : c.dynJacobianRun Z s t.addr t.ty = .ub := by
  rw [dynJacobianRun_eq Z s t c hd, if_pos hz]

theorem jacobianRun_eq (t : Target L) (c : Compound L) : (∃ m, c.jacobianAuto s t = some m ∧
      (((∃ e ∈ c, Dangles Z t e.2) → c.jacobianRun Z s t = .ub) ∧
        ((∀ e ∈ c, ¬ Dangles Z t e.2) → c.jacobianRun Z s t = .ok m))) ∨
    (c.jacobianAuto s t = none ∧ c.jacobianRun Z s t = .rejected) := by
  unfold Compound.jacobianRun
  cases h : c.jacobianAuto s t with
  | none => exact .inr ⟨rfl, rfl⟩
  | some m =>
    refine .inl ⟨m, rfl, ?_⟩
    simp only [jacobianStaticRun_eq, jacobianAuto_static h]
    exact ⟨fun h => if_pos h, fun h => if_neg (by push Not; exact h)⟩

/-- **C24 (`jacobian(x)`), partial.** Whenever `compound.jacobian(x)` is accepted and returns, and the
elements containing the type of `x` come before all others, the matrix returned has in the rows of
each element exactly that element's Jacobian.  Missing for the full claim: compounds in which an
element without the type of `x` precedes one with it; there the claim is false
(`c24_static_wrong_rows`) or the compiler rejects the call (`c24_static_rejected`,
`c24_unique_rejected`); and the compounds for which the behaviour is undefined
(`c24_static_undefined`). -/
theorem c24_static_partial (t : Target L) (c : Compound L) (m : Rows L t.ty)
    (h : c.jacobianRun Z s t = .ok m) (hf : TypeFirst t c) : IsStacked s t c m := by
  rcases jacobianRun_eq Z s t c with ⟨m', h1, h2, h3⟩ | ⟨_, h1⟩
  · by_cases hz : ∀ e ∈ c, ¬ Dangles Z t e.2
    · rw [h3 hz] at h
      cases h
      exact compound_static s t c m h1 hf
    · rw [h2 (by push Not at hz; exact hz)] at h
      cases h
  · rw [h1] at h; cases h

/-- **C24 (acceptance).** A compound some leaf type of which is repeated (as decided by the library's
trait), whose elements containing the type of `x` come first and in which no moved unevaluated
result is read: `jacobian(x)` is accepted and returns. -/
theorem c24_static_accepted (t : Target L) (c : Compound L)
    (hu : c.uniqueList = some none) (hp : ∀ e ∈ c, e.2.noProxy) (hf : TypeFirst t c)
    (hz : ∀ e ∈ c, ¬ Dangles Z t e.2) : ∃ m, c.jacobianRun Z s t = .ok m := by
  have := compound_static_accepted s t c hu hp hf
  rcases jacobianRun_eq Z s t c with ⟨m', _, _, h3⟩ | ⟨h1, _⟩
  · exact ⟨m', h3 hz⟩
  · exact absurd h1 this

/-- **C24, limit.** If it is accepted and an unevaluated result is read, the behaviour is undefined. -/
theorem c24_static_undefined (t : Target L) (c : Compound L)
    (hu : c.uniqueList = some none) (hp : ∀ e ∈ c, e.2.noProxy) (hf : TypeFirst t c)
    (hz : ∃ e ∈ c, Dangles Z t e.2) : c.jacobianRun Z s t = .ub := by
  have := compound_static_accepted s t c hu hp hf
  rcases jacobianRun_eq Z s t c with ⟨m', _, h2, _⟩ | ⟨h1, _⟩
  · exact h2 hz
  · exact absurd h1 this

/-- **C24 is false for `jacobian(x)`.** For every compound starting with an element that does not
contain the type of `x`, followed by one of the same dimension that does, all other elements being
without that type: the Jacobian of the second element is put in the rows of the first, and the rows
of the second are zero. -/
theorem c24_static_wrong_rows (t : Target L) (e₁ e₂ : Elem L) (rest : Compound L)
    (m : Rows L t.ty) (h : Compound.jacobianRun Z s t (e₁ :: e₂ :: rest) = .ok m)
    (h1 : (t.ty, t.cls) ∉ types e₁.2) (h2 : (t.ty, t.cls) ∈ types e₂.2)
    (h3 : ∀ e ∈ rest, (t.ty, t.cls) ∉ types e.2) (hdim : L.dim e₁.1 = L.dim e₂.1) :
    (∀ j : L.Idx e₂.1, m (L.enum e₂.1 j) = some (Option.map
        (fun A : Matrix (L.Idx e₂.1) (L.Idx t.ty) ℝ => A j) (total (occurrences s t e₂.2)))) ∧
      ∀ j : L.Idx e₂.1, m (L.dim e₁.1 + L.enum e₂.1 j) = some (some 0) := by
  rcases jacobianRun_eq Z s t (e₁ :: e₂ :: rest) with ⟨m', g1, g2, g3⟩ | ⟨_, g1⟩
  · by_cases hz : ∀ e ∈ e₁ :: e₂ :: rest, ¬ Dangles Z t e.2
    · rw [g3 hz] at h
      cases h
      exact compound_wrong_rows s t e₁ e₂ rest m g1 h1 h2 h3 hdim
    · rw [g2 (by push Not at hz; exact hz)] at h
      cases h
  · rw [g1] at h; cases h

/-- **C24, limit.** The same with elements of different dimensions is rejected by the compiler. -/
theorem c24_static_rejected (t : Target L) (e₁ e₂ : Elem L) (rest : Compound L)
    (hp : ∀ e ∈ e₁ :: e₂ :: rest, e.2.noProxy)
    (h1 : (t.ty, t.cls) ∉ types e₁.2) (h2 : (t.ty, t.cls) ∈ types e₂.2)
    (hdim : L.dim e₁.1 ≠ L.dim e₂.1) :
    Compound.jacobianRun Z s t (e₁ :: e₂ :: rest) = .rejected := by
  have := compound_rejected s t e₁ e₂ rest hp h1 h2 hdim
  unfold Compound.jacobianRun
  rw [this]

/-- **C24, limit.** `jacobian(x)` of a compound all of whose leaf types are distinct is rejected by
the compiler, whatever `x`. -/
theorem c24_unique_rejected (t : Target L) (e : Elem L) (es : Compound L)
    (hp : ∀ e' ∈ e :: es, e'.2.noProxy)
    (hn : ((e :: es).map fun e' => types e'.2).flatten.Nodup) :
    Compound.jacobianRun Z s t (e :: es) = .rejected := by
  have := compound_unique_rejected s t e es hp hn
  unfold Compound.jacobianRun
  rw [this]

open Classical in
theorem evalWithJacobiansRun_eq (c : Compound L) (ts : List (Target L)) :
    c.evalWithJacobiansRun Z s ts = match c.evalWithJacobians s ts with
      | none => .rejected
      | some p =>
        if ∃ e ∈ c, Unevaluated Z e.2 then .rejected
        else if ∀ t ∈ ts, ¬ ∃ e ∈ c, Dangles Z t e.2 then .ok p else .ub := by
  unfold Compound.evalWithJacobiansRun
  cases h : c.evalWithJacobians s ts with
  | none => rfl
  | some p =>
    simp only
    rw [runAll_eq _ (fun t => (c.jacobianStatic s t).map fun J => (⟨t.ty, J⟩ : (σ : L.Ty) × Rows L σ))
      (fun t => ∃ e ∈ c, Dangles Z t e.2) (by
        intro t
        rw [jacobianStaticRun_eq]
        cases c.jacobianStatic s t with
        | none => rfl
        | some m =>
          simp only [Option.map_some]
          by_cases hz : ∃ e ∈ c, Dangles Z t e.2
          · simp only [if_pos hz]
          · simp only [if_neg hz]), evalRun_eq]
    unfold Compound.evalWithJacobians at h
    rcases hu : c.uniqueList with _ | _ | l
    · rw [hu] at h; simp at h
    · rw [hu] at h
      simp only at h
      cases hj : ts.mapM fun t => (c.jacobianStatic s t).map fun J =>
          (⟨t.ty, J⟩ : (σ : L.Ty) × Rows L σ) with
      | none => rw [hj] at h; simp at h
      | some Js =>
        rw [hj] at h
        simp only [Option.some.injEq] at h
        subst h
        simp only
        rw [compound_value]
        by_cases h1 : ∃ e ∈ c, Unevaluated Z e.2
        · simp only [if_pos h1]
        · simp only [if_neg h1]
          by_cases h2 : ∀ t ∈ ts, ¬ ∃ e ∈ c, Dangles Z t e.2
          · simp only [if_pos h2]
          · simp only [if_neg h2]
    · rw [hu] at h; simp at h

/-- **C24 (`evalWithJacobians(x...)`), partial.** Whenever the call is accepted and returns, the value
returned is the compound of the element values and, for every target whose type occurs in a first
part of the elements and not later, the Jacobian returned for it is stacked. -/
theorem c24_evalWithJacobians_partial (c : Compound L) (ts : List (Target L))
    (v : CVal L) (Js : List ((σ : L.Ty) × Rows L σ))
    (h : c.evalWithJacobiansRun Z s ts = .ok (v, Js)) :
    v = (c.map fun e => ⟨e.1, value s e.2⟩) ∧
      List.Forall₂ (fun (t : Target L) J => ∃ m : Rows L t.ty, J = ⟨t.ty, m⟩ ∧
        (TypeFirst t c → IsStacked s t c m)) ts Js := by
  rw [evalWithJacobiansRun_eq] at h
  cases he : c.evalWithJacobians s ts with
  | none => rw [he] at h; cases h
  | some p =>
    rw [he] at h
    simp only at h
    split_ifs at h
    cases h
    exact compound_evalWithJacobians s c ts v Js he

/-- **C24, limit.** `evalWithJacobians(x...)` of a compound with an unevaluated element is rejected. -/
theorem c24_evalWithJacobians_rejected (c : Compound L) (ts : List (Target L))
    (h : ∃ e ∈ c, Unevaluated Z e.2) : c.evalWithJacobiansRun Z s ts = .rejected := by
  rw [evalWithJacobiansRun_eq]
  cases c.evalWithJacobians s ts with
  | none => rfl
  | some p => exact if_pos h

/-- `(exp(-φ), φ)`. -/
noncomputable def exMoved (ε : ℝ) : Compound (geoLib ε) :=
  [⟨.rot .quat, exExpNeg ε⟩, ⟨.vec .relrot, gleaf ε 1 0 (.vec .relrot)⟩]

/-- **C24 is false: undefined behaviour, witness.** `jacobian(φ)` and `evaluateDynamicJacobian` of the
compound `(exp(-φ), φ)` compile and read a destroyed object, at all values. -/
theorem c24_undefined (ε : ℝ) (s : Store (geoLib ε)) :
    (exMoved ε).jacobianRun (geoLazy ε) s ⟨1, 0, .vec .relrot⟩ = .ub ∧
    (exMoved ε).dynJacobianRun (geoLazy ε) s 1 (.vec .relrot) = .ub := by
  have hz : ∃ e ∈ exMoved ε, Dangles (geoLazy ε) ⟨1, 0, .vec .relrot⟩ e.2 :=
    ⟨_, List.mem_cons_self, exExpNeg_dangles ε⟩
  refine ⟨c24_static_undefined (geoLazy ε) s ⟨1, 0, .vec .relrot⟩ (exMoved ε)
    (by simp [exMoved, Compound.uniqueList, concatMany, Expr.uniqueList, concatIfUnique, tfind, gleaf])
    (by simp [exMoved, Expr.noProxy, gleaf])
    ⟨exMoved ε, [], by simp, by simp [exMoved, types, objects, gleaf], by simp⟩ hz,
    c24_dynamic_undefined (geoLazy ε) s ⟨1, 0, .vec .relrot⟩ (exMoved ε) ?_ hz⟩
  intro e he
  simp only [exMoved, List.mem_cons, List.not_mem_nil, or_false] at he
  rcases he with rfl | rfl <;> simp [Distinguished, objects, nodeAddrs, gleaf]

theorem not_dangles_leaf {t : Target L} {a c : ℕ} {τ : L.Ty} :
    ¬ Dangles Z t (.leaf a c τ) := fun h => by cases h

theorem exSwap_reads (ε : ℝ) (t : Target (geoLib ε)) : ∀ e ∈ exSwap ε, ¬ Dangles (geoLazy ε) t e.2 := by
  intro e he
  simp only [exSwap, List.mem_cons, List.not_mem_nil, or_false] at he
  rcases he with rfl | rfl
  · simp only [dangles_bin, leftBad, rightBad]
    rintro ((h | ⟨_, h⟩) | h | ⟨_, h⟩)
    · exact not_dangles_leaf _ h
    · simp [geoLazy, Bin.readsL] at h
    · exact not_dangles_leaf _ h
    · simp [geoLazy, Bin.readsR] at h
  · exact not_dangles_leaf _

theorem exStack_reads (ε : ℝ) (t : Target (geoLib ε)) :
    ∀ e ∈ exStack ε, ¬ Dangles (geoLazy ε) t e.2 := by
  intro e he
  simp only [exStack, List.mem_cons, List.not_mem_nil, or_false] at he
  rcases he with rfl | rfl
  · exact not_dangles_leaf _
  · simp only [dangles_bin, leftBad, rightBad]
    rintro ((h | ⟨_, h⟩) | h | ⟨_, h⟩)
    · exact not_dangles_leaf _ h
    · simp [geoLazy, Bin.readsL] at h
    · exact not_dangles_leaf _ h
    · simp [geoLazy, Bin.readsR] at h

/-- **C24 is false for `jacobian(x)`, witness.** In the library there is a compound, and a target in
it, for which `jacobian(x)` returns and the matrix returned is not the stack of the element
Jacobians. -/
theorem c24_false (ε : ℝ) (s : Store (geoLib ε)) :
    ∃ m, (exSwap ε).jacobianRun (geoLazy ε) s ⟨2, 0, .vec .relrot⟩ = .ok m ∧
      ¬ IsStacked s ⟨2, 0, .vec .relrot⟩ (exSwap ε) m := by
  obtain ⟨m, h1, h2⟩ := compound_wrong_stack ε s
  refine ⟨m, ?_, h2⟩
  rcases jacobianRun_eq (geoLazy ε) s ⟨2, 0, .vec .relrot⟩ (exSwap ε) with ⟨m', g1, _, g3⟩ | ⟨g1, _⟩
  · rw [g3 (exSwap_reads ε _)]
    exact congrArg _ (Option.some.inj (g1.symm.trans h1))
  · exact absurd (g1.symm.trans h1) (by simp)

example (ε : ℝ) (s : Store (geoLib ε)) :
    ∃ m, (exStack ε).jacobianRun (geoLazy ε) s ⟨1, 0, .vec .trans⟩ = .ok m ∧
      IsStacked s ⟨1, 0, .vec .trans⟩ (exStack ε) m := by
  obtain ⟨m, hm⟩ := c24_static_accepted (geoLazy ε) s ⟨1, 0, .vec .trans⟩ (exStack ε)
    (by simp [exStack, Compound.uniqueList, concatMany, Expr.uniqueList, concatIfUnique, tfind])
    (by simp [exStack, Expr.noProxy]) (exStack_typeFirst ε) (exStack_reads ε _)
  exact ⟨m, hm, c24_static_partial (geoLazy ε) s _ _ m hm (exStack_typeFirst ε)⟩

example (ε : ℝ) (s : Store (geoLib ε)) :
    ∃ m, (exSwap ε).dynJacobianRun (geoLazy ε) s 2 (.vec .relrot) = .ok m ∧
      IsStacked s ⟨2, 0, .vec .relrot⟩ (exSwap ε) m :=
  c24_dynamic_partial (geoLazy ε) s ⟨2, 0, .vec .relrot⟩ (exSwap ε) (by
    intro e he
    simp only [exSwap, List.mem_cons, List.not_mem_nil, or_false] at he
    rcases he with rfl | rfl <;> simp [Distinguished, objects, nodeAddrs]) (exSwap_reads ε _)

/-- `(-φ, φ)` can be differentiated but not evaluated. -/
example (ε : ℝ) (s : Store (geoLib ε)) :
    Compound.evalRun (geoLazy ε) s [⟨.vec .relrot, exNeg ε⟩, ⟨.vec .relrot, gleaf ε 1 0 (.vec .relrot)⟩]
        = .rejected ∧
      ∃ m, Compound.jacobianRun (geoLazy ε) s ⟨1, 0, .vec .relrot⟩
        [⟨.vec .relrot, exNeg ε⟩, ⟨.vec .relrot, gleaf ε 1 0 (.vec .relrot)⟩] = .ok m := by
  refine ⟨(c24_value (geoLazy ε) s _).2 ⟨_, List.mem_cons_self, exNeg_unevaluated ε⟩,
    c24_static_accepted (geoLazy ε) s ⟨1, 0, .vec .relrot⟩ _
      (by simp [Compound.uniqueList, concatMany, Expr.uniqueList, concatIfUnique, tfind, gleaf])
      (by simp [Expr.noProxy, gleaf]) ⟨_, [], (List.append_nil _).symm, by simp [types, objects, gleaf],
        by simp⟩ ?_⟩
  intro e he
  simp only [List.mem_cons, List.not_mem_nil, or_false] at he
  rcases he with rfl | rfl
  · simp only [dangles_un, unBad]
    rintro (h | ⟨_, h⟩)
    · exact not_dangles_leaf _ h
    · simp [geoLazy, Un.reads] at h
  · exact not_dangles_leaf _

/-- Each remaining theorem at concrete compounds. -/
example (ε : ℝ) (s : Store (geoLib ε)) := c24_static_rejected (geoLazy ε) s
  (⟨2, 0, .vec .twist⟩ : Target (geoLib ε)) ⟨.vec .trans, gleaf ε 1 0 (.vec .trans)⟩
  ⟨.vec .twist, gleaf ε 2 0 (.vec .twist)⟩ [] (by simp [Expr.noProxy]) (by simp [types, objects])
  (by simp [types, objects]) (show (3 : ℕ) ≠ 6 by decide)

example (ε : ℝ) (s : Store (geoLib ε)) := c24_unique_rejected (geoLazy ε) s
  (⟨2, 0, .vec .twist⟩ : Target (geoLib ε)) ⟨.vec .trans, gleaf ε 1 0 (.vec .trans)⟩
  [⟨.vec .twist, gleaf ε 2 0 (.vec .twist)⟩] (by simp [Expr.noProxy]) (by simp [types, objects])

example (ε : ℝ) (s : Store (geoLib ε)) := c52_static (geoLazy ε) s
  (⟨1, 0, .rot .quat⟩ : Target (geoLib ε)) (exTwice ε) rfl

end WG
