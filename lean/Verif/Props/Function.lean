import Verif.Lemmas.Function
import Verif.Props.Storage

/-!
# C64: functions that return expressions
-/

namespace WG
open Spec

variable {L : Lib} [DecidableEq L.Ty]

/-- What a function returns, when it moves the local variables it names: evaluated at any later time,
each returned object has the value of the expression with the definitions of the locals written in
place, although the locals are dead.  (Any caller, any later statements.) -/
theorem c64_value {cs cs' : List (Stmt L)} {f : Function L} {st st1 st2 : Machine L}
    (h : runStmts cs (Machine.start L) = some st) (hf : Disciplined f) (hc : f.call st = some st1)
    (h' : runStmts cs' st1 = some st2) {r : InitStep L} (hr : r ∈ f.results) :
    ∃ o, st1.cells (.var r.name) = some ⟨r.ty, o⟩ ∧
      ∀ v, Reads st2.cells o v ↔
        Denotes st.cells st2.cells (inPlace (defs f.locals fun _ => none) r.src) v := by
  obtain ⟨b, -⟩ := stmts_wf cs between_start h
  obtain ⟨b1, -, h1, -⟩ := call_ok b hf hc
  obtain ⟨-, o, ho, hv⟩ := h1 r hr
  obtain ⟨-, -, k, -⟩ := stmts_wf cs' b1 h'
  exact ⟨o, ho, hv _ k⟩

/-- Nothing that exists after the call refers to a local variable or to a temporary of the function:
what objects refer to without owning it are variables the caller had declared before the call. -/
theorem c64_borrows {cs : List (Stmt L)} {f : Function L} {st st1 : Machine L}
    (h : runStmts cs (Machine.start L) = some st) (ht : ∀ c ∈ cs, c.Tidy) (hf : Disciplined f)
    (hl : ∀ p ∈ f.locals ++ f.results, ∀ a ∈ lvalues p.src, a ∈ st.declared)
    (hc : f.call st = some st1) {i : Id} {τ : L.Ty} {o : XObj L τ} (ho : st1.cells i = some ⟨τ, o⟩) :
    ∀ j ∈ borrowed o, ∃ a ∈ st.declared, j = .var a := by
  obtain ⟨b, -⟩ := stmts_wf cs between_start h
  exact (call_ok b hf hc).2.2.2 (· ∈ st.declared) hl (fun i τ o ho => c38_program_partial ht h ho) i τ o ho

/-- A function of leaves that makes no handles: whatever happens after the call, as long as its
arguments are alive the returned objects can be evaluated, and give the value of the expression at the
values the arguments then have. -/
theorem c64_evaluable {cs cs' : List (Stmt L)} {f : Function L} {st st1 st2 : Machine L}
    (h : runStmts cs (Machine.start L) = some st) (hf : Disciplined f) (hc : f.call st = some st1)
    (h' : runStmts cs' st1 = some st2) {r : InitStep L} (hr : r ∈ f.results)
    (hn : NoHandles (inPlace (defs f.locals fun _ => none) r.src))
    (hm : movedVars (inPlace (defs f.locals fun _ => none) r.src) = [])
    {ρ₀ ρ : ℕ → (τ : L.Ty) → L.Val τ}
    (h0 : LeavesAt st.cells ρ₀ (inPlace (defs f.locals fun _ => none) r.src))
    (h2 : LeavesAt st2.cells ρ (inPlace (defs f.locals fun _ => none) r.src)) :
    ∃ o, st1.cells (.var r.name) = some ⟨r.ty, o⟩ ∧
      ∀ v, Reads st2.cells o v ↔ v = valueWith ρ (inPlace (defs f.locals fun _ => none) r.src) := by
  obtain ⟨o, ho, hv⟩ := c64_value h hf hc h' hr
  exact ⟨o, ho, fun v => (hv v).trans (denotes_valueWith _ hn hm h0 h2)⟩

/-- `std::move` is needed: a function that returns `op(x)` of its local leaf `x` returns an object whose
evaluation is undefined. -/
theorem c64_local_by_name {α β : L.Ty} (op : L.Un α β) (x : L.Val α) {a r : ℕ} {st : Machine L}
    (ha : a ∉ st.declared) (hr : r ∉ st.declared) (har : r ≠ a) :
    ∃ st1, (Function.mk [⟨a, .whole, .temp α x⟩] [⟨r, .whole, .un op (.named a α)⟩]).call st = some st1 ∧
      ∃ o : XObj L β, st1.cells (.var r) = some ⟨β, o⟩ ∧ ∀ v, ¬ Reads st1.cells o v := by
  let s1 : Machine L := { (st.set (.var a) (XObj.leaf α x)).endFull with declared := a :: st.declared }
  have e1 : initResult .whole a (.temp α x) st = some s1 := auto_run ha rfl
  have hcell : s1.cells (.var a) = some ⟨α, .leaf α x⟩ := set_cells st (.var a) (XObj.leaf α x)
  have e2 : (Src.un op (.named a α)).eval s1 = some (.prvalue (.un op (.ref (.var a) α)) false, s1) := by
    change Option.map _ (member (.var a) false α s1) = _
    rw [member_named hcell id]
    rfl
  have hr' : r ∉ s1.declared := fun k => (List.mem_cons.mp k).elim har hr
  let s2 : Machine L :=
    { (s1.set (.var r) (XObj.un op (.ref (.var a) α))).endFull with declared := r :: s1.declared }
  have e3 : initResult .whole r (.un op (.named a α)) s1 = some s2 := auto_run hr' e2
  have hcell2 : s2.cells (.var a) = some ⟨α, .leaf α x⟩ :=
    (set_other (i := .var r) (j := .var a) s1 (XObj.un op (.ref (.var a) α)) (by simpa using har.symm)).trans hcell
  let s3 : Machine L := { s2 with cells := fun j => if j = .var a then none else s2.cells j }
  have e4 : (Stmt.destroy a).run s2 = some s3 := by
    change Option.map _ (s2.cells (.var a)) = _
    rw [hcell2]
    rfl
  refine ⟨s3, ?_, .un op (.ref (.var a) α), ?_, fun v h => ?_⟩
  · simp only [Function.call, runInits, e1, e3, Option.bind_some, List.reverse_cons, List.reverse_nil,
      List.nil_append, List.map_cons, List.map_nil, runStmts, e4]
  · change (if _ then _ else _) = _
    rw [if_neg (by simpa using har)]
    exact set_cells s1 (.var r) (XObj.un op (.ref (.var a) α))
  · obtain ⟨w, hw, -⟩ := reads_un.mp h
    obtain ⟨o, ho, -⟩ := reads_ref.mp hw
    change (if Id.var a = .var a then none else _) = _ at ho
    rw [if_pos rfl] at ho
    cases ho

/-- `residualVector(s)` of an expression that is not a variable: the tuple holds a reference to a
temporary that is dead when the function returns, whatever the expression. -/
theorem c64_residual_vector {τ : L.Ty} {s : Src L τ} {r : ℕ} {st st1 : Machine L} (hv : ¬ IsVariable s)
    (h : (Function.mk [] [⟨r, .forwarded, s⟩]).call st = some st1) :
    ∃ o : XObj L τ, st1.cells (.var r) = some ⟨τ, o⟩ ∧ ∀ v, ¬ Reads st1.cells o v := by
  obtain ⟨s1, s2, h1, h2, h3⟩ := call_form h
  cases h1
  cases h3
  obtain ⟨_, h2, h3⟩ := Option.bind_eq_some_iff.mp h2
  cases h3
  simp only [initResult] at h2
  split at h2
  · cases h2
  · obtain ⟨⟨q, s3⟩, h1, h2⟩ := Option.bind_eq_some_iff.mp h2
    cases h2
    refine ⟨.ref (q.bind s3).1 τ, set_cells (q.bind s3).2.2 (.var r) (XObj.ref (q.bind s3).1 τ),
      fun v h => ?_⟩
    obtain ⟨o, ho, -⟩ := reads_ref.mp h
    cases q with
    | object i rv => exact eval_object_variable hv h1
    | prvalue o c => cases ho

/-- The same with `std::move` of a local variable, whatever it holds. -/
theorem c64_residual_local {τ : L.Ty} {s : Src L τ} {a r : ℕ} {st st1 : Machine L}
    (h : (Function.mk [⟨a, .whole, s⟩] [⟨r, .forwarded, .moved a τ⟩]).call st = some st1) :
    ∃ o : XObj L τ, st1.cells (.var r) = some ⟨τ, o⟩ ∧ ∀ v, ¬ Reads st1.cells o v := by
  obtain ⟨s1, s2, h1, h2, h3⟩ := call_form h
  obtain ⟨_, h1, e⟩ := Option.bind_eq_some_iff.mp h1
  cases e
  obtain ⟨_, h2, e⟩ := Option.bind_eq_some_iff.mp h2
  cases e
  obtain ⟨_, h3, e⟩ := Option.bind_eq_some_iff.mp h3
  cases e
  obtain ⟨-, hd⟩ := step_new h1
  obtain ⟨hn, -⟩ := step_new h2
  have hra : r ≠ a := fun e => hn (by rw [hd, e]; exact List.mem_cons_self)
  simp only [initResult] at h2
  rw [if_neg hn] at h2
  cases h2
  obtain ⟨c, -, rfl⟩ := Option.map_eq_some_iff.mp h3
  refine ⟨.ref (.var a) τ, ?_, fun v h => ?_⟩
  · change (if _ then _ else _) = _
    rw [if_neg (by simpa using hra)]
    exact set_cells s1 (.var r) (XObj.ref (L := L) (.var a) τ)
  · obtain ⟨o, ho, -⟩ := reads_ref.mp h
    change (if Id.var a = .var a then none else _) = _ at ho
    rw [if_pos rfl] at ho
    cases ho

/-- An argument of the function itself can be returned that way. -/
theorem c64_residual_argument {τ : L.Ty} {a r : ℕ} {st st1 : Machine L} (hd : r ≠ a)
    (h : (Function.mk [] [⟨r, .forwarded, .named a τ⟩]).call st = some st1) :
    ∃ o : XObj L τ, st1.cells (.var r) = some ⟨τ, o⟩ ∧ st1.cells (.var a) = st.cells (.var a) ∧
      ∀ m v, Reads m o v ↔ ValueOf m a τ v := by
  obtain ⟨s1, s2, h1, h2, h3⟩ := call_form h
  cases h1
  cases h3
  obtain ⟨_, h2, h3⟩ := Option.bind_eq_some_iff.mp h2
  cases h3
  obtain ⟨hn, -⟩ := step_new h2
  simp only [initResult] at h2
  rw [if_neg hn] at h2
  cases h2
  exact ⟨.ref (.var a) τ, set_cells st (.var r) (XObj.ref (L := L) (.var a) τ),
    set_other (i := .var r) (j := .var a) st (XObj.ref (L := L) (.var a) τ) (by simpa using hd.symm),
    fun m v => reads_ref⟩

/-- `makeCompound` forwards its arguments (`arg_t<Args>`), so a prvalue of const type is stored by value,
unlike as an operand (`c38_false`). -/
theorem c64_compound_const {τ : L.Ty} (x : L.Val τ) {r : ℕ} {st : Machine L} (hr : r ∉ st.declared) :
    ∃ st1, (Function.mk [] [⟨r, .member, .constResult (.temp τ x)⟩]).call st = some st1 ∧
      ∃ o : XObj L τ, st1.cells (.var r) = some ⟨τ, o⟩ ∧ Reads st1.cells o (some x) := by
  let sb : Machine L := ((Res.prvalue (XObj.leaf τ x) true).bind st).2.2
  have hcell : sb.cells (.tmp st.nTmp) = some ⟨τ, .leaf τ x⟩ := set_cells st (.tmp st.nTmp) (XObj.leaf τ x)
  have hm := member_moved (get_iff.mpr hcell)
  let s2 : Machine L := sb.set (.tmp st.nTmp) (XObj.leaf τ x).movedFrom
  let s3 : Machine L := { (s2.set (.var r) (XObj.leaf τ x)).endFull with declared := r :: st.declared }
  have e : initResult .member r (.constResult (.temp τ x)) st = some s3 := by
    simp only [initResult]
    rw [if_neg hr]
    change Option.map _ (member (.tmp st.nTmp) true τ sb) = _
    rw [hm]
    rfl
  exact ⟨s3, by simp only [Function.call, runInits, e, Option.bind_some, List.reverse_nil, List.map_nil,
    runStmts], .leaf τ x, set_cells s2 (.var r) (XObj.leaf τ x), .leaf τ x⟩

/-! ## The functor of the tests -/

/-- Classes of the functor's parameters. -/
abbrev rig : (geoLib dblEps).Ty := Ty.rigid .mat

/-- See `rig`. -/
abbrev trn : (geoLib dblEps).Ty := Ty.vec .trans

/-- `RangeBearingFunctor` (test/estimation/test_factors.hpp:59-78): parameters `T_WB` (0) and `W_v_WL`
(1), locals `B_v_Bz` (2), `range` (3), `bearing` (4); the two members of the compound are 5 and 6. -/
noncomputable def rangeBearing : Function (geoLib dblEps) :=
  { locals :=
    [⟨2, .whole, .temp trn ![0, 0, 1]⟩,
     ⟨3, .whole, .un (β := scl) (Un.norm .trans)
        (.bin (α := trn) (β := trn) (γ := trn) (Bin.sub .trans)
          (.un (α := rig) (Un.getTrans .mat) (.named 0 rig)) (.named 1 trn))⟩,
     ⟨4, .whole, .un (α := scl) (β := scl) Un.acos (.bin (α := trn) (β := trn) (Bin.dot .trans) (.moved 2 trn)
        (.un (α := trn) (Un.normalize .trans) (.bin (α := rig) (β := trn) (Bin.transform .mat)
          (.un (α := rig) (Un.invRigid .mat) (.named 0 rig)) (.named 1 trn))))⟩]
    results := [⟨5, .member, .moved 3 scl⟩, ⟨6, .member, .moved 4 scl⟩] }

theorem rangeBearing_disciplined : Disciplined rangeBearing := by
  constructor <;>
    simp [rangeBearing, Tidy, Linear, IsVariable, movedVars, vars, lvalues, NoUseAfterMove]

/-- A caller with a transform (0) and a vector (1). -/
noncomputable def rbCaller (T : (geoLib dblEps).Val rig) (v : (geoLib dblEps).Val trn) :
    List (Stmt (geoLib dblEps)) := [.auto 0 (.temp rig T), .auto 1 (.temp trn v)]

/-- Values of the parameters (the names are not needed, as their classes differ). -/
noncomputable def rbArgs (T : (geoLib dblEps).Val rig) (v : (geoLib dblEps).Val trn) (_ : ℕ) :
    (τ : (geoLib dblEps).Ty) → (geoLib dblEps).Val τ
  | .rigid .mat => T
  | .vec .trans => v
  | .vec .scalar => fun _ => 0
  | .vec .relrot => fun _ => 0
  | .vec .twist => fun _ => 0
  | .point => fun _ => 0
  | .rot .quat => ⟨0, 0, 0, 0⟩
  | .rot .mat => 0
  | .rot .aa => ⟨0, 0⟩
  | .rigid .compact => ⟨⟨0, 0, 0, 0⟩, 0⟩

/-- The call succeeds, and after the caller has overwritten the vector the range (member 5) is that of
the new vector (`c64_evaluable`, hence `c64_value`). -/
example (T : (geoLib dblEps).Val rig) (v w : (geoLib dblEps).Val trn) :
    ∃ (st st1 st2 : Machine (geoLib dblEps)) (o : XObj (geoLib dblEps) scl),
      runStmts (rbCaller T v) (Machine.start _) = some st ∧ rangeBearing.call st = some st1 ∧
      runStmts [.write 1 trn w] st1 = some st2 ∧ st1.cells (.var 5) = some ⟨scl, o⟩ ∧
      Reads st2.cells o (((geoLib dblEps).evalU (Un.getTrans .mat) T).bind fun t =>
        ((geoLib dblEps).evalB (Bin.sub .trans) t w).bind ((geoLib dblEps).evalU (Un.norm .trans))) := by
  obtain ⟨st, hst⟩ : ∃ st, runStmts (rbCaller T v) (Machine.start _) = some st := ⟨_, rfl⟩
  obtain ⟨st1, h1⟩ : ∃ st1, rangeBearing.call st = some st1 := by
    cases hst
    exact ⟨_, rfl⟩
  obtain ⟨st2, h2⟩ : ∃ st2, runStmts [.write 1 trn w] st1 = some st2 := by
    cases hst
    cases h1
    exact ⟨_, rfl⟩
  obtain ⟨o, ho, hv⟩ := c64_evaluable (r := ⟨5, .member, .moved 3 scl⟩)
    (ρ₀ := rbArgs T v) (ρ := rbArgs T w) hst rangeBearing_disciplined h1 h2
    (by simp [rangeBearing]) ⟨trivial, trivial⟩ rfl ⟨by cases hst; rfl, by cases hst; rfl⟩
      ⟨by cases hst; cases h1; cases h2; rfl, by cases hst; cases h1; cases h2; rfl⟩
  refine ⟨st, st1, st2, o, hst, h1, h2, ho, (hv _).mpr ?_⟩
  cases hst
  cases h1
  cases h2
  rfl

/-- Everything the call leaves behind refers to the transform and the vector only (`c64_borrows`). -/
example (T : (geoLib dblEps).Val rig) (v : (geoLib dblEps).Val trn) :
    ∃ (st st1 : Machine (geoLib dblEps)) (o : XObj (geoLib dblEps) scl),
      runStmts (rbCaller T v) (Machine.start _) = some st ∧ rangeBearing.call st = some st1 ∧
      st1.cells (.var 6) = some ⟨scl, o⟩ ∧ borrowed o ≠ [] ∧
      ∀ j ∈ borrowed o, ∃ a ∈ st.declared, j = .var a := by
  obtain ⟨st, hst⟩ : ∃ st, runStmts (rbCaller T v) (Machine.start _) = some st := ⟨_, rfl⟩
  obtain ⟨st1, o, h1, ho, hb⟩ : ∃ (st1 : Machine (geoLib dblEps)) (o : XObj (geoLib dblEps) scl),
      rangeBearing.call st = some st1 ∧ st1.cells (.var 6) = some ⟨scl, o⟩ ∧ borrowed o ≠ [] := by
    cases hst
    exact ⟨_, .un (α := scl) Un.acos (.bin (α := trn) (β := trn) (Bin.dot .trans) (.leaf trn ![0, 0, 1])
      (.un (α := trn) (Un.normalize .trans) (.bin (α := rig) (β := trn) (Bin.transform .mat)
        (.un (α := rig) (Un.invRigid .mat) (.ref (.var 0) rig)) (.ref (.var 1) trn)))), rfl, rfl,
      List.cons_ne_nil _ _⟩
  refine ⟨st, st1, o, hst, h1, ho, hb, c64_borrows hst ?_ rangeBearing_disciplined ?_ h1 ho⟩
  · simp [rbCaller, Stmt.Tidy, Spec.Tidy]
  · have hd : st.declared = [1, 0] := by cases hst; rfl
    simp [rangeBearing, lvalues, hd]

/-- A functor returning `residualVector(-x)` compiles and runs (`c64_residual_vector`). -/
example (x : ℝ) : ∃ (st st1 : Machine (geoLib dblEps)) (o : XObj (geoLib dblEps) scl),
    runStmts [.auto 0 (.temp scl fun _ => x)] (Machine.start _) = some st ∧
    (Function.mk [] [⟨1, .forwarded, .un (Un.minus .scalar) (.named 0 scl)⟩]).call st = some st1 ∧
    st1.cells (.var 1) = some ⟨scl, o⟩ ∧ ∀ v, ¬ Reads st1.cells o v := by
  obtain ⟨st, hst⟩ : ∃ st, runStmts [.auto 0 (.temp scl fun _ => x)] (Machine.start _) = some st := ⟨_, rfl⟩
  obtain ⟨st1, h1⟩ : ∃ st1, (Function.mk (L := geoLib dblEps) []
      [⟨1, .forwarded, .un (Un.minus .scalar) (.named 0 scl)⟩]).call st = some st1 := by
    cases hst
    exact ⟨_, rfl⟩
  obtain ⟨o, ho, hn⟩ := c64_residual_vector id h1
  exact ⟨st, st1, o, hst, h1, ho, hn⟩

/-- The same with a moved local (`c64_residual_local`), and with an argument
(`c64_residual_argument`). -/
example (x : ℝ) : ∃ (st st1 st2 : Machine (geoLib dblEps)) (o p : XObj (geoLib dblEps) scl),
    runStmts [.auto 0 (.temp scl fun _ => x)] (Machine.start _) = some st ∧
    (Function.mk [⟨2, .whole, .un (Un.minus .scalar) (.named 0 scl)⟩]
      [⟨1, .forwarded, .moved 2 scl⟩]).call st = some st1 ∧
    st1.cells (.var 1) = some ⟨scl, o⟩ ∧ (∀ v, ¬ Reads st1.cells o v) ∧
    (Function.mk [] [⟨1, .forwarded, .named 0 scl⟩]).call st = some st2 ∧
    st2.cells (.var 1) = some ⟨scl, p⟩ ∧ Reads st2.cells p (some fun _ => x) := by
  obtain ⟨st, hst⟩ : ∃ st, runStmts [.auto 0 (.temp scl fun _ => x)] (Machine.start _) = some st := ⟨_, rfl⟩
  obtain ⟨st1, h1⟩ : ∃ st1, (Function.mk (L := geoLib dblEps)
      [⟨2, .whole, .un (Un.minus .scalar) (.named 0 scl)⟩]
      [⟨1, .forwarded, .moved 2 scl⟩]).call st = some st1 := by
    cases hst
    exact ⟨_, rfl⟩
  obtain ⟨st2, h2⟩ : ∃ st2, (Function.mk (L := geoLib dblEps) []
      [⟨1, .forwarded, .named 0 scl⟩]).call st = some st2 := by
    cases hst
    exact ⟨_, rfl⟩
  obtain ⟨o, ho, hn⟩ := c64_residual_local h1
  obtain ⟨p, hp, ha, hr⟩ := c64_residual_argument (by decide) h2
  refine ⟨st, st1, st2, o, p, hst, h1, ho, hn, h2, hp, (hr _ _).mpr ⟨.leaf scl fun _ => x, ?_, .leaf _ _⟩⟩
  rw [ha]
  cases hst
  rfl

/-- `c64_local_by_name`, `c64_compound_const` from the initial state. -/
example (x : ℝ) : ∃ (st1 st2 : Machine (geoLib dblEps)) (o p : XObj (geoLib dblEps) scl),
    (Function.mk [⟨0, .whole, .temp scl fun _ => x⟩]
      [⟨1, .whole, .un (Un.minus .scalar) (.named 0 scl)⟩]).call (Machine.start _) = some st1 ∧
    st1.cells (.var 1) = some ⟨scl, o⟩ ∧ (∀ v, ¬ Reads st1.cells o v) ∧
    (Function.mk [] [⟨1, .member, .constResult (.temp scl fun _ => x)⟩]).call (Machine.start _) = some st2 ∧
    st2.cells (.var 1) = some ⟨scl, p⟩ ∧ Reads st2.cells p (some fun _ => x) := by
  obtain ⟨st1, h1, o, ho, hn⟩ := c64_local_by_name (L := geoLib dblEps) (α := scl) (β := scl)
    (Un.minus .scalar) (fun _ => x) (a := 0) (r := 1) (st := Machine.start _) (by intro h; cases h)
    (by intro h; cases h) (by decide)
  obtain ⟨st2, h2, p, hp, hr⟩ := c64_compound_const (L := geoLib dblEps) (τ := scl) (fun _ => x) (r := 1)
    (st := Machine.start _) (by intro h; cases h)
  exact ⟨st1, st2, o, p, h1, ho, hn, h2, hp, hr⟩

end WG
