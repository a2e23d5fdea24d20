import Verif.Lemmas.DynCache
import Verif.Props.Differentiation

/-! # C36: dynamic expressions never answer from a stale cache -/

namespace WG

variable {L : Lib}

open Spec

theorem runOps_state : (ops : List (DOp L)) → {st₀ st : DState L} → runOps ops st₀ = some st →
    st.store = leavesAfter ops st₀.store ∧ st.bodies = nodesAfter ops st₀.bodies
  | [], _, _, h => by cases h; exact ⟨rfl, rfl⟩
  | .write a τ v :: os, st₀, st, h => runOps_state os h
  | .create n e :: os, st₀, st, h => runOps_state os h
  | .copy n m :: os, st₀, st, h => runOps_state os h
  | .destroy n :: os, st₀, st, h => runOps_state os h
  | .rebind n e :: os, st₀, st, h => runOps_state os h
  | .eval k e :: os, st₀, st, h => by
    obtain ⟨st₁, h₁, h⟩ := Option.bind_eq_some_iff.1 h
    obtain ⟨r, -, rfl⟩ := Option.map_eq_some_iff.1 h₁
    have := runOps_state os h
    exact this
  | .jacobian k t e :: os, st₀, st, h => by
    obtain ⟨st₁, h₁, h⟩ := Option.bind_eq_some_iff.1 h
    obtain ⟨r, -, rfl⟩ := Option.map_eq_some_iff.1 h₁
    have := runOps_state os h
    exact this
  | .dynJacobian k a σ e :: os, st₀, st, h => by
    obtain ⟨st₁, h₁, h⟩ := Option.bind_eq_some_iff.1 h
    obtain ⟨r, -, rfl⟩ := Option.map_eq_some_iff.1 h₁
    have := runOps_state os h
    exact this
  | .dynReverse k e :: os, st₀, st, h => by
    obtain ⟨st₁, h₁, h⟩ := Option.bind_eq_some_iff.1 h
    obtain ⟨r, -, rfl⟩ := Option.map_eq_some_iff.1 h₁
    have := runOps_state os h
    exact this

section
variable {τ : L.Ty} {e : DExpr L τ} {E : Expr L τ} {ops : List (DOp L)} {st₀ st : DState L} {k : ℕ}

/-- **C36, values.**  Whatever happened before — leaf assignments, nodes made, copied with their
caches, destroyed, rebound, evaluations and Jacobian requests on anything — and whatever the caches
held at the start, evaluating gives the value of the tree the expression stands for now, on the leaf
values of now. -/
theorem c36_eval (h : runOps ops st₀ = some st) (hu : Unfolds (nodesAfter ops st₀.bodies) e E)
    (hk : nesting E ≤ k) :
    ∃ C, e.eval st.store st.bodies k st.caches = some (E.eval (leavesAfter ops st₀.store), C) := by
  obtain ⟨hs, hb⟩ := runOps_state ops h
  rw [← hb] at hu
  obtain ⟨C, hc, -, -⟩ := construct_ok (s := st.store) hu k st.caches hk
  refine ⟨C, ?_⟩
  show (construct _ _ _ _).map _ = _
  rw [hc, ← hs]
  exact congrArg (fun v => some (v, C)) (ctree_val E)

/-- **C36, `jacobian(x)`.** -/
theorem c36_jacobian (h : runOps ops st₀ = some st) (hu : Unfolds (nodesAfter ops st₀.bodies) e E)
    (hk : nesting E ≤ k) (t : Target L) :
    ∃ C, e.jacobian st.store st.bodies k t st.caches =
      some (E.jacobian (leavesAfter ops st₀.store) t, C) := by
  obtain ⟨hs, hb⟩ := runOps_state ops h
  rw [← hb] at hu
  obtain ⟨C, hc, -, f⟩ := construct_ok (s := st.store) hu k st.caches hk
  refine ⟨C, ?_⟩
  show (construct _ _ _ _).bind _ = _
  rw [hc, ← hs]
  show ((ctree st.store E).fwd t _ C).map _ = _
  rw [fwd_ok t E hk f]; rfl

/-- **C36, Jacobians by address.** -/
theorem c36_dynJacobian (h : runOps ops st₀ = some st)
    (hu : Unfolds (nodesAfter ops st₀.bodies) e E) (hk : nesting E ≤ k) (a : ℕ) (σ : L.Ty) :
    ∃ C, e.dynJacobian st.store st.bodies k a σ st.caches =
      some (E.dynJacobian (leavesAfter ops st₀.store) a σ, C) := by
  obtain ⟨hs, hb⟩ := runOps_state ops h
  rw [← hb] at hu
  obtain ⟨C, hc, -, f⟩ := construct_ok (s := st.store) hu k st.caches hk
  refine ⟨C, ?_⟩
  show (construct _ _ _ _).bind _ = _
  rw [hc, ← hs]
  show ((ctree st.store E).dyn a σ _ C).map _ = _
  rw [dyn_ok a σ E k hk f]; rfl

/-- **C36, all Jacobians at once by reverse mode.** -/
theorem c36_dynReverse (h : runOps ops st₀ = some st)
    (hu : Unfolds (nodesAfter ops st₀.bodies) e E) (hk : nesting E ≤ k) :
    ∃ C, e.dynReverse st.store st.bodies k st.caches =
      some ((E.eval (leavesAfter ops st₀.store),
        (ETree.mk (leavesAfter ops st₀.store) E).dynRev (idBlock rfl)), C) := by
  obtain ⟨hs, hb⟩ := runOps_state ops h
  rw [← hb] at hu
  obtain ⟨C, hc, -, f⟩ := construct_ok (s := st.store) hu k st.caches hk
  refine ⟨C, ?_⟩
  show (construct _ _ _ _).bind _ = _
  rw [hc, ← hs]
  show ((ctree st.store E).dynRev _ _ C).map _ = _
  rw [dynRev_ok E k hk f]
  exact congrArg (fun v => some ((v, _), C)) (ctree_val E)

end

/-- A node at 50 wrapping `R * v`, used below a rotation by the same `R`. -/
def exNode (ε : ℝ) : DExpr (geoLib ε) (.vec .trans) :=
  .bin 101 Bin.rotateQ (DExpr.leaf (L := geoLib ε) 1 0 (Ty.rot .quat)) (DExpr.leaf (L := geoLib ε) 3 0 (Ty.vec .trans))
/-- `R * handle`. -/
def exHandle (ε : ℝ) : DExpr (geoLib ε) (.vec .trans) :=
  .bin 100 Bin.rotateQ (DExpr.leaf (L := geoLib ε) 1 0 (Ty.rot .quat)) (DExpr.proxy (L := geoLib ε) 50 (Ty.vec .trans))

/-- Make the node, evaluate, copy the node with its cache, then change `v`. -/
def exHistory (ε : ℝ) (v : V3) : List (DOp (geoLib ε)) :=
  [.create 50 (exNode ε), .eval 1 (exHandle ε), .copy 51 50, .dynReverse 1 (exHandle ε),
    DOp.write (L := geoLib ε) 3 (Ty.vec .trans) v]

theorem exHandle_unfolds (ε : ℝ) (v : V3) (B : Bodies (geoLib ε)) :
    Unfolds (nodesAfter (exHistory ε v) B) (exHandle ε) (exDyn ε) :=
  .bin (.leaf _ _ _) (.proxy (e := exNode ε) rfl (.bin (.leaf _ _ _) (.leaf _ _ _)))

/-- The history runs, from any start; the hypotheses of the theorems above are met. -/
example (ε : ℝ) (v : V3) (st₀ : DState (geoLib ε)) : ∃ st, runOps (exHistory ε v) st₀ = some st :=
  ⟨_, rfl⟩

example (ε : ℝ) : nesting (exDyn ε) = 1 := rfl

/-- The cache is used: asking the node directly for a Jacobian after the leaf has changed, without
evaluating, would answer from the stale evaluator.  (`dynJacobian` is private for this reason.) -/
theorem c36_cache_is_stale (s₀ s₁ : Store L) (B : Bodies L) {τ : L.Ty} (e : DExpr L τ) (E : Expr L τ)
    (n : ℕ) (C : Caches L) (hb : B n = some ⟨τ, e⟩) (hu : Unfolds B e E) (t : ℕ) (σ : L.Ty) :
    ∃ C', dynEvaluate s₀ B (nesting E + 1) n τ C = some (E.eval s₀, C') ∧
      dynJacobianCall s₁ B t σ (nesting E + 1) n τ C' = some ((ETree.mk s₀ E).dyn t σ, C') := by
  obtain ⟨C', h, -, f⟩ := construct_ok (s := s₀) (.proxy hb hu) (nesting E + 1) C le_rfl
  obtain ⟨r, hr, hr'⟩ := Option.map_eq_some_iff.1 h
  cases r with
  | mk v C'' =>
  obtain ⟨h1, rfl⟩ := Prod.mk.inj hr'
  have h1' : v = (ctree s₀ E).val := by cases h1; rfl
  refine ⟨C'', ?_, ?_⟩
  · rw [hr, h1', ctree_val]; rfl
  · show (lazyEvaluator s₁ B _ n τ C'').bind _ = _
    rw [lazy_fresh f.1]
    exact dyn_ok t σ E _ le_rfl f.2

end WG
