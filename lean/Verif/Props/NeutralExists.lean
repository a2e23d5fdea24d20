import Verif.Props.NeutralSame
import Verif.Lemmas.NeutralBlocked

/-!
# C50: when Jacobians of expressions with Identity and Zero exist
-/

namespace WG
open Matrix Spec Filter Topology

variable {ε : ℝ} {s : Memory}

/-- The sum over the occurrences of an ordinary object is finite exactly if no occurrence is in a
vector multiplied by an identity (helper). -/
theorem total_exists_iff (hε : 0 < ε) (hε1 : ε ≤ 1) {N : ℕ → ℕ} (hN : HoldsNeutral s N) {e : NExpr}
    {o : Obj} (hm : Means ε s (spell N e) o) {f : Kind × Bool} (hf : form e = some f) {x : XTree ε}
    {x' : Tree ε} (hx : e.elab ε = some x) (hx' : (spell N e).elab ε = some x')
    (hn : NonsingularAt ε s x'.2) {n c : ℕ} {σ : Ty} (hfresh : ∀ a, N a ≠ n)
    (ht : mentions n c σ e) :
    (∃ J, total (occurrences (xmem ε s) (⟨n, c, .plain σ⟩ : Target (xLib ε)) x.2) = some J) ↔
      ¬Blocked n c σ e := by
  constructor
  · rintro ⟨J, hJ⟩ hb
    rw [total_none (blocked_none hε hN e hm hf hx hb)] at hJ
    cases hJ
  · intro hb
    have hal := align_plain (c := c) (σ := σ) hfresh e hx
    have ht' : (⟨n, c, σ⟩ : Target (geoLib ε)) ∈ objects x'.2 :=
      (elab_written _ hx').1 ▸ align_mem hal ((mentions_iff e hx).mpr ht)
    obtain ⟨J', hJ'⟩ := slope_some hε hε1 s ⟨n, c, σ⟩ x'.2 (means_regular hε hm hx') hn ht'
    obtain ⟨tw', -, occ, -⟩ := spell_pair (t := (⟨n, c, .plain σ⟩ : Target (xLib ε)))
      (t' := ⟨n, c, σ⟩) (h := Twin.refl σ) (q := True) hε hN rfl e hm hf hx hx' hal
      fun _ => ⟨σ, rfl, hb⟩
    rcases Agree.total occ with ⟨k, -⟩ | k | k
    · exact absurd trivial k
    · rw [hJ'] at k; cases k
    · rw [hJ'] at k
      revert k
      cases hT : total (occurrences (xmem ε s) (⟨n, c, .plain σ⟩ : Target (xLib ε)) x.2) with
      | none => intro k; cases k
      | some J => exact fun _ => ⟨J, rfl⟩

/-- **C50, exact condition.** In an expression with Identity and Zero objects, at a point where the
same expression with ordinary objects is differentiable, `jacobian(x)` with respect to an ordinary
object exists exactly if `x` does not occur in a vector multiplied by an identity. -/
theorem c50_exists_iff (hε : 0 < ε) (hε1 : ε ≤ 1) {N : ℕ → ℕ} (hN : HoldsNeutral s N) {e : NExpr}
    {o : Obj} (hm : Means ε s (spell N e) o) {f : Kind × Bool} (hf : form e = some f) {x : XTree ε}
    {x' : Tree ε} (hx : e.elab ε = some x) (hx' : (spell N e).elab ε = some x')
    (hn : NonsingularAt ε s x'.2) {n c : ℕ} {σ : Ty} (hfresh : ∀ a, N a ≠ n)
    (ht : mentions n c σ e)
    (hc : x.2.noProxy ∨ x.2.fwdCompiles (⟨n, c, .plain σ⟩ : Target (xLib ε)) ∧
      Distinguished (⟨n, c, .plain σ⟩ : Target (xLib ε)) x.2) :
    (∃ J, x.2.jacobianAuto (xmem ε s) ⟨n, c, .plain σ⟩ = some J) ↔ ¬Blocked n c σ e := by
  rw [c20_auto (xmem ε s) _ x.2 ((mentions_iff e hx).mpr ht) hc]
  exact total_exists_iff hε hε1 hN hm hf hx hx' hn hfresh ht

/-- **C50, exact condition.** The same for `evaluateDynamicJacobian`. -/
theorem c50_dynamic_exists_iff (hε : 0 < ε) (hε1 : ε ≤ 1) {N : ℕ → ℕ} (hN : HoldsNeutral s N)
    {e : NExpr} {o : Obj} (hm : Means ε s (spell N e) o) {f : Kind × Bool} (hf : form e = some f)
    {x : XTree ε} {x' : Tree ε} (hx : e.elab ε = some x) (hx' : (spell N e).elab ε = some x')
    (hn : NonsingularAt ε s x'.2) {n c : ℕ} {σ : Ty} (hfresh : ∀ a, N a ≠ n)
    (ht : mentions n c σ e) (hd : Distinguished (⟨n, c, .plain σ⟩ : Target (xLib ε)) x.2) :
    (∃ J, x.2.dynJacobian (xmem ε s) n (.plain σ) = some J) ↔ ¬Blocked n c σ e := by
  have h := (c21_dynamic_forward (xmem ε s) ⟨n, c, .plain σ⟩ x.2 hd).1
  rw [show x.2.dynJacobian (xmem ε s) n (.plain σ) = _ from h]
  exact total_exists_iff hε hε1 hN hm hf hx hx' hn hfresh ht

/-- **C50.** Where it exists, it is the derivative of the value of the expression with ordinary
objects in place of Identity and Zero. -/
theorem c50_unblocked_derivative (hε : 0 < ε) (hε1 : ε ≤ 1) {N : ℕ → ℕ} (hN : HoldsNeutral s N)
    {e : NExpr} {o : Obj} (hm : Means ε s (spell N e) o) {f : Kind × Bool} (hf : form e = some f)
    {x : XTree ε} {x' : Tree ε} (hx : e.elab ε = some x) (hx' : (spell N e).elab ε = some x')
    (hn : NonsingularAt ε s x'.2) {n c : ℕ} {σ : Ty} (hfresh : ∀ a, N a ≠ n)
    (ht : mentions n c σ e) (hb : ¬Blocked n c σ e)
    (ho : ∀ u ∈ written ε (spell N e), u.addr = n → u.ty = σ → u = ⟨n, c, σ⟩)
    (hc : x.2.noProxy ∨ x.2.fwdCompiles (⟨n, c, .plain σ⟩ : Target (xLib ε)) ∧
      Distinguished (⟨n, c, .plain σ⟩ : Target (xLib ε)) x.2) :
    ∃ (J : Matrix (Ty.Idx (XTy.leaf x.1)) σ.Idx ℝ) (J' : Matrix (Ty.Idx x'.1) σ.Idx ℝ),
      x.2.jacobianAuto (xmem ε s) ⟨n, c, .plain σ⟩ = some J ∧ HEq J J' ∧
        IsDerivative (ε := ε) s ⟨n, c, σ⟩ x'.2 J' := by
  obtain ⟨J, hJ⟩ := (c50_exists_iff hε hε1 hN hm hf hx hx' hn hfresh ht hc).mpr hb
  obtain ⟨J', h1, h2⟩ := c53_derivative (t := (⟨n, c, .plain σ⟩ : Target (xLib ε)))
    (t' := ⟨n, c, σ⟩) hε hε1 hN hm hf hx hx' hn rfl ((mentions_iff e hx).mpr ht)
    (align_plain hfresh e hx) ho hc hJ
  exact ⟨J, J', hJ, h1, h2⟩

/-- Non-vacuity of the exact condition: an object that is not blocked, and one that is, in
`(Identity<MatrixRotation>() * m) * (v + Zero<Translation>())` and
`Identity<MatrixRotation>() * v`. -/
example : ∃ J, (exTree (ε := dblEps)).jacobianAuto (xmem dblEps demoN) ⟨1, 0, .plain (.rot .mat)⟩ =
    some J := by
  obtain ⟨o, hm⟩ := exBoth_means
  refine (c50_exists_iff dblEps_pos dblEps_lt.le demoN_neutral (e := exBoth) hm rfl
    (x := ⟨_, exTree⟩) (x' := ⟨_, exPlain⟩) rfl rfl ?_ (fun _ => by decide) ?_ (.inl rfl)).mpr ?_
  · exact ⟨⟨trivial, trivial⟩, trivial, trivial⟩
  · exact .inl (.inr ⟨rfl, rfl, rfl⟩)
  · simp [exBoth, Blocked, form, formBin, noRight, Kind.ofTy, mentions]

example : Blocked 1 1 (.vec .trans)
    (.bin .mul (.neutral 2 7 (.rot .mat)) (.leaf 1 1 (.vec .trans))) :=
  .inr (.inr ⟨_, _, rfl, rfl, trivial, rfl, rfl, rfl⟩)

end WG
