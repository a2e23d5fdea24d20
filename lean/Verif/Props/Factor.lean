import Verif.Lemmas.Factor
import Verif.Props.Noise
import Verif.Props.Lazy

/-!
# C46: residuals and Jacobians of factors
-/

namespace WG
open Matrix Spec Filter Topology

variable {ε : ℝ}

/-- **C46 (residual).** `evaluate(x...)` returns `W (f(x) - z)`, with `W` the inverse square root of
the covariance of the measurement and the differences stacked in the order of the channels. -/
theorem c46_residual (s : Store (geoLib ε)) (F : Factor ε) (ts : List (Target (geoLib ε)))
    (p : List (Channel ε)) (hp : Observes F ts p) (hv : ∀ x ∈ p, value s x.e ≠ none)
    {W : Matrix (Fin F.dim) (Fin F.dim) ℝ} (hW : F.noise.invSqrt = some W) :
    ∃ r : Fin F.dim → ℝ, IsStackedDifference s p r ∧ F.evaluate s ts = some (some (W *ᵥ r)) := by
  let y : (x : Channel ε) → x.ty.Val := fun x =>
    Option.getD (α := x.ty.Val) (value s x.e) x.z
  have hy : ∀ x ∈ p, value s x.e = some (y x) := by
    intro x hx
    obtain ⟨v, hv'⟩ := Option.ne_none_iff_exists'.1 (hv x hx)
    simp only [y, hv']
    rfl
  obtain ⟨r, h1, h2⟩ := residual_eq hp y hW
  refine ⟨r, ⟨factor_dim hp, ?_⟩, ?_⟩
  · intro above x below hpe v hval j i hi
    rw [h2 above x below hpe j i hi]
    have : some (y x) = some v := (hy x (by rw [hpe]; simp)).symm.trans hval
    rw [Option.some.inj this]
  · unfold Factor.evaluate
    rw [if_pos (observes_accepted hp), ← h1]
    congr 1
    rw [compound_value, (observes_elems hp).1, List.map_map]
    exact List.map_congr_left fun x hx => by
      show (⟨x.ty, value s x.e⟩ : (τ : Ty) × Option τ.Val) = ⟨x.ty, some (y x)⟩
      rw [hy x hx]

/-- The stack of differences is determined by the channels. -/
theorem stackedDifference_unique {s : Store (geoLib ε)} {p : List (Channel ε)}
    (hv : ∀ x ∈ p, value s x.e ≠ none) {n : ℕ} {r r' : Fin n → ℝ}
    (h : IsStackedDifference s p r) (h' : IsStackedDifference s p r') : r = r' := by
  funext i
  obtain ⟨above, x, below, k, h1, h2, h3⟩ := list_decomp Channel.dim p i (by rw [← h.1]; exact i.2)
  obtain ⟨v, hv'⟩ := Option.ne_none_iff_exists'.1 (hv x (by rw [h1]; simp))
  have e : (i : ℕ) = (above.map Channel.dim).sum +
      x.ty.enum (x.ty.enum.symm ⟨k, h2⟩) := by
    rw [Equiv.apply_symm_apply]; exact h3
  rw [h.2 above x below h1 v hv' _ i e, h'.2 above x below h1 v hv' _ i e]

theorem single_ok {s : Store (geoLib ε)} {ts : List (Target (geoLib ε))} {τ : Ty}
    {e : Expr (geoLib ε) τ} {q : CVal (geoLib ε) × List ((σ : Ty) × Rows (geoLib ε) σ)}
    (h : MeasExpr.evalWithJacobians s ts (.single τ e) = .ok q) :
    ∃ p, e.evalWithJacobians s ts = some p ∧
      (([⟨τ, p.1⟩], p.2.map fun J => ⟨J.1, Rows.fresh.write (L := geoLib ε) 0 J.2⟩) :
        CVal (geoLib ε) × List ((σ : Ty) × Rows (geoLib ε) σ)) = q := by
  unfold MeasExpr.evalWithJacobians at h
  simp only at h
  cases he : e.evalWithJacobians s ts with
  | none => rw [he] at h; cases h
  | some p =>
    rw [he] at h
    cases h
    exact ⟨p, rfl, rfl⟩

theorem evaluateWithJacobians_ok {s : Store (geoLib ε)} {F : Factor ε} {ts : List (Target (geoLib ε))}
    {r : Option (Fin F.dim → ℝ)} {Js : List ((σ : Ty) × Rows (geoLib ε) σ)}
    (h : F.evaluateWithJacobians s ts = .ok (r, Js)) :
    F.accepted ts = true ∧
      ∃ v, MeasExpr.evalWithJacobians s ts (F.functor ts) = .ok (v, Js) ∧ F.residual v = some r := by
  unfold Factor.evaluateWithJacobians at h
  by_cases ha : F.accepted ts = true
  swap
  · rw [if_neg ha] at h; cases h
  rw [if_pos ha] at h
  refine ⟨ha, ?_⟩
  cases h1 : MeasExpr.evalWithJacobians s ts (F.functor ts) with
  | ok p =>
    rw [h1] at h
    simp only at h
    cases h2 : F.residual p.1 with
    | none => rw [h2] at h; cases h
    | some r' =>
      rw [h2] at h
      cases h
      exact ⟨p.1, rfl, h2⟩
  | rejected => rw [h1] at h; cases h
  | ub => rw [h1] at h; cases h

theorem evalWithJacobians_val (s : Store (geoLib ε)) (ts : List (Target (geoLib ε))) (m : MeasExpr ε)
    {v : CVal (geoLib ε)} {Js : List ((σ : Ty) × Rows (geoLib ε) σ)}
    (h : MeasExpr.evalWithJacobians s ts m = .ok (v, Js)) : v = Compound.eval s m.elems := by
  cases m with
  | single k e =>
    obtain ⟨⟨u, Ks⟩, h1, h2⟩ := single_ok h
    unfold Expr.evalWithJacobians at h1
    rw [Option.map_eq_some_iff] at h1
    obtain ⟨⟨⟨u', Ks'⟩, log⟩, h3, h4⟩ := h1
    cases h4
    obtain ⟨h5, _, _⟩ := c22_eval_with_jacobians s e ts _ _ _ h3
    cases h2
    rw [h5]; rfl
  | compound c =>
    rw [(c24_evalWithJacobians_partial (geoLazy ε) s c ts v Js h).1, compound_value]; rfl

/-- **C46 (same residual).** Whenever `evaluateWithJacobians(x...)` is accepted, the residual it
returns is the one `evaluate(x...)` returns. -/
theorem c46_same_residual (s : Store (geoLib ε)) (F : Factor ε) (ts : List (Target (geoLib ε)))
    {r : Option (Fin F.dim → ℝ)} {Js : List ((σ : Ty) × Rows (geoLib ε) σ)}
    (h : F.evaluateWithJacobians s ts = .ok (r, Js)) : F.evaluate s ts = some r := by
  obtain ⟨ha, v, h1, h3⟩ := evaluateWithJacobians_ok h
  rw [evalWithJacobians_val s ts _ h1] at h3
  unfold Factor.evaluate
  rw [if_pos ha]
  exact h3

/-- The parameter `t` is one the Jacobian evaluator used for this measurement function handles: it
occurs (single expression), or the elements in which its type occurs come first (compound, see
`compound_static`). -/
def Handled (t : Target (geoLib ε)) : MeasExpr ε → Prop
  | .single _ e => t ∈ objects e ∧ (e.noProxy ∨ e.fwdCompiles t ∧ Distinguished t e)
  | .compound c => TypeFirst t c

/-- The matrices returned are the stacked derivatives of the measurement function. -/
theorem evaluateWithJacobians_stacked (s : Store (geoLib ε)) (F : Factor ε)
    (ts : List (Target (geoLib ε))) {r : Option (Fin F.dim → ℝ)}
    {Js : List ((σ : Ty) × Rows (geoLib ε) σ)} (h : F.evaluateWithJacobians s ts = .ok (r, Js)) :
    List.Forall₂ (fun (t : Target (geoLib ε)) J => ∃ m : Rows (geoLib ε) t.ty, J = ⟨t.ty, m⟩ ∧
      (Handled t (F.functor ts) → IsStacked s t (F.functor ts).elems m)) ts Js := by
  obtain ⟨-, v, h1, h3⟩ := evaluateWithJacobians_ok h
  cases hm : F.functor ts with
  | compound c =>
    rw [hm] at h1
    exact (c24_evalWithJacobians_partial (geoLazy ε) s c ts v Js h1).2
  | single k e =>
    rw [hm] at h1
    obtain ⟨⟨u, Ls⟩, h2, g2⟩ := single_ok h1
    unfold Expr.evalWithJacobians at h2
    rw [Option.map_eq_some_iff] at h2
    obtain ⟨⟨⟨u', Ls'⟩, log⟩, g1, g3⟩ := h2
    cases g3
    obtain ⟨_, g4, _⟩ := c22_eval_with_jacobians s e ts _ _ _ g1
    have g5 : Js = ts.map fun t =>
        ⟨t.ty, Rows.fresh.write (L := geoLib ε) 0 (e.jacobianAuto s t)⟩ := by
      have : (Ls.map fun J => (⟨J.1, Rows.fresh.write (L := geoLib ε) 0 J.2⟩ :
        (σ : Ty) × Rows (geoLib ε) σ)) = Js := congrArg Prod.snd g2
      rw [← this, g4, List.map_map]; rfl
    rw [g5, List.forall₂_map_right_iff, List.forall₂_same]
    intro t _
    refine ⟨_, rfl, ?_⟩
    rintro ⟨ho, hc⟩ above x below hx j
    have hx' : [(⟨k, e⟩ : Elem (geoLib ε))] = above ++ x :: below := hx
    rcases above with _ | ⟨a, above⟩
    · simp only [List.nil_append, List.cons.injEq] at hx'
      obtain ⟨rfl, rfl⟩ := hx'
      have := write_in (L := geoLib ε) (Rows.fresh : Rows (geoLib ε) t.ty) 0 (e.jacobianAuto s t) j
      rw [c20_auto s t e ho hc] at this ⊢
      exact this
    · simp at hx'

/-- What the caller expects of a Jacobian returned for the parameter `t`: the rows form a finite
matrix, and it is the derivative at zero of the residual as `t` is replaced by `t + d`. -/
def IsResidualDerivative (s : Store (geoLib ε)) (F : Factor ε) (ts : List (Target (geoLib ε)))
    (t : Target (geoLib ε)) (J : Matrix (Fin F.dim) t.ty.Idx ℝ) : Prop :=
  ∃ R : (t.ty.Idx → ℝ) → Fin F.dim → ℝ,
    (∀ᶠ d in 𝓝 0, ∃ v, boxPlusVal ε t.ty (s t.addr t.ty) d = some v ∧
      F.evaluate (s.set t.addr t.ty v) ts = some (some (R d))) ∧
    F.evaluate s ts = some (some (R 0)) ∧ HasFDerivAt R (linMap J) 0

/-- A residual has only one derivative. -/
theorem residualDerivative_unique {s : Store (geoLib ε)} {F : Factor ε}
    {ts : List (Target (geoLib ε))} {t : Target (geoLib ε)} {J K : Matrix (Fin F.dim) t.ty.Idx ℝ}
    (h : IsResidualDerivative s F ts t J) (h' : IsResidualDerivative s F ts t K) : J = K := by
  obtain ⟨R, h1, _, h3⟩ := h
  obtain ⟨R', h1', _, h3'⟩ := h'
  have he : R =ᶠ[𝓝 0] R' := by
    filter_upwards [h1, h1'] with d ⟨v, d1, d2⟩ ⟨v', d1', d2'⟩
    rw [d1] at d1'
    cases d1'
    rw [d2] at d2'
    exact Option.some.inj (Option.some.inj d2')
  have := h3.unique (h3'.congr_of_eventuallyEq he)
  ext i j
  have := congrFun (congrArg (fun f => f (Pi.single j 1)) (congrArg DFunLike.coe this)) i
  simpa using this

/-- **C46 (Jacobians, partial).** At regular points, if the matrix returned for `t` is the finite
matrix `J`, then the derivative of the residual with respect to `t` is `W J`.  Missing from the full
statement: the matrix returned is `J` itself, not `W J`. -/
theorem c46_jacobian_partial (hε : 0 < ε) (hε1 : ε ≤ 1) (s : Store (geoLib ε)) (F : Factor ε)
    (ts : List (Target (geoLib ε))) (p : List (Channel ε)) (hp : Observes F ts p)
    {W : Matrix (Fin F.dim) (Fin F.dim) ℝ} (hW : F.noise.invSqrt = some W)
    {r : Option (Fin F.dim → ℝ)} {Js : List ((σ : Ty) × Rows (geoLib ε) σ)}
    (h : F.evaluateWithJacobians s ts = .ok (r, Js)) {i : ℕ} {t : Target (geoLib ε)}
    (ht : ts[i]? = some t) (hh : Handled t (F.functor ts)) (hval : Valid t.ty (s t.addr t.ty))
    (hreg : ∀ x ∈ p, RegularAt ε s x.e ∧ value s x.e ≠ none ∧ total (occurrences s t x.e) ≠ none)
    (ho : ∀ x ∈ p, ∀ o ∈ objects x.e, o.addr = t.addr → o.ty = t.ty → o = t) :
    ∃ (m : Rows (geoLib ε) t.ty) (J : Matrix (Fin F.dim) t.ty.Idx ℝ), Js[i]? = some ⟨t.ty, m⟩ ∧
      (∀ i : Fin F.dim, m i = some (some (J i))) ∧ IsResidualDerivative s F ts t (W * J) := by
  classical
  have hst := evaluateWithJacobians_stacked s F ts h
  obtain ⟨m, hm, hs⟩ : ∃ m : Rows (geoLib ε) t.ty, Js[i]? = some ⟨t.ty, m⟩ ∧
      IsStacked s t (F.functor ts).elems m := by
    have hlt : i < ts.length := (List.getElem?_eq_some_iff.1 ht).1
    have hlt' : i < Js.length := hst.length_eq ▸ hlt
    have := hst.get hlt hlt'
    rw [List.get_eq_getElem, List.get_eq_getElem, (List.getElem?_eq_some_iff.1 ht).2] at this
    obtain ⟨m, h1, h2⟩ := this
    exact ⟨m, by rw [List.getElem?_eq_getElem hlt', h1], h2 hh⟩
  -- the channels one by one
  have hch : ∀ x : {x // x ∈ p}, ∃ (v : x.1.ty.Val) (J : Matrix x.1.ty.Idx t.ty.Idx ℝ)
      (f : (t.ty.Idx → ℝ) → x.1.ty.Idx → ℝ), value s x.1.e = some v ∧
      total (occurrences s t x.1.e) = some J ∧
      (∀ᶠ d in 𝓝 0, ∀ u, boxPlusVal ε t.ty (s t.addr t.ty) d = some u →
        ∃ y, value (s.set t.addr t.ty u) x.1.e = some y ∧
          coords x.1.ty y = coords x.1.ty v + f d) ∧
      f 0 = 0 ∧ HasFDerivAt f (linMap J) 0 := by
    rintro ⟨x, hx⟩
    obtain ⟨v, hv⟩ := Option.ne_none_iff_exists'.1 (hreg x hx).2.1
    obtain ⟨J, hJ⟩ := Option.ne_none_iff_exists'.1 (hreg x hx).2.2
    obtain ⟨f, h1, h2, h3⟩ := channel_response hε hε1 s t x.flat x.e (hreg x hx).1 (ho x hx) hJ hv
    exact ⟨v, J, f, hv, hJ, h1, h2, h3⟩
  choose v J f c1 c2 c3 c4 c5 using hch
  -- the rows one by one
  have hrow : ∀ i : Fin F.dim, ∃ (x : {x // x ∈ p}) (above below : List (Channel ε))
      (j : x.1.ty.Idx), p = above ++ x.1 :: below ∧
      (i : ℕ) = (above.map Channel.dim).sum + x.1.ty.enum j := by
    intro i
    obtain ⟨above, x, below, k, h1, h2, h3⟩ := list_decomp Channel.dim p i (by
      rw [← factor_dim hp]; exact i.2)
    exact ⟨⟨x, by rw [h1]; simp⟩, above, below, x.ty.enum.symm ⟨k, h2⟩, h1, by
      rw [Equiv.apply_symm_apply]; exact h3⟩
  choose X ab be jj r1 r2 using hrow
  refine ⟨m, Matrix.of fun i => J (X i) (jj i), hm, ?_, ?_⟩
  · intro i
    have := hs ((ab i).map fun x => ⟨x.ty, x.e⟩) ⟨(X i).1.ty, (X i).1.e⟩
      ((be i).map fun x => ⟨x.ty, x.e⟩) (by
        rw [(observes_elems hp).1]
        conv_lhs => rw [r1 i]
        simp) (jj i)
    have hh : height (L := geoLib ε) ((ab i).map fun x => ⟨x.ty, x.e⟩) =
        ((ab i).map Channel.dim).sum := by
      unfold height; rw [List.map_map]; rfl
    rw [hh, c2 (X i)] at this
    rw [r2 i]
    exact this
  · let ρ : (t.ty.Idx → ℝ) → Fin F.dim → ℝ := fun d i =>
      (coords _ (v (X i)) (jj i) - coords _ (X i).1.z (jj i)) + f (X i) d (jj i)
    have hρ : HasFDerivAt ρ (linMap (Matrix.of fun i => J (X i) (jj i))) 0 := by
      rw [hasFDerivAt_pi']
      intro i
      have h1 : HasFDerivAt (fun d => f (X i) d (jj i))
          ((ContinuousLinearMap.proj (R := ℝ) (φ := fun _ => ℝ) (jj i)).comp (linMap (J (X i)))) 0 :=
        ((ContinuousLinearMap.proj (R := ℝ) (φ := fun _ => ℝ) (jj i)).hasFDerivAt).comp _ (c5 (X i))
      have h2 := h1.const_add (coords _ (v (X i)) (jj i) - coords _ (X i).1.z (jj i))
      refine h2.congr_fderiv ?_
      ext d
      simp [Matrix.mulVec, dotProduct]
    have hfd : HasFDerivAt (fun d => W *ᵥ ρ d) (linMap (W * Matrix.of fun i => J (X i) (jj i))) 0 := by
      have := (linMap W).hasFDerivAt.comp (0 : t.ty.Idx → ℝ) hρ
      refine this.congr_fderiv ?_
      ext d
      simp [Matrix.mul_assoc]
    refine ⟨fun d => W *ᵥ ρ d, ?_, ?_, hfd⟩
    · obtain ⟨q, q1, _⟩ := moves_boxPlus hε t.ty (s t.addr t.ty) hval
        (diffV_id (0 : t.ty.Idx → ℝ)) rfl
      have call : ∀ᶠ d in 𝓝 0, ∀ x : {x // x ∈ p}, ∀ u,
          boxPlusVal ε t.ty (s t.addr t.ty) d = some u →
          ∃ y, value (s.set t.addr t.ty u) x.1.e = some y ∧
            coords x.1.ty y = coords x.1.ty (v x) + f x d := by
        have : Finite {x // x ∈ p} := List.finite_toSet p
        rw [eventually_all]
        exact c3
      filter_upwards [q1, call] with d d1 d2
      refine ⟨q d, d1, ?_⟩
      obtain ⟨r', s1, s2⟩ := c46_residual (s.set t.addr t.ty (q d)) F ts p hp
        (fun x hx => by obtain ⟨y, hy, _⟩ := d2 ⟨x, hx⟩ _ d1; rw [hy]; simp) hW
      rw [s2]
      congr 3
      funext i
      obtain ⟨y, hy, hc⟩ := d2 (X i) _ d1
      rw [s1.2 (ab i) (X i).1 (be i) (r1 i) _ hy (jj i) i (r2 i), hc]
      simp only [ρ, Pi.add_apply]; ring
    · obtain ⟨r', s1, s2⟩ := c46_residual s F ts p hp (fun x hx => (hreg x hx).2.1) hW
      rw [s2]
      congr 3
      funext i
      rw [s1.2 (ab i) (X i).1 (be i) (r1 i) _ (c1 (X i)) (jj i) i (r2 i)]
      simp only [ρ, c4, Pi.zero_apply, add_zero]

/-- **C46 (when the Jacobians are right).** Under the same hypotheses the matrix returned is the
derivative of the residual exactly when whitening leaves it unchanged. -/
theorem c46_jacobian_iff (hε : 0 < ε) (hε1 : ε ≤ 1) (s : Store (geoLib ε)) (F : Factor ε)
    (ts : List (Target (geoLib ε))) (p : List (Channel ε)) (hp : Observes F ts p)
    {W : Matrix (Fin F.dim) (Fin F.dim) ℝ} (hW : F.noise.invSqrt = some W)
    {r : Option (Fin F.dim → ℝ)} {Js : List ((σ : Ty) × Rows (geoLib ε) σ)}
    (h : F.evaluateWithJacobians s ts = .ok (r, Js)) {i : ℕ} {t : Target (geoLib ε)}
    (ht : ts[i]? = some t) (hh : Handled t (F.functor ts)) (hval : Valid t.ty (s t.addr t.ty))
    (hreg : ∀ x ∈ p, RegularAt ε s x.e ∧ value s x.e ≠ none ∧ total (occurrences s t x.e) ≠ none)
    (ho : ∀ x ∈ p, ∀ o ∈ objects x.e, o.addr = t.addr → o.ty = t.ty → o = t)
    {m : Rows (geoLib ε) t.ty} (hm : Js[i]? = some ⟨t.ty, m⟩)
    {J : Matrix (Fin F.dim) t.ty.Idx ℝ} (hJ : ∀ i : Fin F.dim, m i = some (some (J i))) :
    IsResidualDerivative s F ts t J ↔ W * J = J := by
  obtain ⟨m', J', h1, h2, h3⟩ :=
    c46_jacobian_partial hε hε1 s F ts p hp hW h ht hh hval hreg ho
  have hmm : m = m' := by
    rw [hm] at h1
    simpa using h1
  subst hmm
  have hJJ : J = J' := by
    ext a b
    have := (hJ a).symm.trans (h2 a)
    exact congrFun (Option.some.inj (Option.some.inj this)) b
  subst hJJ
  constructor
  · intro hd
    exact residualDerivative_unique h3 hd
  · intro he
    rwa [he] at h3

/-- A factor with a single expression is accepted when every parameter occurs in it and there is no
dynamic node. -/
theorem c46_single_accepted (s : Store (geoLib ε)) (F : Factor ε) (ts : List (Target (geoLib ε)))
    (x : Channel ε) (hf : F.functor ts = .single x.ty x.e)
    (hz : F.value = .single x.ty x.z) (hp : x.e.noProxy) (ht : ∀ t ∈ ts, t ∈ objects x.e)
    (hv : value s x.e ≠ none) {W : Matrix (Fin F.dim) (Fin F.dim) ℝ} (hW : F.noise.invSqrt = some W) :
    ∃ p, F.evaluateWithJacobians s ts = .ok p := by
  have hobs : Observes F ts [x] := .inl ⟨x, rfl, hf, hz⟩
  obtain ⟨r, _, hr⟩ := c46_residual s F ts [x] hobs (by simpa using hv) hW
  have ha := observes_accepted hobs
  unfold Factor.evaluate at hr
  rw [if_pos ha, hf] at hr
  have h1 := c22_accepted s x.e ts hp ht
  unfold Factor.evaluateWithJacobians MeasExpr.evalWithJacobians
  rw [if_pos ha, hf]
  simp only [Expr.evalWithJacobians, h1, Option.map_some, Option.bind_some]
  have : Compound.eval s (MeasExpr.single x.ty x.e).elems = [⟨x.ty, value s x.e⟩] := by
    rw [compound_value]; rfl
  rw [this] at hr
  have e2 : F.residual [⟨x.ty, value s x.e⟩] = some (some (W *ᵥ r)) := hr
  rw [e2]
  exact ⟨_, rfl⟩

/-- **C46 (which factors compile).** `evaluate(x...)` is accepted by the compiler exactly when the
functor returns one vector, scalar or point expression and the measurement is of that class, or
it returns a nonempty compound of vector, scalar or point expressions and the measurement is a
compound of those classes. -/
theorem c46_accepted_iff (s : Store (geoLib ε)) (F : Factor ε) (ts : List (Target (geoLib ε))) :
    F.evaluate s ts ≠ none ↔ ∃ p, Observes F ts p := by
  constructor
  · intro h
    unfold Factor.evaluate at h
    by_cases ha : F.accepted ts = true
    swap
    · rw [if_neg ha] at h; exact absurd rfl h
    rw [if_pos ha] at h
    unfold Factor.accepted at ha
    cases hf : F.functor ts with
    | single τ e =>
      cases hv : F.value with
      | compound l => rw [hf, hv] at ha; cases ha
      | single σ z =>
        rw [hf, hv] at ha
        simp only [Bool.and_eq_true, decide_eq_true_eq] at ha
        obtain ⟨rfl, hl⟩ := ha
        have hflat : (∃ k, τ = .vec k) ∨ τ = .point := by
          cases τ <;> simp [Ty.isVectorLeaf, Ty.vectorTraits] at hl ⊢
        exact ⟨[⟨τ, hflat, e, z⟩], .inl ⟨_, rfl, hf, hv⟩⟩
    | compound c =>
      cases hv : F.value with
      | single σ z => rw [hf, hv] at ha; cases ha
      | compound l =>
        rw [hf, hv] at ha
        simp only [Bool.and_eq_true, Bool.not_eq_true', List.isEmpty_eq_false_iff,
          List.all_eq_true] at ha
        obtain ⟨p, h1, h2⟩ := pair_up c l ha.2 (by
          have := congrArg List.length (residual_types h)
          rw [hf, hv, compound_value] at this
          simpa [MeasExpr.elems, MeasValue.elems] using this) (by
          have := residual_types h
          rw [hf, hv, compound_value] at this
          simpa [MeasExpr.elems, MeasValue.elems, Function.comp_def] using this)
        refine ⟨p, .inr ⟨?_, by rw [hf, h1], by rw [hv, h2]⟩⟩
        rintro rfl
        exact ha.1 h2
  · rintro ⟨p, hp⟩ h
    exact residual_some hp s h

/-- The measurement of a point, and of a scalar in a compound: both compile. -/
example (s : Store (geoLib ε)) : Factor.evaluate s
    ⟨fun _ => .single .point (gleaf ε 0 0 .point), .single .point (![1, 2, 3] : V3), diagonalNoise fun _ => 1 / 2⟩ [] ≠ none :=
  (c46_accepted_iff s _ _).mpr
    ⟨[⟨.point, .inr rfl, gleaf ε 0 0 .point, (![1, 2, 3] : V3)⟩],
      .inl ⟨_, rfl, rfl, rfl⟩⟩

example (s : Store (geoLib ε)) : Factor.evaluate s
    ⟨fun _ => .compound [⟨.vec .scalar, gleaf ε 0 0 (.vec .scalar)⟩],
      .compound [⟨.vec .scalar, fun _ => 2⟩], diagonalNoise fun _ => 1 / 2⟩ [] ≠ none :=
  (c46_accepted_iff s _ _).mpr
    ⟨[⟨.vec .scalar, .inl ⟨_, rfl⟩, gleaf ε 0 0 (.vec .scalar), fun _ => 2⟩], .inr ⟨by simp, rfl, rfl⟩⟩

/-- The factor of the repository's test `evaluateDistanceFactor` (test_factors.hpp:20-27,
factor_test.cpp:68-78): the distance of two translations, measured as a single scalar with a standard
deviation. -/
noncomputable def exDistance (ε : ℝ) (z σ : ℝ) : Factor ε where
  functor
    | [a, b] => .single (.vec .scalar) (.un 9 (.norm .trans)
        (.bin 8 (.sub .trans) (gleaf ε a.addr 0 (.vec .trans)) (gleaf ε b.addr 1 (.vec .trans))))
    | _ => .single (.vec .scalar) (gleaf ε 0 0 (.vec .scalar))
  value := .single (.vec .scalar) fun _ => z
  noise := diagonalNoise fun _ => σ

/-- **C46, the distance factor.** What the repository's test expects of it, for all operands:
`evaluate(a, b)` compiles and is `(|a - b| - z) / σ`. -/
theorem c46_distance (s : Store (geoLib ε)) (z : ℝ) {σ : ℝ} (hσ : σ ≠ 0) (a b : ℕ) :
    (exDistance ε z σ).evaluate s [⟨a, 0, .vec .trans⟩, ⟨b, 1, .vec .trans⟩] =
      some (some fun _ => (Real.sqrt (∑ i : Fin 3,
        ((s a (.vec .trans) : V3) i - (s b (.vec .trans) : V3) i) ^ 2) - z) / σ) := by
  let e : Expr (geoLib ε) (.vec .scalar) := .un 9 (.norm .trans)
    (.bin 8 (.sub .trans) (gleaf ε a 0 (.vec .trans)) (gleaf ε b 1 (.vec .trans)))
  have hW : (exDistance ε z σ).noise.invSqrt = some (diagonal fun _ => σ⁻¹) := by
    show (diagonalNoise fun _ => σ).invSqrt = _
    unfold diagonalNoise
    simp [hσ]
  have hval : value s e = some fun _ => Real.sqrt (∑ i : Fin 3,
      ((s a (.vec .trans) : V3) i - (s b (.vec .trans) : V3) i) ^ 2) := by
    show some _ = some _
    congr 1
    funext _
    show vNorm (n := Fin 3) (vSub (s a (.vec .trans)) (s b (.vec .trans))) = _
    unfold vNorm vSqNorm vSub dotProduct
    simp only [Fin.sum_univ_three, sq]
    rfl
  have hobs : Observes (exDistance ε z σ) [⟨a, 0, .vec .trans⟩, ⟨b, 1, .vec .trans⟩]
    [⟨.vec .scalar, .inl ⟨_, rfl⟩, e, fun _ => z⟩] := .inl ⟨_, rfl, rfl, rfl⟩
  obtain ⟨r, ⟨_, hr⟩, he⟩ := c46_residual s (exDistance ε z σ)
    [⟨a, 0, .vec .trans⟩, ⟨b, 1, .vec .trans⟩]
    _ hobs
    (by intro x hx; rw [List.mem_singleton] at hx; subst hx; rw [hval]; simp) hW
  rw [he]
  congr 2
  funext i
  have h1 := hr [] _ [] rfl _ hval (0 : Fin 1) i (by
    have : (i : ℕ) < 1 := lt_of_lt_of_eq i.2 (factor_dim hobs)
    show (i : ℕ) = 0 + 0
    omega)
  refine (Matrix.mulVec_diagonal (fun _ => σ⁻¹) r i).trans ?_
  rw [h1, div_eq_inv_mul]
  rfl

/-- The operands of the repository's test. -/
example (s : Store (geoLib ε)) (ha : s 1 (.vec .trans) = (![1.1, 2.2, 3.3] : V3))
    (hb : s 2 (.vec .trans) = (![1.0, 3.0, 2.3] : V3)) :
    (exDistance ε 1.23 0.1).evaluate s [⟨1, 0, .vec .trans⟩, ⟨2, 1, .vec .trans⟩] =
      some (some fun _ => (Real.sqrt 1.65 - 1.23) / 0.1) := by
  rw [c46_distance s 1.23 (by norm_num) 1 2, ha, hb]
  congr 3
  funext _
  simp [Fin.sum_univ_three]
  norm_num

/-- **C46, limit.** A factor whose functor returns a compound: if an element is an unevaluated
expression the call is rejected by the compiler; otherwise, if it is accepted and a Jacobian overload
on the way from some parameter to the root of an element reads an unevaluated result, the behaviour
is undefined. -/
theorem c46_compound_limit (s : Store (geoLib ε)) (F : Factor ε) (ts : List (Target (geoLib ε)))
    (c : Compound (geoLib ε)) (hf : F.functor ts = .compound c) :
    ((∃ e ∈ c, Unevaluated (geoLazy ε) e.2) → F.evaluateWithJacobians s ts = .rejected) ∧
    ((∃ t ∈ ts, ∃ e ∈ c, Dangles (geoLazy ε) t e.2) →
      F.evaluateWithJacobians s ts = .rejected ∨ F.evaluateWithJacobians s ts = .ub) := by
  have h1 : MeasExpr.evalWithJacobians s ts (F.functor ts) =
      c.evalWithJacobiansRun (geoLazy ε) s ts := by rw [hf]; rfl
  constructor
  · intro h
    unfold Factor.evaluateWithJacobians
    rw [h1, c24_evalWithJacobians_rejected (geoLazy ε) s c ts h]
    split_ifs <;> rfl
  · rintro ⟨t, ht, hz⟩
    unfold Factor.evaluateWithJacobians
    by_cases ha : F.accepted ts = true
    swap
    · rw [if_neg ha]; exact .inl rfl
    rw [if_pos ha, h1, evalWithJacobiansRun_eq]
    cases c.evalWithJacobians s ts with
    | none => exact .inl rfl
    | some p =>
      simp only
      have : ¬ ∀ t ∈ ts, ¬ ∃ e ∈ c, Dangles (geoLazy ε) t e.2 := fun h => h t ht hz
      rw [if_neg this]
      split_ifs
      · exact .inl rfl
      · exact .inr rfl

/-- `(‖-v‖, v)`. -/
noncomputable def exNormNeg (ε : ℝ) (t : Target (geoLib ε)) : Compound (geoLib ε) :=
  [⟨.vec .scalar, .un 8 (.norm .trans) (.un 7 (.minus .trans) (gleaf ε t.addr 0 (.vec .trans)))⟩,
    ⟨.vec .trans, gleaf ε t.addr 0 (.vec .trans)⟩]

/-- **C46, limit, witness.** `evaluateWithJacobians(v)` of a factor measuring `(‖-v‖, v)` compiles and
reads a destroyed object. -/
theorem c46_undefined (s : Store (geoLib ε)) (F : Factor ε)
    (hf : F.functor [⟨1, 0, .vec .trans⟩] = .compound (exNormNeg ε ⟨1, 0, .vec .trans⟩))
    {z : Fin 1 → ℝ} {w : V3} (hz : F.value = .compound [⟨.vec .scalar, z⟩, ⟨.vec .trans, w⟩]) :
    F.evaluateWithJacobians s [⟨1, 0, .vec .trans⟩] = .ub := by
  have h1 : MeasExpr.evalWithJacobians s [⟨1, 0, .vec .trans⟩] (F.functor [⟨1, 0, .vec .trans⟩]) =
      (exNormNeg ε ⟨1, 0, .vec .trans⟩).evalWithJacobiansRun (geoLazy ε) s [⟨1, 0, .vec .trans⟩] := by
    rw [hf]; rfl
  obtain ⟨m, h2, _⟩ := jacobianStatic_typeFirst s ⟨1, 0, .vec .trans⟩
    (exNormNeg ε ⟨1, 0, .vec .trans⟩) (by simp [exNormNeg, Expr.noProxy, gleaf])
    ⟨_, [], (List.append_nil _).symm, by simp [exNormNeg, types, objects, gleaf], by simp⟩
  have hu : (exNormNeg ε ⟨1, 0, .vec .trans⟩).uniqueList = some none := by
    simp [exNormNeg, Compound.uniqueList, concatMany, Expr.uniqueList, concatIfUnique, tfind, gleaf]
  have h3 : (exNormNeg ε ⟨1, 0, .vec .trans⟩).evalWithJacobians s [⟨1, 0, .vec .trans⟩] =
      some ((exNormNeg ε ⟨1, 0, .vec .trans⟩).eval s, [⟨_, m⟩]) := by
    unfold Compound.evalWithJacobians
    rw [hu]
    simp [h2]
  have ha : F.accepted [⟨1, 0, .vec .trans⟩] = true := by
    unfold Factor.accepted
    rw [hf, hz]
    rfl
  unfold Factor.evaluateWithJacobians
  rw [if_pos ha, h1, evalWithJacobiansRun_eq, h3]
  simp only
  have hn : ¬ ∃ e ∈ exNormNeg ε ⟨1, 0, .vec .trans⟩, Unevaluated (geoLazy ε) e.2 := by
    rintro ⟨e, he, hu⟩
    simp only [exNormNeg, List.mem_cons, List.not_mem_nil, or_false] at he
    rw [← unevaluated_iff] at hu
    rcases he with rfl | rfl <;> simp [Expr.evalTypeLazy, geoLazy, Un.mode, gleaf] at hu
  have hz : ¬ ∀ t ∈ [(⟨1, 0, .vec .trans⟩ : Target (geoLib ε))],
      ¬ ∃ e ∈ exNormNeg ε ⟨1, 0, .vec .trans⟩, Dangles (geoLazy ε) t e.2 := fun h =>
    h _ List.mem_cons_self ⟨_, List.mem_cons_self,
      .unOperand (by simp [objects, gleaf]) rfl (.nest rfl)⟩
  rw [if_neg hn, if_neg hz]

example (s : Store (geoLib ε)) : Factor.evaluateWithJacobians s
    ⟨fun _ => .compound (exNormNeg ε ⟨1, 0, .vec .trans⟩),
      .compound [⟨.vec .scalar, fun _ => 2⟩, ⟨.vec .trans, (0 : V3)⟩], diagonalNoise fun _ => 1 / 2⟩ [⟨1, 0, .vec .trans⟩] = .ub :=
  c46_undefined s _ rfl rfl

/-- A direct measurement of a translation with standard deviation 1/2. -/
noncomputable def exFactor (ε : ℝ) : Factor ε where
  functor ts := .single (.vec .trans)
    (Expr.leaf (L := geoLib ε) (ts.headD ⟨0, 0, Ty.vec .trans⟩).addr 0 (.vec .trans))
  value := .single (.vec .trans) (fun _ => 0 : V3)
  noise := diagonalNoise fun _ => 1 / 2

/-- The translation measured, as a parameter. -/
abbrev exParam (ε : ℝ) : Target (geoLib ε) := ⟨0, 0, .vec .trans⟩

/-- Its only channel. -/
noncomputable abbrev exChannel (ε : ℝ) : Channel ε :=
  ⟨.vec .trans, .inl ⟨_, rfl⟩, Expr.leaf (L := geoLib ε) 0 0 (.vec .trans), (fun _ => 0 : V3)⟩

theorem exFactor_observes : Observes (exFactor ε) [exParam ε] [exChannel ε] :=
  .inl ⟨_, rfl, rfl, rfl⟩

theorem exFactor_W : (exFactor ε).noise.invSqrt = some (diagonal fun _ => ((1 : ℝ) / 2)⁻¹) := by
  show (diagonalNoise fun _ => (1 : ℝ) / 2).invSqrt = _
  unfold diagonalNoise
  simp

example (s : Store (geoLib ε)) : ∃ r : Fin (exFactor ε).dim → ℝ,
    IsStackedDifference s [exChannel ε] r ∧
    (exFactor ε).evaluate s [exParam ε] =
      some (some ((diagonal fun _ => ((1 : ℝ) / 2)⁻¹ : Matrix (Fin (exFactor ε).dim) _ ℝ) *ᵥ r)) :=
  c46_residual s (exFactor ε) [exParam ε] _ exFactor_observes (by simp [value, exChannel]) exFactor_W

/-- **C46 is false for the Jacobians.** For the factor with residual `2 x` the matrix returned is `1`,
which is not the derivative of the residual. -/
theorem c46_false (hε : 0 < ε) (hε1 : ε ≤ 1) (s : Store (geoLib ε)) :
    ∃ r Js m, ∃ J : Matrix (Fin (exFactor ε).dim) (exParam ε).ty.Idx ℝ,
      (exFactor ε).evaluateWithJacobians s [exParam ε] = .ok (r, Js) ∧
      Js[0]? = some ⟨(exParam ε).ty, m⟩ ∧ (∀ i : Fin (exFactor ε).dim, m i = some (some (J i))) ∧
      ¬ IsResidualDerivative s (exFactor ε) [exParam ε] (exParam ε) J := by
  let e : Expr (geoLib ε) (.vec .trans) := Expr.leaf (L := geoLib ε) 0 0 (.vec .trans)
  have hW := exFactor_W (ε := ε)
  have hobs : Observes (exFactor ε) [exParam ε] [exChannel ε] := exFactor_observes
  have hocc : total (occurrences s (exParam ε) e) = some (1 : Matrix (Fin 3) (Fin 3) ℝ) :=
    total_self (L := geoLib ε) s 0 0 (.vec .trans)
  obtain ⟨⟨r, Js⟩, hacc⟩ :=
    (c46_single_accepted s (exFactor ε) [exParam ε] (exChannel ε) rfl rfl rfl
      (by simp [objects, exParam]) (by simp [value]) hW)
  have hreg : ∀ x ∈ [exChannel ε], RegularAt ε s x.e ∧
      value s x.e ≠ none ∧ total (occurrences s (exParam ε) x.e) ≠ none := by
    intro x hx
    rw [List.mem_singleton] at hx
    subst hx
    refine ⟨trivial, by simp [value, e], fun h => ?_⟩
    exact Option.some_ne_none _ (hocc.symm.trans h)
  have ho : ∀ x ∈ [exChannel ε], ∀ o ∈ objects x.e,
      o.addr = (exParam ε).addr → o.ty = (exParam ε).ty → o = exParam ε := by
    intro x hx o ho _ _
    rw [List.mem_singleton] at hx
    subst hx
    simpa [objects, e, exParam] using ho
  have hh : Handled (exParam ε) ((exFactor ε).functor [exParam ε]) :=
    ⟨by simp [objects, exParam, exFactor], .inl rfl⟩
  obtain ⟨m, J, h1, h2, h3⟩ := c46_jacobian_partial hε hε1 s (exFactor ε) [exParam ε] _ hobs hW hacc
    (i := 0) (t := exParam ε) rfl hh trivial hreg ho
  refine ⟨r, Js, m, J, hacc, h1, h2, ?_⟩
  rw [c46_jacobian_iff hε hε1 s (exFactor ε) [exParam ε] _ hobs hW hacc (i := 0) (t := exParam ε) rfl
    hh trivial hreg ho h1 h2]
  intro he
  have hdim : 0 < (exFactor ε).dim := by rw [factor_dim hobs]; exact Nat.succ_pos 2
  -- the entry of the returned matrix
  have hst := evaluateWithJacobians_stacked s (exFactor ε) [exParam ε] hacc
  cases hst with
  | cons hc _ =>
    obtain ⟨m', hm', hs⟩ := hc
    have hmm : m = m' := by
      rw [hm'] at h1
      simpa using h1.symm
    subst hmm
    have hrow := hs hh [] ⟨.vec .trans, e⟩ [] rfl (0 : Fin 3)
    have e1 := h2 ⟨0, hdim⟩
    have hrow' : m 0 = some (some ((1 : Matrix (Fin 3) (Fin 3) ℝ) 0)) :=
      hrow.trans (congrArg (fun x => some (Option.map
        (fun A : Matrix (Fin 3) (Fin 3) ℝ => A 0) x)) hocc)
    have hJ : J ⟨0, hdim⟩ (0 : Fin 3) = 1 := by
      have := hrow'.symm.trans e1
      have := congrFun (Option.some.inj (Option.some.inj this)) (0 : Fin 3)
      rw [← this]; simp
    have := congrFun (congrFun he ⟨0, hdim⟩) (0 : Fin 3)
    have h9 : ((1 : ℝ) / 2)⁻¹ * J ⟨0, hdim⟩ (0 : Fin 3) = J ⟨0, hdim⟩ (0 : Fin 3) :=
      (diagonal_mul (fun _ => ((1 : ℝ) / 2)⁻¹) J ⟨0, hdim⟩ (0 : Fin 3)).symm.trans this
    rw [hJ] at h9
    norm_num at h9

end WG
