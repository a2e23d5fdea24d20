import Verif.Props.DerivativeUser

/-!
# C25: the numerical Jacobian
-/

namespace WG
open Matrix Spec Filter Topology

variable {ε : ℝ}

/-- The columns of the numerical Jacobian of an affine expression, whether or not the target occurs. -/
theorem numColumn_affine (s : Store (geoLib ε)) (t : Target (geoLib ε)) (hft : IsFlat t.ty) {τ : Ty}
    (hfe : IsFlat τ) (e : Expr (geoLib ε) τ) (ha : AffineIn t e) (hd : Distinguished t e) {y : τ.Val}
    (hy : e.eval s = some y) {J : Matrix τ.Idx t.ty.Idx ℝ}
    (hJ : total (occurrences s t e) = some J) {δ : ℝ} (hδ : δ ≠ 0) (j : t.ty.Idx) :
    e.numColumn s t.addr t.ty δ j = some fun i => J i j := by
  have hy' : value s e = some y := (mk_val s e).symm.trans hy
  have h := affine_response s t hft hfe e ha (fun o h1 h2 _ => hd.1 o h1 h2) hy' hJ (coordStep j δ)
  rw [numColumn_eq s t e hd j hδ h]
  congr 1
  funext i
  have hcol : (J *ᵥ coordStep j δ) i = J i j * δ := by
    simp [mulVec, dotProduct, coordStep]
  rw [hcol, mul_div_cancel_right₀ _ hδ]

/-- **C25 (affine expressions).** Every column of the numerical Jacobian equals the corresponding
column of the analytic Jacobian, for every non-zero step, large or small. -/
theorem c25_affine_exact (s : Store (geoLib ε)) (t : Target (geoLib ε)) (hft : IsFlat t.ty) {τ : Ty}
    (hfe : IsFlat τ) (e : Expr (geoLib ε) τ) (ha : AffineIn t e) (ht : t ∈ objects e)
    (hd : Distinguished t e) (hc : e.noProxy ∨ e.fwdCompiles t) {y : τ.Val} (hy : e.eval s = some y)
    {J : Matrix τ.Idx t.ty.Idx ℝ} (hJ : e.jacobianAuto s t = some J) {δ : ℝ} (hδ : δ ≠ 0)
    (j : t.ty.Idx) : e.numColumn s t.addr t.ty δ j = some fun i => J i j := by
  rw [c20_auto s t e ht (hc.imp id fun h => ⟨h, hd⟩)] at hJ
  exact numColumn_affine s t hft hfe e ha hd hy hJ hδ j

theorem coordStep_eq {I : Type} [DecidableEq I] (j : I) (δ : ℝ) :
    coordStep j δ = δ • coordStep j 1 := by
  funext i
  simp [coordStep]

/-- Convergence of a column of the numerical Jacobian, whether or not the target occurs. -/
theorem numColumn_tendsto (hε : 0 < ε) (hε1 : ε ≤ 1) (s : Store (geoLib ε)) (t : Target (geoLib ε))
    {τ : Ty} (e : Expr (geoLib ε) τ) (hreg : RegularAt ε s e) (hvt : Valid t.ty (s t.addr t.ty))
    (hd : Distinguished t e) {J : Matrix τ.Idx t.ty.Idx ℝ}
    (hJ : total (occurrences s t e) = some J) (j : t.ty.Idx) :
    ∃ G : ℝ → τ.Idx → ℝ, (∀ᶠ δ in 𝓝[≠] 0, e.numColumn s t.addr t.ty δ j = some (G δ)) ∧
      Tendsto G (𝓝[≠] 0) (𝓝 fun i => J i j) := by
  obtain ⟨F, h1, h2, h3⟩ := response_deriv_of_valid hε hε1 s t e hreg hvt (fun o h1 h2 _ => hd.1 o h1 h2) hJ
  have hlin : HasDerivAt (fun δ : ℝ => δ • (coordStep j 1 : t.ty.Idx → ℝ)) (coordStep j 1) 0 := by
    simpa using (hasDerivAt_id (0 : ℝ)).smul_const (coordStep j 1 : t.ty.Idx → ℝ)
  have h3' : HasFDerivAt F (linMap J) ((fun δ : ℝ => δ • (coordStep j 1 : t.ty.Idx → ℝ)) 0) := by
    simpa using h3
  have hF : HasDerivAt (fun δ : ℝ => F (δ • coordStep j 1)) (linMap J (coordStep j 1)) 0 :=
    h3'.comp_hasDerivAt 0 hlin
  have hcol : linMap J (coordStep j 1) = fun i => J i j := by
    funext i
    change (J *ᵥ coordStep j 1) i = _
    simp [mulVec, dotProduct, coordStep]
  refine ⟨fun δ i => F (δ • coordStep j 1) i / δ, ?_, ?_⟩
  · have hev : ∀ᶠ δ : ℝ in 𝓝 0, response s t e (δ • coordStep j 1) =
        some (F (δ • coordStep j 1)) := by
      have hcont : Tendsto (fun δ : ℝ => δ • (coordStep j 1 : t.ty.Idx → ℝ)) (𝓝 0) (𝓝 0) := by
        have := hlin.continuousAt.tendsto
        simpa using this
      exact hcont.eventually h1
    filter_upwards [hev.filter_mono nhdsWithin_le_nhds, self_mem_nhdsWithin] with δ h hδ
    refine numColumn_eq s t e hd j hδ ?_
    rw [coordStep_eq]
    exact h
  · have := hasDerivAt_iff_tendsto_slope.mp hF
    rw [hcol] at this
    refine this.congr' ?_
    filter_upwards [self_mem_nhdsWithin] with δ hδ
    funext i
    simp [slope, h2]
    rw [div_eq_inv_mul]

/-- **C25 (convergence).** At a regular point where the analytic Jacobian is finite, every column of
the numerical Jacobian is finite for all small enough steps and tends to the analytic column. -/
theorem c25_converges (hε : 0 < ε) (hε1 : ε ≤ 1) (s : Store (geoLib ε)) (t : Target (geoLib ε))
    {τ : Ty} (e : Expr (geoLib ε) τ) (hreg : RegularAt ε s e) (ht : t ∈ objects e)
    (hd : Distinguished t e) (hc : e.noProxy ∨ e.fwdCompiles t) {J : Matrix τ.Idx t.ty.Idx ℝ}
    (hJ : e.jacobianAuto s t = some J) (j : t.ty.Idx) :
    ∃ G : ℝ → τ.Idx → ℝ, (∀ᶠ δ in 𝓝[≠] 0, e.numColumn s t.addr t.ty δ j = some (G δ)) ∧
      Tendsto G (𝓝[≠] 0) (𝓝 fun i => J i j) := by
  rw [c20_auto s t e ht (hc.imp id fun h => ⟨h, hd⟩)] at hJ
  exact numColumn_tendsto hε hε1 s t e hreg (regular_leaves e hreg t ht) hd hJ j

section Examples

/-- `R * (v + v) - w`: affine in `v`, which occurs twice. -/
private def exAffine (ε : ℝ) : Expr (geoLib ε) (.vec .trans) :=
  .bin 100 (Bin.sub .trans) (.bin 101 Bin.rotateM (gleaf ε 1 0 (.rot .mat))
    (.bin 102 (Bin.sum .trans) (gleaf ε 2 0 (.vec .trans)) (gleaf ε 2 0 (.vec .trans))))
    (gleaf ε 3 0 (.vec .trans))

/-- Hypotheses of `c25_affine_exact`, in any memory. -/
example (ε : ℝ) (s : Store (geoLib ε)) : AffineIn (⟨2, 0, .vec .trans⟩ : Target (geoLib ε)) (exAffine ε) ∧
    (⟨2, 0, .vec .trans⟩ : Target (geoLib ε)) ∈ objects (exAffine ε) ∧
    Distinguished (⟨2, 0, .vec .trans⟩ : Target (geoLib ε)) (exAffine ε) ∧
    (∃ y, (exAffine ε).eval s = some y) ∧
    ∃ J, (exAffine ε).jacobianAuto s ⟨2, 0, .vec .trans⟩ = some J := by
  have hd : Distinguished (⟨2, 0, .vec .trans⟩ : Target (geoLib ε)) (exAffine ε) := by
    simp [Distinguished, exAffine, objects, nodeAddrs]
  have hm : (⟨2, 0, .vec .trans⟩ : Target (geoLib ε)) ∈ objects (exAffine ε) := by
    simp [exAffine, objects]
  refine ⟨by simp [exAffine, AffineIn, depBin, objects], hm, hd, ⟨_, rfl⟩, ?_⟩
  rw [c20_auto _ _ _ hm (.inl rfl)]
  unfold exAffine
  simp only [occurrences]
  exact ⟨_, rfl⟩

/-- Hypotheses of `c25_converges`: `R * (R * v)` with respect to `R`. -/
example : RegularAt dblEps demo (exTwice dblEps) ∧
    Distinguished (⟨1, 0, .rot .quat⟩ : Target (geoLib dblEps)) (exTwice dblEps) ∧
    ∃ J, (exTwice dblEps).jacobianAuto (L := geoLib dblEps) demo ⟨1, 0, .rot .quat⟩ = some J := by
  have hr : RegularAt dblEps demo (exTwice dblEps) :=
    ⟨demo_valid _ _, ⟨demo_valid _ _, trivial, fun _ _ _ _ => trivial⟩, fun _ _ _ _ => trivial⟩
  have hm : (⟨1, 0, .rot .quat⟩ : Target (geoLib dblEps)) ∈ objects (exTwice dblEps) := by
    simp [exTwice, objects]
  exact ⟨hr, by simp [Distinguished, exTwice, objects, nodeAddrs],
    c14_finite dblEps_pos dblEps_lt.le _ _ _ hr ⟨trivial, trivial, trivial⟩ hm (.inl rfl)⟩

end Examples

theorem evalDelta_class {L : Lib} {s : Store L} {t : ℕ} {σ : L.Ty} {d : L.Idx σ → ℝ} : {τ : L.Ty} →
    (e : Expr L τ) → {z : L.Val τ} → e.evalDelta s t σ d = some z → OneClass t σ e := by
  have hb : ∀ {a : ℕ} {τ : L.Ty} {v : Option (L.Val τ)} {z : L.Val τ},
      Expr.evalDelta.bump t σ d a τ v = some z → (a = t → τ = σ) ∧ ∃ x, v = some x := by
    intro a τ v z h
    unfold Expr.evalDelta.bump at h
    refine ⟨fun ha => ?_, ?_⟩
    · rw [if_pos ha] at h
      by_cases hσ : σ = τ
      · exact hσ.symm
      · rw [dif_neg hσ] at h; cases h
    · cases v with
      | some x => exact ⟨x, rfl⟩
      | none => split at h <;> first | cases h | (split at h <;> cases h)
  intro τ e
  induction e with
  | leaf a c τ => exact fun h => (hb h).1
  | un a op e ih =>
    intro z h
    obtain ⟨h1, x, hx⟩ := hb h
    obtain ⟨y, hy, -⟩ := Option.bind_eq_some_iff.1 hx
    exact ⟨h1, ih hy⟩
  | bin a op l r ihl ihr =>
    intro z h
    obtain ⟨h1, x, hx⟩ := hb h
    obtain ⟨y, hy, hx⟩ := Option.bind_eq_some_iff.1 hx
    obtain ⟨w, hw, -⟩ := Option.bind_eq_some_iff.1 hx
    exact ⟨h1, ihl hy, ihr hw⟩
  | proxy a e ih =>
    intro z h
    obtain ⟨h1, x, hx⟩ := hb h
    exact ⟨h1, ih hx⟩

/-- **C25.** There is a result only if no object of another class has the target's address. -/
theorem c25_one_class {s : Store (geoLib ε)} {t : ℕ} {σ : Ty} {δ : ℝ} {τ : Ty}
    {e : Expr (geoLib ε) τ} {j : σ.Idx} {c : τ.Idx → ℝ} (h : e.numColumn s t σ δ j = some c) :
    OneClass t (σ : (geoLib ε).Ty) e := by
  obtain ⟨x, hx, -⟩ := Option.bind_eq_some_iff.1 h
  exact evalDelta_class e hx

example (s : Store (geoLib ε)) (j : Fin 1) :
    (Expr.leaf (L := geoLib ε) 1 0 (Ty.vec .trans)).numColumn s 1 (Ty.vec .scalar) 1 j = none := by
  cases h : (Expr.leaf (L := geoLib ε) 1 0 (Ty.vec .trans)).numColumn s 1 (Ty.vec .scalar) 1 j with
  | none => rfl
  | some c => cases (c25_one_class h) rfl

end WG
