import Verif.Lemmas.RoundingJacOutcome
import Verif.Props.Derivative
import Verif.Props.Rounding

/-!
# C62: Jacobians in floating-point arithmetic
-/

namespace WG
open Matrix Spec Round Filter Topology

variable {ε : ℝ} {F : Fl}

/-- **C62 (dynamic evaluation).** Every outcome of computing a Jacobian through dynamic nodes, from
leaves stored with relative error at most `η`, is within the error bound of the exact Jacobian, whose
columns are no longer than the size used in the bound. -/
theorem c62_dynamic {η : ℝ} (hη : 0 ≤ η) {s s' : Store (geoLib ε)} {t : ℕ} {σ τ : Ty}
    (e : Expr (geoLib ε) τ) (hs : StoredWithin η s s' e) {v : τ.Val}
    (hv : e.eval (L := geoLib ε) s = some v) {T : ETree (geoLib ε) τ} (hT : FlTree F s' e T)
    {o : Option (Matrix τ.Idx σ.Idx ℝ)} (ho : FlDyn F t σ T o) :
    ∃ J, e.dynJacobian s t σ = some J ∧ (∀ j, len (fun i => J i j) ≤ ampJ s (byAddr t) e) ∧
      Columns ((facJ F.u η (byAddr t) e - 1) * ampJ s (byAddr t) e) J (o.getD 0) :=
  (dyn_near hη e hs hv hT ho).getD (dyn_none e)

/-- **C62.** The same for `expr.jacobian(x)` of an object that occurs in an expression without dynamic
nodes, whichever evaluator is chosen. -/
theorem c62_jacobian {η : ℝ} (hη : 0 ≤ η) {s s' : Store (geoLib ε)} {t : Target (geoLib ε)} {τ : Ty}
    (e : Expr (geoLib ε) τ) (hp : e.noProxy = true) (ht : t ∈ objects e) (hs : StoredWithin η s s' e)
    {v : τ.Val} (hv : e.eval (L := geoLib ε) s = some v) {K : Matrix τ.Idx (Ty.Idx t.ty) ℝ}
    (hK : FlAuto F s' t e K) :
    ∃ J, e.jacobianAuto s t = some J ∧ (∀ j, len (fun i => J i j) ≤ ampJ s (byObject t) e) ∧
      Columns ((facJ F.u η (byObject t) e - 1) * ampJ s (byObject t) e) J K := by
  obtain ⟨T, hT, h⟩ := hK
  unfold Expr.jacobianAuto
  split_ifs at h with h1 h2
  · rw [if_pos h1]
    obtain ⟨-, hn⟩ := (uniqueLeaves_iff e).1 h1
    unfold Expr.typedJacobian
    rw [if_pos h2, ← facJ_type, ← ampJ_type s t e]
    · exact (typed_near hη e hs hv hT h).getD fun h => nomatch h
    · intro o ho e1 e2
      exact List.inj_on_of_nodup_map hn ho ht (Prod.ext e1 e2)
  · exact absurd ((hasType_iff t e hp).2 (mem_types ht)) h2
  · rw [if_neg h1]
    obtain ⟨o, ho, rfl⟩ := h
    exact (fwd_near hη e hp hs hv hT ho).getD (fwd_none e hp)

/-- **C62 (evaluator by type).** The evaluator used when all leaf types differ. -/
theorem c62_typed {η : ℝ} (hη : 0 ≤ η) {s s' : Store (geoLib ε)} {t : Target (geoLib ε)} {τ : Ty}
    (e : Expr (geoLib ε) τ) (hn : e.hasType t = true) (hs : StoredWithin η s s' e) {v : τ.Val}
    (hv : e.eval (L := geoLib ε) s = some v) {T : ETree (geoLib ε) τ} (hT : FlTree F s' e T)
    {K : Matrix τ.Idx (Ty.Idx t.ty) ℝ} (hK : FlTyped F t T K) :
    ∃ J, e.typedJacobian s t = some J ∧ (∀ j, len (fun i => J i j) ≤ ampJ s (byType t) e) ∧
      Columns ((facJ F.u η (byType t) e - 1) * ampJ s (byType t) e) J K := by
  unfold Expr.typedJacobian
  rw [if_pos hn]
  exact (typed_near hη e hs hv hT hK).getD fun h => nomatch h

/-- **C62 (evaluator by object).** The evaluator used otherwise. -/
theorem c62_forward {η : ℝ} (hη : 0 ≤ η) {s s' : Store (geoLib ε)} {t : Target (geoLib ε)} {τ : Ty}
    (e : Expr (geoLib ε) τ) (hp : e.noProxy = true) (hs : StoredWithin η s s' e) {v : τ.Val}
    (hv : e.eval (L := geoLib ε) s = some v) {T : ETree (geoLib ε) τ} (hT : FlTree F s' e T)
    {o : Option (Matrix τ.Idx (Ty.Idx t.ty) ℝ)} (ho : FlFwd F t T o) :
    ∃ J, e.jacobian s t = some J ∧ (∀ j, len (fun i => J i j) ≤ ampJ s (byObject t) e) ∧
      Columns ((facJ F.u η (byObject t) e - 1) * ampJ s (byObject t) e) J (o.getD 0) :=
  (fwd_near hη e hp hs hv hT ho).getD (fwd_none e hp)

/-- **C62 (reverse mode).** One block per leaf, in order; every row of a computed block is within the
error bound of the path to that leaf. -/
theorem c62_reverse {η : ℝ} (hη : 0 ≤ η) {s s' : Store (geoLib ε)} {τ : Ty} (e : Expr (geoLib ε) τ)
    (hs : StoredWithin η s s' e) {v : τ.Val} (hv : e.eval (L := geoLib ε) s = some v)
    {T : ETree (geoLib ε) τ} (hT : FlTree F s' e T) {bs : List (FlBlock τ)} (h : FlRev F T 1 bs) :
    (e.reverse s).2.length = e.leaves.length ∧ bs.length = e.leaves.length ∧
    ∀ (i : ℕ) (t : Target (geoLib ε)), e.leaves[i]? = some t →
      ∃ (p : ℝ × ℝ) (J J' : Matrix τ.Idx (Ty.Idx t.ty) ℝ), (paths F.u η s e)[i]? = some p ∧
        (e.reverse s).2[i]? = some ⟨t.ty, some J⟩ ∧ bs[i]? = some ⟨t.ty, J'⟩ ∧
        (∀ r, len (fun j => J r j) ≤ p.1) ∧ Rows ((p.2 - 1) * p.1) J J' := by
  have one : ∀ i, len (fun j => (1 : Matrix τ.Idx τ.Idx ℝ) i j) ≤ 1 := fun i => by
    have := (nearO_id (ε := ε) (rfl : τ = τ)).2.1 i
    refine le_trans (le_of_eq (congrArg len (funext fun j => ?_))) this
    change (1 : Matrix τ.Idx τ.Idx ℝ) i j = (1 : Matrix τ.Idx τ.Idx ℝ) j i
    rw [← Matrix.transpose_apply (1 : Matrix τ.Idx τ.Idx ℝ) i j, Matrix.transpose_one]
  have near : RevNear 1 1 (paths F.u η s e) (e.reverse s).2 bs :=
    rev_near hη e hs hv hT zero_le_one le_rfl one (fun i => by
      simp only [sub_self, zero_mul]
      exact len_zero.le) h
  obtain ⟨l1, l2⟩ := near.lengths
  rw [paths_length] at l1 l2
  refine ⟨l1, l2, fun i t ht => ?_⟩
  have hi : i < e.leaves.length := (List.getElem?_eq_some_iff.mp ht).1
  obtain ⟨p, hp⟩ : ∃ p, (paths F.u η s e)[i]? = some p :=
    ⟨_, List.getElem?_eq_getElem (by rw [paths_length]; exact hi)⟩
  obtain ⟨σ, J, J', e1, e2, h1, h2⟩ := near.get i p hp
  have hty := congrArg (·[i]?) (rev_types (ρ := τ) s e (idBlock (L := geoLib ε) rfl))
  simp only [List.getElem?_map, ht, Option.map_some] at hty
  have e1' : ((ETree.mk s e).rev (L := geoLib ε) (ρ := τ) (idBlock (L := geoLib ε) rfl))[i]? =
    some ⟨σ, some J⟩ := e1
  rw [e1'] at hty
  obtain rfl : σ = t.ty := Option.some.inj hty
  refine ⟨p, J, J', hp, e1, e2, fun r => ?_, fun r => ?_⟩
  · simpa using h1 r
  · simpa using h2 r

/-- **C62.** Every expression whose values and Jacobians need no division has outcomes: a tree of
values and, from it, Jacobians by every evaluator that compiles. -/
theorem c62_outcome (F : Fl) (s : Store (geoLib ε)) {τ : Ty} (e : Expr (geoLib ε) τ)
    (h : JacCovered e) :
    ∃ T, FlTree F s e T ∧ (∃ z, T.val = some z ∧ Computes F s e z) ∧
      (∀ t : Target (geoLib ε), Distinguished t e → ∃ o, FlDyn F t.addr t.ty T o) ∧
      (∀ t : Target (geoLib ε), e.noProxy = true → t ∈ objects e →
        (∃ o, FlFwd F t T o) ∧ (∃ J, FlTyped F t T J) ∧ ∃ J, FlAuto F s t e J) ∧
      ∃ bs : List (FlBlock τ), FlRev F T 1 bs := by
  obtain ⟨T, hT⟩ := tree_exists F s e h
  refine ⟨T, hT, tree_val e hT, fun t hd => ?_, fun t hp ht => ?_, rev_exists e h hT 1⟩
  · exact dyn_exists e h (fun o ho ha => congrArg Target.ty (hd.1 o ho ha)) hd.2 hT
  · have hn := (hasType_iff t e hp).2 (mem_types ht)
    obtain ⟨o, ho⟩ := fwd_exists (t := t) e h hp hn hT
    obtain ⟨J, hJ⟩ := typed_exists (t := t) e h hn hT
    refine ⟨⟨o, ho⟩, ⟨J, hJ⟩, ?_⟩
    by_cases hu : e.uniqueLeaves = true
    · exact ⟨J, T, hT, by rw [if_pos hu, if_pos hn]; exact hJ⟩
    · exact ⟨o.getD 0, T, hT, by rw [if_neg hu]; exact ⟨o, ho, rfl⟩⟩

/-- **C62.** Without rounding, the outcomes are the results of the real-number model. -/
theorem c62_exact (hu : F.u = 0) (s : Store (geoLib ε)) {τ : Ty} (e : Expr (geoLib ε) τ)
    {T : ETree (geoLib ε) τ} (hT : FlTree F s e T) :
    (∀ t σ o, FlDyn F t σ T o → e.dynJacobian s t σ = some (o.getD 0)) ∧
      (∀ t o, FlFwd F t T o → e.jacobian s t = some (o.getD 0)) ∧
      (∀ t J, e.hasType t = true → FlTyped F t T J → e.typedJacobian s t = some J) ∧
      ∀ bs : List (FlBlock τ), FlRev F T 1 bs → (e.reverse s).2 = bs.map fun b => ⟨b.1, some b.2⟩ := by
  cases tree_exact hu e hT
  refine ⟨fun t σ o h => ?_, fun t o h => ?_, fun t J hn h => ?_, fun bs h => rev_exact hu _ h⟩
  · rcases (dyn_exact hu _ h).cases with ⟨h1, rfl⟩ | ⟨J, h1, rfl⟩
    · exact congrArg orZero h1
    · exact congrArg orZero h1
  · rcases (fwd_exact hu _ h).cases with ⟨h1, rfl⟩ | ⟨J, h1, rfl⟩
    · exact congrArg orZero h1
    · exact congrArg orZero h1
  · unfold Expr.typedJacobian
    rw [if_pos hn]
    exact typed_exact hu _ h

/-- **C62.** In terms of derivatives: what `expr.jacobian(x)` returns in floating point is within the
error bound of the derivative of the exact value of the expression (with the library's box operators,
as in C14). -/
theorem c62_derivative (hε : 0 < ε) (hε1 : ε ≤ 1) {η : ℝ} (hη : 0 ≤ η) {s s' : Store (geoLib ε)}
    {t : Target (geoLib ε)} {τ : Ty} (e : Expr (geoLib ε) τ) (hc : JacCovered e)
    (hp : e.noProxy = true) (ht : t ∈ objects e)
    (ho : ∀ o ∈ objects e, o.addr = t.addr → o.ty = t.ty → o = t) (hs : StoredWithin η s s' e)
    {K : Matrix τ.Idx (Ty.Idx t.ty) ℝ} (hK : FlAuto F s' t e K) :
    ∃ (G : (Ty.Idx t.ty → ℝ) → τ.Idx → ℝ) (J : Matrix τ.Idx (Ty.Idx t.ty) ℝ),
      (∀ᶠ d in 𝓝 0, ((boxPlusVal ε t.ty (s t.addr t.ty) d).bind fun v =>
        (e.eval (s.set t.addr t.ty v)).bind fun y => (e.eval s).bind fun y₀ =>
          boxMinusVal ε τ y y₀) = some (G d)) ∧ G 0 = 0 ∧ HasFDerivAt G (linMap J) 0 ∧
      Columns ((facJ F.u η (byObject t) e - 1) * ampJ s (byObject t) e) J K := by
  obtain ⟨v, hv⟩ := eval_covered s e hc
  obtain ⟨J, h1, -, h3⟩ := c62_jacobian hη e hp ht hs hv hK
  obtain ⟨G, g1, g2, g3⟩ := c14_jacobian_is_derivative hε hε1 s t e
    (regular_covered s e hc fun o ho => (hs o ho).1) ht ho (.inl hp) h1
  exact ⟨G, J, g1, g2, g3, h3⟩

/-! ### Products of many rotations -/

theorem rotChain_facJ (F : Fl) (a : ℕ → ℕ) {t : ℕ} (ht : t ≠ 0) : (k : ℕ) →
    facJ F.u 0 (byAddr t) (rotChain ε .composeM a k) ≤ (chainFactor F.u * (1 + F.u)) ^ k
  | 0 => by
    change (1 : ℝ) ≤ _
    simp
  | k + 1 => by
    have h := rotChain_facJ F a ht k
    have u0 := u_nonneg F
    have g0 := growth_nonneg F 6
    have g3 := growth_nonneg F 3
    have d : ¬ ((byAddr t).node 0 = true) := by simpa [byAddr] using ht.symm
    have e : facJ F.u 0 (byAddr t) (rotChain ε .composeM a (k + 1)) =
        max (1 * facJ F.u 0 (byAddr t) (rotChain ε .composeM a k))
          (factor F.u 0 (rotChain ε .composeM a k) * 1) * chainFactor F.u * (1 + F.u) := by
      rw [rotChain, facJ, if_neg d]
      rfl
    rw [e, rotChain_factor_mat, pow_succ, mul_assoc _ (chainFactor F.u)]
    have c1 := one_le_chain F
    have hle : (1 + 3 * growth F.u 3) ^ k ≤ (chainFactor F.u * (1 + F.u)) ^ k := by
      refine pow_le_pow_left₀ (by linarith) ?_ k
      have : growth F.u 3 ≤ growth F.u 6 := growth_mono F (by norm_num)
      have : 1 + 3 * growth F.u 3 ≤ chainFactor F.u := by
        unfold chainFactor
        linarith
      nlinarith
    refine mul_le_mul_of_nonneg_right (max_le ?_ ?_) (by positivity)
    · rwa [one_mul]
    · rwa [mul_one]

theorem rotChain_ampJ {s : Store (geoLib ε)} {a : ℕ → ℕ} (ha : Function.Injective a) {t : ℕ}
    (ht : t ≠ 0) : (k : ℕ) → ampJ s (byAddr t) (rotChain ε .composeM a k) ≤ 1 ∧
      ((∀ i ≤ k, a i ≠ t) → ampJ s (byAddr t) (rotChain ε .composeM a k) = 0)
  | 0 => by
    simp only [rotChain, ampJ]
    refine ⟨by split_ifs <;> norm_num, fun h => if_neg ?_⟩
    simpa [byAddr] using h 0 le_rfl
  | k + 1 => by
    obtain ⟨h1, h2⟩ := rotChain_ampJ (s := s) ha ht k
    have d : ¬ ((byAddr t).node 0 = true) := by simpa [byAddr] using ht.symm
    have e : ampJ s (byAddr t) (rotChain ε .composeM a (k + 1)) =
        1 * ampJ s (byAddr t) (rotChain ε .composeM a k) +
          1 * if (byAddr t).leaf (a (k + 1)) 0 (.rot .mat) then 1 else 0 := by
      rw [rotChain, ampJ, if_neg d]
      rfl
    rw [e]
    by_cases h : a (k + 1) = t
    · rw [if_pos (show (byAddr t).leaf (a (k + 1)) 0 (.rot .mat) = true from decide_eq_true h), h2]
      · exact ⟨by norm_num, fun h' => absurd h (h' _ le_rfl)⟩
      · intro i hi h'
        have := ha (h'.trans h.symm)
        omega
    · rw [if_neg (by simpa [byAddr] using h)]
      refine ⟨by linarith, fun h' => ?_⟩
      rw [h2 fun i hi => h' i (by omega)]
      norm_num

/-- **C62.** The Jacobian of a product of `k + 1` different rotation matrices with respect to any of
them is computed with an error that grows linearly: every column is within `22 k` units of roundoff of
the exact one, which has length one. -/
theorem c62_chain {s : Store (geoLib ε)} {a : ℕ → ℕ} (ha : Function.Injective a) (k : ℕ)
    (hs : ∀ i, IsRotation (s (a i) (.rot .mat) : M3)) (hk : k * F.u ≤ 1 / 220) (h1 : F.u ≤ 1 / 121)
    {t : ℕ} (ht : t ≠ 0) {T : ETree (geoLib ε) (.rot .mat)} (hT : FlTree F s (rotChain ε .composeM a k) T)
    {o : Option (M3)} (ho : FlDyn F t (.rot .mat) T o) :
    ∃ J : M3, (rotChain ε .composeM a k).dynJacobian s t (.rot .mat) = some J ∧
      (∀ j, len (fun i => J i j) ≤ 1) ∧ Columns (22 * (k * F.u)) J (o.getD 0) := by
  have u0 := u_nonneg F
  have main : ∀ k, StoredWithin 0 s s (rotChain ε .composeM a k) := by
    intro k
    induction k with
    | zero =>
      intro t ht
      rw [List.mem_singleton.mp ht]
      exact ⟨hs 0, (frob_sub_self _).le⟩
    | succ k ih =>
      intro t ht
      rcases List.mem_append.mp ht with h | h
      · exact ih t h
      · rw [List.mem_singleton.mp h]
        exact ⟨hs _, (frob_sub_self _).le⟩
  have cov : ∀ k, JacCovered (rotChain ε .composeM a k) := by
    intro k
    induction k with
    | zero => trivial
    | succ k ih => exact ⟨trivial, ih, trivial⟩
  obtain ⟨v, hv⟩ := eval_covered s _ (cov k)
  obtain ⟨J, j1, j2, j3⟩ := c62_dynamic (le_refl 0) _ (main k) hv hT ho
  obtain ⟨m1, -⟩ := rotChain_ampJ (s := s) ha ht k
  refine ⟨J, j1, fun j => (j2 j).trans m1, fun j => (j3 j).trans ?_⟩
  have f1 := rotChain_facJ (ε := ε) F a ht k
  have m0 := ampJ_nonneg (s := s) (h := byAddr t) (rotChain ε .composeM a k)
  obtain ⟨x, hx⟩ : ∃ x, chainFactor F.u * (1 + F.u) = 1 + x := ⟨_, (add_sub_cancel 1 _).symm⟩
  have c1 := one_le_chain F
  have x0 : 0 ≤ x := by nlinarith
  have x1 : x ≤ 20 * F.u := by
    have g : growth F.u 6 ≤ 25 / 4 * F.u := by
      have e : growth F.u 6 = F.u * (6 + F.u * (15 + F.u * (20 + F.u * (15 + F.u * (6 + F.u))))) := by
        unfold growth
        ring
      rw [e, mul_comm]
      refine mul_le_mul_of_nonneg_right ?_ u0
      have s1 : F.u * (6 + F.u) ≤ 1 := by nlinarith
      have s2 : F.u * (15 + F.u * (6 + F.u)) ≤ 1 := by nlinarith [mul_nonneg u0 u0]
      have s3 : F.u * (20 + F.u * (15 + F.u * (6 + F.u))) ≤ 1 :=
        (mul_le_mul_of_nonneg_left (by linarith : _ ≤ (21 : ℝ)) u0).trans (by linarith)
      exact le_trans (add_le_add le_rfl
        (mul_le_mul_of_nonneg_left (by linarith : _ ≤ (16 : ℝ)) u0)) (by linarith)
    unfold chainFactor at hx
    nlinarith [mul_nonneg u0 u0]
  have k0 : (0 : ℝ) ≤ k := Nat.cast_nonneg k
  have kx := mul_le_mul_of_nonneg_left x1 k0
  have p := pow_growth x0 k (by nlinarith)
  rw [hx] at f1
  have f2 : facJ F.u 0 (byAddr t) (rotChain ε .composeM a k) - 1 ≤ 22 * (k * F.u) := by nlinarith
  have b0 : 0 ≤ 22 * (k * F.u) := by positivity
  calc _ ≤ 22 * (k * F.u) * ampJ s (byAddr t) (rotChain ε .composeM a k) :=
        mul_le_mul_of_nonneg_right f2 m0
    _ ≤ 22 * (k * F.u) * 1 := mul_le_mul_of_nonneg_left m1 b0
    _ = _ := mul_one _

/-- **C62.** A million and one rotations in double precision: the Jacobian with respect to any of them
is within `2.5e-9` of the exact one, column by column. -/
theorem c62_million {s : Store (geoLib ε)} {a : ℕ → ℕ} (ha : Function.Injective a)
    (hs : ∀ i, IsRotation (s (a i) (.rot .mat) : M3)) {t : ℕ} (ht : t ≠ 0)
    {T : ETree (geoLib ε) (.rot .mat)}
    (hT : FlTree (ieee 52) s (rotChain ε .composeM a 1000000) T) {o : Option (M3)}
    (ho : FlDyn (ieee 52) t (.rot .mat) T o) :
    ∃ J : M3, (rotChain ε .composeM a 1000000).dynJacobian s t (.rot .mat) = some J ∧
      Columns 2.5e-9 J (o.getD 0) := by
  have hu : (ieee 52).u = 1 / 2 ^ 53 := by
    change (2 : ℝ) ^ (-(52 + 1 : ℤ)) = _
    norm_num
  obtain ⟨J, h1, -, h3⟩ := c62_chain (F := ieee 52) ha 1000000 hs (by rw [hu]; norm_num)
    (by rw [hu]; norm_num) ht hT ho
  rw [hu] at h3
  exact ⟨J, h1, fun j => (h3 j).trans (by norm_num)⟩

/-! ### Forward and reverse mode -/

/-- Rounding of a number between one and two to the nearest multiple of `2 ^ -52`. -/
theorem ieee_round {m : ℤ} {x : ℝ} (h1 : 1 ≤ x) (h2 : x < 2) (h : roundEven (x * 2 ^ 52) = m) :
    ieeeRnd 52 x = (m : ℝ) / 2 ^ 52 := by
  have hp : (0 : ℝ) < x := by linarith
  have hl : Int.log 2 |x| = 0 := by
    rw [abs_of_pos hp]
    exact log_of (by simpa using h1) (by simpa using h2)
  unfold ieeeRnd
  rw [hl, abs_of_pos hp, if_neg (not_lt.mpr hp.le)]
  rw [show (0 - ((52 : ℕ) : ℤ)) = -52 by norm_num, _root_.zpow_neg, div_inv_eq_mul]
  have e : x * (2 : ℝ) ^ (52 : ℤ) = x * 2 ^ 52 := by norm_cast
  rw [e, h]
  norm_num
  ring

theorem flSum_ne_nil {l : List (ℝ × ℝ)} {z : ℝ} (h : FlSum F l z) : l ≠ [] := by
  induction h with
  | lit x => simp
  | one x => simp
  | mul a b => simp
  | add hx hy hp ih _ =>
    rintro rfl
    exact ih (List.append_eq_nil_iff.mp (List.Perm.eq_nil hp)).1
  | fma a b hx hp _ =>
    rintro rfl
    exact absurd (List.Perm.eq_nil hp) (by simp)

theorem flSum_single {a b z : ℝ} (h : FlSum F [(a, b)] z) :
    z = F.rnd (a * b) ∨ (b = 1 ∧ z = a) ∨ (a = 1 ∧ z = b) := by
  generalize hl : [(a, b)] = l at h
  cases h with
  | lit x =>
    simp only [List.cons.injEq, Prod.mk.injEq, and_true] at hl
    exact .inr (.inl ⟨hl.2, hl.1.symm⟩)
  | one x =>
    simp only [List.cons.injEq, Prod.mk.injEq, and_true] at hl
    exact .inr (.inr ⟨hl.1, hl.2.symm⟩)
  | mul c d =>
    simp only [List.cons.injEq, Prod.mk.injEq, and_true] at hl
    rw [hl.1, hl.2]
    exact .inl rfl
  | add hx hy hp =>
    have h1 := List.length_pos_of_ne_nil (flSum_ne_nil hx)
    have h2 := List.length_pos_of_ne_nil (flSum_ne_nil hy)
    have h3 := hp.length_eq
    rw [List.length_append, ← hl] at h3
    simp at h3
    omega
  | fma c d hx hp =>
    have h1 := List.length_pos_of_ne_nil (flSum_ne_nil hx)
    have h3 := hp.length_eq
    rw [← hl] at h3
    simp only [List.length_cons, List.length_nil] at h3
    omega

/-- A product of one-by-one matrices is one rounded multiplication. -/
theorem flProd_scalar {A B C : Matrix (Fin 1) (Fin 1) ℝ} (h : FlProd F A B C) :
    FlSum F [(A 0 0, B 0 0)] (C 0 0) := by
  obtain ⟨K, -, hs⟩ := h 0 0
  rcases K.eq_empty_or_nonempty with rfl | hK
  · rw [Finset.toList_empty] at hs
    exact absurd rfl (flSum_ne_nil hs)
  · obtain ⟨k, hk⟩ := hK
    obtain rfl : K = {0} := by
      ext i
      rw [Subsingleton.elim k 0] at hk
      simp [Subsingleton.elim i 0, hk]
    rw [Finset.toList_singleton] at hs
    exact hs

/-- One plus one unit in the last place at addresses 1 and 2, `3/2` at address 3, one elsewhere. -/
noncomputable def ulps (ε : ℝ) : Store (geoLib ε) := fun a τ => match τ with
  | .vec .scalar => fun _ : Fin 1 =>
    if a = 1 ∨ a = 2 then (1 + 1 / 2 ^ 52 : ℝ) else if a = 3 then 3 / 2 else 1
  | τ => demo a τ

/-- The product of two scalar expressions. -/
noncomputable def mulS {ε : ℝ} (x y : Expr (geoLib ε) (.vec .scalar)) : Expr (geoLib ε) (.vec .scalar) :=
  Expr.bin (L := geoLib ε) 0 Bin.product x y

/-- `a * (b * (c * x))`. -/
noncomputable def threeTimes (ε : ℝ) : Expr (geoLib ε) (.vec .scalar) :=
  mulS (scalarLeaf ε 1) (mulS (scalarLeaf ε 2) (mulS (scalarLeaf ε 3) (scalarLeaf ε 4)))

/-- In exact arithmetic, forward and reverse mode agree on it. -/
theorem threeTimes_exact (ε : ℝ) : ∃ J : Matrix (Fin 1) (Fin 1) ℝ,
    (threeTimes ε).jacobian (ulps ε) ⟨4, 0, Ty.vec .scalar⟩ = some J ∧
      ((threeTimes ε).reverse (ulps ε)).2[3]? = some ⟨Ty.vec .scalar, some J⟩ := by
  let R (a : ℕ) : Matrix (Fin 1) (Fin 1) ℝ := productJacR (ulps ε a (Ty.vec .scalar) (0 : Fin 1))
  refine ⟨R 1 * (R 2 * (R 3 * 1)), rfl, ?_⟩
  have : R 1 * (R 2 * (R 3 * 1)) = 1 * R 1 * R 2 * R 3 := by
    rw [Matrix.mul_one, Matrix.one_mul, Matrix.mul_assoc]
  rw [this]
  rfl

theorem scalar_id {h : Ty.vec .scalar = Ty.vec .scalar} : idMat h 0 0 = 1 := rfl

/-- **C62.** The forward and the reverse evaluator multiply the same local Jacobians in different
orders.  In double precision their results, equal in exact arithmetic, are different numbers: for
`a * (b * (c * x))` with `a = b = 1 + 2⁻⁵²` and `c = 3/2`, forward mode always computes `3/2 + 4·2⁻⁵²` and reverse mode always `3/2 + 3·2⁻⁵²`. -/
theorem c62_forward_reverse_differ (ε : ℝ) (T : ETree (geoLib ε) (.vec .scalar))
    (hT : FlTree (ieee 52) (ulps ε) (threeTimes ε) T) :
    (∃ J : Matrix (Fin 1) (Fin 1) ℝ, (threeTimes ε).jacobian (ulps ε) ⟨4, 0, Ty.vec .scalar⟩ = some J ∧
      ((threeTimes ε).reverse (ulps ε)).2[3]? = some ⟨Ty.vec .scalar, some J⟩) ∧
    (∀ o, FlFwd (ieee 52) ⟨4, 0, Ty.vec .scalar⟩ T o →
      o = some (fun _ _ => 3 / 2 + 4 / 2 ^ 52 : Matrix (Fin 1) (Fin 1) ℝ)) ∧
    ∀ bs : List (FlBlock (.vec .scalar)), FlRev (ieee 52) T 1 bs →
      bs[3]? = some ⟨.vec .scalar, (fun _ _ => 3 / 2 + 3 / 2 ^ 52 : Matrix (Fin 1) (Fin 1) ℝ)⟩ := by
  refine ⟨threeTimes_exact ε, ?_⟩
  obtain ⟨c1, d1, x1, y1, z1, rfl, ⟨c2, d2, x2, y2, z2, rfl, ⟨c3, d3, x3, y3, z3, rfl, rfl, h3, h3', k3,
    rfl⟩, h2, h2', k2, rfl⟩, h1, h1', k1, rfl⟩ := hT
  have a1 : x1 (0 : Fin 1) = 1 + 1 / 2 ^ 52 := by
    rw [← Option.some.inj h1]
    simp [ulps]
  have a2 : x2 (0 : Fin 1) = 1 + 1 / 2 ^ 52 := by
    rw [← Option.some.inj h2]
    simp [ulps]
  have a3 : x3 (0 : Fin 1) = 3 / 2 := by
    rw [← Option.some.inj h3]
    simp [ulps]
  have r1 : ieeeRnd 52 (3 / 2) = 3 / 2 := by
    rw [ieee_round (m := 3 * 2 ^ 51) (by norm_num) (by norm_num)]
    · norm_num
    · unfold roundEven
      rw [show (3 / 2 * 2 ^ 52 : ℝ) = ((3 * 2 ^ 51 : ℤ) : ℝ) by norm_num, Int.floor_intCast, sub_self,
        if_pos (by norm_num)]
  have r2 : ieeeRnd 52 ((1 + 1 / 2 ^ 52) * (3 / 2)) = 3 / 2 + 2 / 2 ^ 52 := by
    have hf : ⌊((1 + 1 / 2 ^ 52) * (3 / 2) * 2 ^ 52 : ℝ)⌋ = 3 * 2 ^ 51 + 1 := by
      rw [Int.floor_eq_iff]
      constructor <;> norm_num
    rw [ieee_round (m := 3 * 2 ^ 51 + 2) (by norm_num) (by norm_num)]
    · norm_num
    · unfold roundEven
      rw [hf, if_neg (by norm_num), if_neg (by norm_num), if_neg (by decide)]
      norm_num
  have r3 : ieeeRnd 52 ((1 + 1 / 2 ^ 52) * (3 / 2 + 2 / 2 ^ 52)) = 3 / 2 + 4 / 2 ^ 52 := by
    have hf : ⌊((1 + 1 / 2 ^ 52) * (3 / 2 + 2 / 2 ^ 52) * 2 ^ 52 : ℝ)⌋ = 3 * 2 ^ 51 + 3 := by
      rw [Int.floor_eq_iff]
      constructor <;> norm_num
    rw [ieee_round (m := 3 * 2 ^ 51 + 4) (by norm_num) (by norm_num)]
    · norm_num
    · unfold roundEven
      rw [hf, if_neg (by norm_num), if_pos (by norm_num)]
      norm_num
  have r4 : ieeeRnd 52 (1 + 1 / 2 ^ 52) = 1 + 1 / 2 ^ 52 := ieee_exact
  have r5 : ieeeRnd 52 ((1 + 1 / 2 ^ 52) * (1 + 1 / 2 ^ 52)) = 1 + 2 / 2 ^ 52 := by
    have hf : ⌊((1 + 1 / 2 ^ 52) * (1 + 1 / 2 ^ 52) * 2 ^ 52 : ℝ)⌋ = 2 ^ 52 + 2 := by
      rw [Int.floor_eq_iff]
      constructor <;> norm_num
    rw [ieee_round (m := 2 ^ 52 + 2) (by norm_num) (by norm_num)]
    · norm_num
    · unfold roundEven
      rw [hf, if_pos (by norm_num)]
  have r6 : ieeeRnd 52 ((1 + 2 / 2 ^ 52) * (3 / 2)) = 3 / 2 + 3 / 2 ^ 52 := by
    have hf : ⌊((1 + 2 / 2 ^ 52) * (3 / 2) * 2 ^ 52 : ℝ)⌋ = 3 * 2 ^ 51 + 3 := by
      rw [Int.floor_eq_iff]
      constructor <;> norm_num
    rw [ieee_round (m := 3 * 2 ^ 51 + 3) (by norm_num) (by norm_num)]
    · norm_num
    · unfold roundEven
      rw [hf, if_pos (by norm_num)]
  have ext1 : ∀ (A : Matrix (Fin 1) (Fin 1) ℝ) (x : ℝ), A 0 0 = x → A = fun _ _ => x := by
    rintro A x rfl
    funext i j
    rw [Subsingleton.elim i 0, Subsingleton.elim j 0]
  have once : ∀ {x y z w : ℝ}, FlSum (ieee 52) [(x, y)] z → x ≠ 1 ∨ ieeeRnd 52 (x * y) = y →
      y ≠ 1 ∨ ieeeRnd 52 (x * y) = x → ieeeRnd 52 (x * y) = w → z = w := by
    intro x y z w h hx hy hw
    rcases flSum_single h with e | ⟨e, e'⟩ | ⟨e, e'⟩
    · exact e.trans hw
    · rcases hy with hy | hy
      · exact absurd e hy
      · rw [e', ← hw, hy]
    · rcases hx with hx | hx
      · exact absurd e hx
      · rw [e', ← hw, hx]
  constructor
  · rintro o ⟨ol1, or1, rfl, ⟨ol2, or2, rfl, ⟨ol3, or3, rfl, rfl, L3, K3, ⟨v3, w3, _, _, e3, _, j3⟩, p3,
      rfl⟩, L2, K2, ⟨v2, w2, _, _, e2, _, j2⟩, p2, rfl⟩, L1, K1, ⟨v1, w1, _, _, e1, _, j1⟩, p1, rfl⟩
    have b3 : L3 (0 : Fin 1) (0 : Fin 1) = 3 / 2 := by
      rw [j3, ← Option.some.inj (h3.symm.trans e3)]
      exact a3
    have b2 : L2 (0 : Fin 1) (0 : Fin 1) = 1 + 1 / 2 ^ 52 := by
      rw [j2, ← Option.some.inj (h2.symm.trans e2)]
      exact a2
    have b1 : L1 (0 : Fin 1) (0 : Fin 1) = 1 + 1 / 2 ^ 52 := by
      rw [j1, ← Option.some.inj (h1.symm.trans e1)]
      exact a1
    have s3 := flProd_scalar p3
    rw [b3, scalar_id] at s3
    have t3 := once (w := 3 / 2) s3 (.inl (by norm_num)) (.inr (by rw [mul_one]; exact r1)) (by rw [mul_one]; exact r1)
    have s2 := flProd_scalar p2
    rw [b2, t3] at s2
    have t2 := once s2 (.inl (by norm_num)) (.inl (by norm_num)) r2
    have s1 := flProd_scalar p1
    rw [b1, t2] at s1
    have t1 := once s1 (.inl (by norm_num)) (.inl (by norm_num)) r3
    exact congrArg some (ext1 _ _ t1)
  · rintro bs ⟨L1, R1, K1, K1', b1, b1', _, ⟨v1, w1, _, _, e1, _, j1⟩, _, pR1, rfl, ⟨L2, R2, K2, K2', b2,
      b2', _, ⟨v2, w2, _, _, e2, _, j2⟩, _, pR2, rfl, ⟨L3, R3, K3, K3', b3, b3', _,
      ⟨v3, w3, _, _, e3, _, j3⟩, _, pR3, rfl, rfl, rfl⟩, rfl⟩, rfl⟩
    have b3 : R3 (0 : Fin 1) (0 : Fin 1) = 3 / 2 := by
      rw [j3, ← Option.some.inj (h3.symm.trans e3)]
      exact a3
    have b2 : R2 (0 : Fin 1) (0 : Fin 1) = 1 + 1 / 2 ^ 52 := by
      rw [j2, ← Option.some.inj (h2.symm.trans e2)]
      exact a2
    have b1 : R1 (0 : Fin 1) (0 : Fin 1) = 1 + 1 / 2 ^ 52 := by
      rw [j1, ← Option.some.inj (h1.symm.trans e1)]
      exact a1
    have s1 := flProd_scalar pR1
    rw [b1, show (1 : Matrix (Fin 1) (Fin 1) ℝ) 0 0 = 1 from rfl] at s1
    have t1 := once (w := 1 + 1 / 2 ^ 52) s1 (.inr (by rw [one_mul]; exact r4)) (.inl (by norm_num)) (by rw [one_mul]; exact r4)
    have s2 := flProd_scalar pR2
    rw [b2, t1] at s2
    have t2 := once s2 (.inl (by norm_num)) (.inl (by norm_num)) r5
    have s3 := flProd_scalar pR3
    rw [b3, t2] at s3
    have t3 := once s3 (.inl (by norm_num)) (.inl (by norm_num)) r6
    exact congrArg (fun A => some (⟨.vec .scalar, A⟩ : FlBlock (.vec .scalar))) (ext1 _ _ t3)

/-! ### Examples -/

/-- `T * (R * v + w)` with a transform, a quaternion and two translations. -/
noncomputable def moved (ε : ℝ) : Expr (geoLib ε) (.vec .trans) :=
  Expr.bin (L := geoLib ε) 0 (Bin.transform .compact) (Expr.leaf (L := geoLib ε) 1 0 (Ty.rigid .compact))
    (Expr.bin (L := geoLib ε) 0 (Bin.sum .trans)
      (Expr.bin (L := geoLib ε) 0 Bin.rotateQ (Expr.leaf (L := geoLib ε) 2 0 (Ty.rot .quat))
        (Expr.leaf (L := geoLib ε) 3 0 (Ty.vec .trans)))
      (Expr.leaf (L := geoLib ε) 4 0 (Ty.vec .trans)))

theorem moved_covered (ε : ℝ) : JacCovered (moved ε) :=
  ⟨trivial, trivial, trivial, ⟨trivial, trivial, trivial⟩, trivial⟩

theorem storedWithin_self {τ : Ty} (h : τ ≠ .rot .aa) (x : τ.Val) : Within τ 0 (size τ x) x x := by
  have z0 : ∀ {n : Type} [Fintype n] (x : n → ℝ) (c : ℝ), len (x - x) ≤ 0 * c := fun x c => by
    rw [sub_self, len_zero, zero_mul]
  have z1 : ∀ {n : Type} [Fintype n] (x : n → ℝ), len (x - x) ≤ 0 := fun x => by
    rw [sub_self, len_zero]
  rcases τ with k | _ | k | k
  · exact z0 _ _
  · exact z0 _ _
  · cases k
    · exact z1 _
    · exact (frob_sub_self _).le
    · exact absurd rfl h
  · cases k
    · exact ⟨(frob_sub_self _).le, z0 _ _⟩
    · exact ⟨z1 _, z0 _ _⟩

theorem moved_stored : StoredWithin 0 demo demo (moved dblEps) := by
  intro t ht
  refine ⟨demo_valid _ _, storedWithin_self (fun h => ?_) _⟩
  have ht' : t ∈ ([⟨1, 0, .rigid .compact⟩, ⟨2, 0, .rot .quat⟩, ⟨3, 0, .vec .trans⟩,
    ⟨4, 0, .vec .trans⟩] : List (Target (geoLib dblEps))) := ht
  simp only [List.mem_cons, List.not_mem_nil, or_false] at ht'
  rcases ht' with rfl | rfl | rfl | rfl <;> exact nomatch h

/-- The Jacobian with respect to the transform, in double precision: it exists and is near the
derivative. -/
example : ∃ (K : Matrix (Fin 3) (Fin 3 ⊕ Fin 3) ℝ) (G : (Fin 3 ⊕ Fin 3 → ℝ) → Fin 3 → ℝ)
    (J : Matrix (Fin 3) (Fin 3 ⊕ Fin 3) ℝ),
    FlAuto (ieee 52) demo ⟨1, 0, Ty.rigid .compact⟩ (moved dblEps) K ∧ G 0 = 0 ∧
    HasFDerivAt G (linMap J) 0 ∧
    Columns ((facJ (ieee 52).u 0 (byObject (ε := dblEps) ⟨1, 0, Ty.rigid .compact⟩) (moved dblEps) - 1) *
      ampJ demo (byObject (ε := dblEps) ⟨1, 0, Ty.rigid .compact⟩) (moved dblEps)) J K := by
  obtain ⟨T, -, -, -, h, -⟩ := c62_outcome (ieee 52) (ε := dblEps) demo (moved dblEps)
    (moved_covered _)
  obtain ⟨-, -, K, hK⟩ := h ⟨1, 0, Ty.rigid .compact⟩ rfl (List.mem_cons_self)
  obtain ⟨G, J, -, h2, h3, h4⟩ := c62_derivative dblEps_pos dblEps_lt.le le_rfl (moved dblEps)
    (moved_covered _) rfl List.mem_cons_self (by
      intro o ho ha _
      have ho' : o ∈ ([⟨1, 0, .rigid .compact⟩, ⟨2, 0, .rot .quat⟩, ⟨3, 0, .vec .trans⟩,
        ⟨4, 0, .vec .trans⟩] : List (Target (geoLib dblEps))) := ho
      simp only [List.mem_cons, List.not_mem_nil, or_false] at ho'
      rcases ho' with rfl | rfl | rfl | rfl
      · rfl
      all_goals exact absurd ha (by decide)) moved_stored hK
  exact ⟨K, G, J, hK, h2, h3, h4⟩

/-- Every evaluator on the same expression. -/
example : ∃ (T : ETree (geoLib dblEps) (.vec .trans)) (o : Option (Matrix (Fin 3) (Fin 3) ℝ))
    (o' : Option (Matrix (Fin 3) (Fin 3) ℝ)) (K : Matrix (Fin 3) (Fin 3) ℝ)
    (bs : List (FlBlock (.vec .trans))), FlTree (ieee 52) demo (moved dblEps) T ∧
    FlDyn (ieee 52) 2 (.rot .quat) T o ∧
    FlFwd (ieee 52) (⟨2, 0, Ty.rot .quat⟩ : Target (geoLib dblEps)) T o' ∧
    FlTyped (ieee 52) (⟨2, 0, Ty.rot .quat⟩ : Target (geoLib dblEps)) T K ∧ FlRev (ieee 52) T 1 bs ∧
    bs.length = 4 := by
  obtain ⟨T, hT, -, h1, h2, bs, h3⟩ := c62_outcome (ieee 52) (ε := dblEps) demo (moved dblEps)
    (moved_covered _)
  obtain ⟨o, ho⟩ := h1 ⟨2, 0, Ty.rot .quat⟩ ⟨by
      intro o ho ha
      have ho' : o ∈ ([⟨1, 0, .rigid .compact⟩, ⟨2, 0, .rot .quat⟩, ⟨3, 0, .vec .trans⟩,
        ⟨4, 0, .vec .trans⟩] : List (Target (geoLib dblEps))) := ho
      simp only [List.mem_cons, List.not_mem_nil, or_false] at ho'
      rcases ho' with rfl | rfl | rfl | rfl
      · exact absurd ha (by decide)
      · rfl
      all_goals exact absurd ha (by decide), by decide⟩
  obtain ⟨⟨o', ho'⟩, ⟨K, hK⟩, -⟩ := h2 ⟨2, 0, Ty.rot .quat⟩ rfl
    (List.mem_cons_of_mem _ List.mem_cons_self)
  obtain ⟨v, hv⟩ := eval_covered demo (moved dblEps) (moved_covered _)
  refine ⟨T, o, o', K, bs, hT, ho, ho', hK, h3, ?_⟩
  obtain ⟨-, h, -⟩ := c62_reverse le_rfl (moved dblEps) moved_stored hv hT h3
  exact h

/-- Bounds for each evaluator, at outcomes that exist by the example above. -/
example {T : ETree (geoLib dblEps) (.vec .trans)} (hT : FlTree (ieee 52) demo (moved dblEps) T)
    {v : Fin 3 → ℝ} (hv : (moved dblEps).eval (L := geoLib dblEps) demo = some v)
    {o : Option (Matrix (Fin 3) (Fin 3) ℝ)} (ho : FlDyn (ieee 52) 2 (.rot .quat) T o) :=
  c62_dynamic le_rfl (moved dblEps) moved_stored hv hT ho

example {T : ETree (geoLib dblEps) (.vec .trans)} (hT : FlTree (ieee 52) demo (moved dblEps) T)
    {v : Fin 3 → ℝ} (hv : (moved dblEps).eval (L := geoLib dblEps) demo = some v)
    {o : Option (Matrix (Fin 3) (Fin 3) ℝ)}
    (ho : FlFwd (ieee 52) (⟨2, 0, Ty.rot .quat⟩ : Target (geoLib dblEps)) T o) :=
  c62_forward le_rfl (moved dblEps) rfl moved_stored hv hT ho

example {T : ETree (geoLib dblEps) (.vec .trans)} (hT : FlTree (ieee 52) demo (moved dblEps) T)
    {v : Fin 3 → ℝ} (hv : (moved dblEps).eval (L := geoLib dblEps) demo = some v)
    {K : Matrix (Fin 3) (Fin 3) ℝ}
    (hK : FlTyped (ieee 52) (⟨2, 0, Ty.rot .quat⟩ : Target (geoLib dblEps)) T K) :=
  c62_typed le_rfl (moved dblEps) (by decide) moved_stored hv hT hK

/-- Four quarter turns: a Jacobian with respect to the third, in double precision. -/
example : ∃ (T : ETree (geoLib dblEps) (.rot .mat)) (o : Option M3) (J : M3),
    FlTree (ieee 52) demo (rotChain dblEps .composeM (fun i => i + 1) 3) T ∧
    FlDyn (ieee 52) 3 (.rot .mat) T o ∧
    (rotChain dblEps .composeM (fun i => i + 1) 3).dynJacobian (L := geoLib dblEps) demo 3 (Ty.rot .mat) = some J ∧
    Columns (22 * ((3 : ℕ) * (ieee 52).u)) J (o.getD 0) := by
  obtain ⟨T, hT, -, h1, -⟩ := c62_outcome (ieee 52) (ε := dblEps) demo
    (rotChain dblEps .composeM (fun i => i + 1) 3) (by
      exact ⟨trivial, ⟨trivial, ⟨trivial, trivial, trivial⟩, trivial⟩, trivial⟩)
  obtain ⟨o, ho⟩ := h1 ⟨3, 0, Ty.rot .mat⟩ ⟨by
      intro o ho ha
      have ho' : o ∈ ([⟨1, 0, .rot .mat⟩, ⟨2, 0, .rot .mat⟩, ⟨3, 0, .rot .mat⟩,
        ⟨4, 0, .rot .mat⟩] : List (Target (geoLib dblEps))) := ho
      simp only [List.mem_cons, List.not_mem_nil, or_false] at ho'
      rcases ho' with rfl | rfl | rfl | rfl
      · exact absurd ha (by decide)
      · exact absurd ha (by decide)
      · rfl
      · exact absurd ha (by decide), by decide⟩
  have hu : (ieee 52).u = 1 / 2 ^ 53 := by
    change (2 : ℝ) ^ (-(52 + 1 : ℤ)) = _
    norm_num
  obtain ⟨J, h1, -, h3⟩ := c62_chain (F := ieee 52) (add_left_injective 1) 3 (fun i => demo_quarter)
    (by rw [hu]; norm_num) (by rw [hu]; norm_num) (by norm_num) hT ho
  exact ⟨T, o, J, hT, ho, h1, h3⟩

end WG
