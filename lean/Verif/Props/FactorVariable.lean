import Verif.Spec.FactorVariable
import Verif.Props.Factor

/-!
# C56: factor variables
-/

namespace WG
open Matrix Spec Filter Topology

variable {ε : ℝ}

theorem varRead_some {τ : Ty} {n : ℕ} (h : varSize τ = some n) (v : τ.Val) {i : ℕ} :
    (∃ x, varRead τ v i = some x) ↔ i < n := by
  rcases τ with (_ | _ | _ | _) | _ | (_ | _ | _) | (_ | _) <;> cases h <;>
  · simp only [varRead, Ty.dim]
    split_ifs with hi <;> simp [hi]

theorem varWrite_some {τ : Ty} {n : ℕ} (h : varSize τ = some n) (v : τ.Val) {i : ℕ} (x : ℝ) :
    (∃ w, varWrite τ v i x = some w) ↔ i < n := by
  rcases τ with (_ | _ | _ | _) | _ | (_ | _ | _) | (_ | _) <;> cases h <;>
  · simp only [varWrite, Ty.dim]
    split_ifs with hi <;> simp [hi]

theorem varWrite_read {τ : Ty} {v w : τ.Val} {i : ℕ} {x : ℝ} (h : varWrite τ v i x = some w) (j : ℕ) :
    varRead τ w j = if j = i then some x else varRead τ v j := by
  have vec : ∀ {n : ℕ} {ι : Type} [DecidableEq ι] (f : Fin n ≃ ι) (v w : ι → ℝ),
      (if h : i < n then some (Function.update v (f ⟨i, h⟩) x) else none) = some w →
      (if h : j < n then some (w (f ⟨j, h⟩)) else none) =
        if j = i then some x else if h : j < n then some (v (f ⟨j, h⟩)) else none := by
    intro n ι _ f v w h
    split_ifs at h with hi
    cases h
    by_cases hj : j < n
    · rw [dif_pos hj, dif_pos hj]
      by_cases hji : j = i
      · subst hji
        rw [if_pos rfl, Function.update_self]
      · rw [if_neg hji, Function.update_of_ne]
        intro e
        exact hji (Fin.mk.inj (f.injective e))
    · rw [dif_neg hj, dif_neg hj, if_neg (by rintro rfl; exact hj hi)]
  have mat : ∀ {n : ℕ} (hn : 0 < n) (m w : Matrix (Fin n) (Fin n) ℝ),
      (if h : i < n * n then some (m.updateRow ⟨i % n, Nat.mod_lt _ hn⟩
        (Function.update (m ⟨i % n, Nat.mod_lt _ hn⟩)
          ⟨i / n, Nat.div_lt_of_lt_mul h⟩ x)) else none) = some w →
      (if h : j < n * n then some (w ⟨j % n, Nat.mod_lt _ hn⟩ ⟨j / n, Nat.div_lt_of_lt_mul h⟩)
          else none) =
        if j = i then some x else
          if h : j < n * n then some (m ⟨j % n, Nat.mod_lt _ hn⟩ ⟨j / n, Nat.div_lt_of_lt_mul h⟩)
          else none := by
    intro n hn m w h
    split_ifs at h with hi
    cases h
    by_cases hj : j < n * n
    · rw [dif_pos hj, dif_pos hj]
      by_cases hji : j = i
      · subst hji
        rw [if_pos rfl, updateRow_self, Function.update_self]
      · rw [if_neg hji]
        by_cases hr : j % n = i % n
        · have e : (⟨j % n, Nat.mod_lt _ hn⟩ : Fin n) = ⟨i % n, Nat.mod_lt _ hn⟩ := Fin.ext hr
          rw [e, updateRow_self, Function.update_of_ne]
          intro e'
          have hd := Fin.mk.inj e'
          exact hji (by rw [← Nat.mod_add_div j n, ← Nat.mod_add_div i n, hr, hd])
        · rw [updateRow_ne]
          intro e
          exact hr (Fin.mk.inj e)
    · rw [dif_neg hj, dif_neg hj, if_neg (by rintro rfl; exact hj hi)]
  rcases τ with (_ | _ | _ | _) | _ | (_ | _ | _) | (_ | _)
  · cases h
  · exact vec (Equiv.refl (Fin 3)) v w h
  · exact vec (Equiv.refl (Fin 3)) v w h
  · exact vec (finSumFinEquiv (m := 3) (n := 3)).symm v w h
  · exact vec (Equiv.refl (Fin 3)) v w h
  · cases h
  · exact mat (n := 3) (by decide) v w h
  · cases h
  · exact mat (n := 4) (by decide) v w h
  · cases h

theorem varRead_ext {τ : Ty} {n : ℕ} (h : varSize τ = some n) {v w : τ.Val}
    (he : ∀ i < n, varRead τ v i = varRead τ w i) : v = w := by
  have vec : ∀ {n : ℕ} {ι : Type} (f : Fin n ≃ ι) (v w : ι → ℝ),
      (∀ i < n, (if h : i < n then some (v (f ⟨i, h⟩)) else none) =
        if h : i < n then some (w (f ⟨i, h⟩)) else none) → v = w := by
    intro n ι f v w h
    funext k
    have := h (f.symm k) (f.symm k).2
    rw [dif_pos (f.symm k).2, dif_pos (f.symm k).2] at this
    simpa using this
  have mat : ∀ {n : ℕ} (hn : 0 < n) (v w : Matrix (Fin n) (Fin n) ℝ),
      (∀ i < n * n, (if h : i < n * n then
          some (v ⟨i % n, Nat.mod_lt _ hn⟩ ⟨i / n, Nat.div_lt_of_lt_mul h⟩) else none) =
        if h : i < n * n then
          some (w ⟨i % n, Nat.mod_lt _ hn⟩ ⟨i / n, Nat.div_lt_of_lt_mul h⟩) else none) →
        v = w := by
    intro n hn v w h
    ext i j
    have hlt : (i : ℕ) + n * j < n * n := by
      calc (i : ℕ) + n * j < n + n * j := by omega
        _ = n * (j + 1) := by ring
        _ ≤ n * n := Nat.mul_le_mul_left _ j.2
    have := h (i + n * j) hlt
    rw [dif_pos hlt, dif_pos hlt] at this
    have e1 : (⟨((i : ℕ) + n * j) % n, Nat.mod_lt _ hn⟩ : Fin n) = i :=
      Fin.ext (by simp [Nat.mod_eq_of_lt i.2])
    have e2 : (⟨((i : ℕ) + n * j) / n, Nat.div_lt_of_lt_mul hlt⟩ : Fin n) = j :=
      Fin.ext (by simp [Nat.add_mul_div_left _ _ hn, Nat.div_eq_of_lt i.2])
    rw [e1, e2] at this
    exact Option.some.inj this
  rcases τ with (_ | _ | _ | _) | _ | (_ | _ | _) | (_ | _) <;> cases h
  · exact vec (Equiv.refl (Fin 3)) v w he
  · exact vec (Equiv.refl (Fin 3)) v w he
  · exact vec (finSumFinEquiv (m := 3) (n := 3)).symm v w he
  · exact vec (Equiv.refl (Fin 3)) v w he
  · exact mat (n := 3) (by decide) v w he
  · exact mat (n := 4) (by decide) v w he

/-- **C56.** Writing an element of the array changes that element and nothing else: no other element
and no other object; there is an element `i` exactly if `i < size()`. -/
theorem c56_write (s : Store (geoLib ε)) (a : ℕ) {τ : Ty} {n : ℕ} (h : varSize τ = some n) (x : ℝ)
    (i : ℕ) :
    (i < n → ∃ s', dataWrite s a τ i x = some s' ∧
      (∀ j, dataRead s' a τ j = if j = i then some x else dataRead s a τ j) ∧
      ∀ b σ, ¬(b = a ∧ σ = τ) → s' b σ = s b σ) ∧
    (¬i < n → dataWrite s a τ i x = none ∧ dataRead s a τ i = none) := by
  constructor
  · intro hi
    obtain ⟨w, hw⟩ := (varWrite_some h (s a τ) x).mpr hi
    refine ⟨s.set a τ w, by rw [dataWrite, hw]; rfl, fun j => ?_, fun b σ hb => ?_⟩
    · unfold dataRead
      rw [Store.set_get (L := geoLib ε)]
      exact varWrite_read hw j
    · unfold Store.set
      rw [dif_neg fun e => hb ⟨e.1, e.2.symm⟩]
  · intro hi
    constructor
    · unfold dataWrite
      cases hw : varWrite τ (s a τ) i x with
      | none => rfl
      | some w => exact absurd ((varWrite_some h (s a τ) x).mp ⟨w, hw⟩) hi
    · cases hr : varRead τ (s a τ) i with
      | none => exact hr
      | some w => exact absurd ((varRead_some h (s a τ)).mp ⟨w, hr⟩) hi

/-- **C56.** Overwriting the whole array, element after element, leads to the state in which the array
contains what was written and every other object is as before; there is exactly one such state: the
array determines the object. -/
theorem c56_overwrite (s : Store (geoLib ε)) (a : ℕ) {τ : Ty} {n : ℕ} (h : varSize τ = some n)
    (d : ℕ → ℝ) :
    ∃ s', dataWriteAll s a τ d n = some s' ∧ Overwritten s s' a τ (fun i : Fin n => d i) ∧
      ∀ s'', Overwritten s s'' a τ (fun i : Fin n => d i) → s'' = s' := by
  have key : ∀ k ≤ n, ∃ s', dataWriteAll s a τ d k = some s' ∧
      (∀ j < k, dataRead s' a τ j = some (d j)) ∧ ∀ b σ, ¬(b = a ∧ σ = τ) → s' b σ = s b σ := by
    intro k
    induction k with
    | zero => exact fun _ => ⟨s, rfl, fun j hj => absurd hj (by omega), fun _ _ _ => rfl⟩
    | succ k ih =>
      intro hk
      obtain ⟨s', h1, h2, h3⟩ := ih (by omega)
      obtain ⟨s'', g1, g2, g3⟩ := (c56_write s' a h (d k) k).1 (by omega)
      refine ⟨s'', ?_, fun j hj => ?_, fun b σ hb => (g3 b σ hb).trans (h3 b σ hb)⟩
      · change (dataWriteAll s a τ d k).bind _ = _
        rw [h1]
        exact g1
      · rw [g2 j]
        split_ifs with e
        · rw [e]
        · exact h2 j (by omega)
  obtain ⟨s', h1, h2, h3⟩ := key n le_rfl
  refine ⟨s', h1, ⟨fun i => h2 i i.2, h3⟩, fun s'' hs => ?_⟩
  funext b σ
  by_cases hb : b = a ∧ σ = τ
  · obtain ⟨rfl, rfl⟩ := hb
    exact varRead_ext h fun i hi => (hs.1 ⟨i, hi⟩).trans (h2 i hi).symm
  · rw [hs.2 b σ hb, h3 b σ hb]

/-- **C56.** The number of doubles of a variable is the number of columns of the Jacobians with
respect to it exactly for vectors and points. -/
theorem c56_size_iff {τ : Ty} {n : ℕ} (h : varSize τ = some n) :
    n = Fintype.card τ.Idx ↔ (∃ k, τ = .vec k) ∨ τ = .point := by
  rcases τ with (_ | _ | _ | _) | _ | (_ | _ | _) | (_ | _) <;> cases h <;>
    simp [Ty.dim]

theorem overwritten_set {s s' : Store (geoLib ε)} {a : ℕ} {τ : Ty} {n : ℕ} {d : Fin n → ℝ}
    (h : Overwritten s s' a τ d) : s' = s.set a τ (s' a τ) := by
  funext b σ
  by_cases hb : b = a ∧ σ = τ
  · obtain ⟨rfl, rfl⟩ := hb
    exact (Store.set_get (L := geoLib ε) s b σ (s' b σ)).symm
  · rw [h.2 b σ hb]
    unfold Store.set
    rw [dif_neg fun e => hb ⟨e.1, e.2.symm⟩]

/-- **C56.** Adding a step to the doubles of a vector or point is box-plus of the variable and the
step. -/
theorem c56_step {s s' : Store (geoLib ε)} {a : ℕ} {τ : Ty} (h : varSize τ = some τ.dim)
    {d : Fin τ.dim → ℝ} (hd : Contains s a τ d) (δ : τ.Idx → ℝ)
    (hs : Overwritten s s' a τ fun i => d i + δ (τ.enum.symm i)) :
    boxPlusVal ε τ (s a τ) δ = some (s' a τ) := by
  have vec : ∀ {n : ℕ} {ι : Type} (f : Fin n ≃ ι) (v w δ : ι → ℝ) (d : Fin n → ℝ),
      (∀ i : Fin n, (if h : (i : ℕ) < n then some (v (f ⟨i, h⟩)) else none) = some (d i)) →
      (∀ i : Fin n, (if h : (i : ℕ) < n then some (w (f ⟨i, h⟩)) else none) =
        some (d i + δ (f i))) → v + δ = w := by
    intro n ι f v w δ d h h'
    funext k
    have h1 := h (f.symm k)
    have h2 := h' (f.symm k)
    rw [dif_pos (f.symm k).2] at h1 h2
    simp only [Fin.eta, Equiv.apply_symm_apply, Option.some.injEq] at h1 h2
    rw [Pi.add_apply, h2, h1]
  have h1 := hd
  have h2 := hs.1
  unfold Contains dataRead at h1
  unfold dataRead at h2
  generalize s a τ = v at *
  generalize s' a τ = w at *
  rcases τ with (_ | _ | _ | _) | _ | (_ | _ | _) | (_ | _) <;> cases h
  · exact congrArg some (vec (Equiv.refl (Fin 3)) v w δ d h1 h2)
  · exact congrArg some (vec (Equiv.refl (Fin 3)) v w δ d h1 h2)
  · exact congrArg some (vec (finSumFinEquiv (m := 3) (n := 3)).symm v w δ d h1 h2)
  · exact congrArg some (vec (Equiv.refl (Fin 3)) v w δ d h1 h2)

/-- **C56.** The residual of a factor as a function of the doubles of a vector or point variable: its
derivative is the derivative with respect to the variable, column for column. -/
theorem c56_residual {s : Store (geoLib ε)} {F : Factor ε} {ts : List (Target (geoLib ε))}
    {t : Target (geoLib ε)} (h : varSize t.ty = some (Ty.dim t.ty)) {d : Fin (Ty.dim t.ty) → ℝ}
    (hd : Contains s t.addr t.ty d) {J : Matrix (Fin F.dim) (Ty.Idx t.ty) ℝ}
    (hJ : IsResidualDerivative s F ts t J) :
    ∃ R : (Fin (Ty.dim t.ty) → ℝ) → Fin F.dim → ℝ,
      (∀ᶠ x in 𝓝 d, ∀ s', Overwritten s s' t.addr t.ty x → F.evaluate s' ts = some (some (R x))) ∧
      F.evaluate s ts = some (some (R d)) ∧
      HasFDerivAt R (linMap (J.submatrix id (Ty.enum t.ty).symm)) d := by
  obtain ⟨R, h1, h2, h3⟩ := hJ
  let e := Ty.enum t.ty
  let g : (Fin (Ty.dim t.ty) → ℝ) → Ty.Idx t.ty → ℝ := fun x k => x (e k) - d (e k)
  have hg0 : g d = 0 := funext fun k => sub_self _
  have hgd : HasFDerivAt g (ContinuousLinearMap.pi fun k =>
      ContinuousLinearMap.proj (R := ℝ) (φ := fun _ : Fin (Ty.dim t.ty) => ℝ) (e k)) d := by
    rw [hasFDerivAt_pi']
    intro k
    refine HasFDerivAt.congr_fderiv
      ((ContinuousLinearMap.proj (R := ℝ) (φ := fun _ : Fin (Ty.dim t.ty) => ℝ)
        (e k)).hasFDerivAt.sub_const (d (e k))) ?_
    rfl
  refine ⟨fun x => R (g x), ?_, ?_, ?_⟩
  · have hc : Tendsto g (𝓝 d) (𝓝 0) := by
      have := hgd.continuousAt.tendsto
      rwa [hg0] at this
    filter_upwards [hc.eventually h1] with x hx s' hs
    obtain ⟨v, hv, hR⟩ := hx
    have hs' : Overwritten s s' t.addr t.ty fun i => d i + g x (e.symm i) := by
      refine ⟨fun i => (hs.1 i).trans (congrArg some ?_), hs.2⟩
      simp only [g, Equiv.apply_symm_apply]
      ring
    have := c56_step h hd (g x) hs'
    rw [hv] at this
    have e' := overwritten_set hs
    rw [← Option.some.inj this] at e'
    rw [e']
    exact hR
  · change F.evaluate s ts = some (some (R (g d)))
    rw [hg0]; exact h2
  · rw [← hg0] at h3
    refine HasFDerivAt.congr_fderiv (h3.comp d hgd) ?_
    ext x i
    simp only [linMap, ContinuousLinearMap.comp_apply, LinearMap.coe_toContinuousLinearMap',
      mulVecLin_apply, mulVec, dotProduct, submatrix_apply, id]
    refine Fintype.sum_equiv e _ _ fun k => ?_
    simp [e]

/-- Two rotation matrices do not differ in a single element. -/
theorem rotation_entry {m m' : M3} (hm : IsRotation m) (hm' : IsRotation m') {r c : Fin 3}
    (h : ∀ i j, ¬(i = r ∧ j = c) → m' i j = m i j) : m' = m := by
  have dot : ∀ {m : M3}, IsRotation m → ∀ i j, ∑ k, m i k * m j k = (1 : M3) i j := by
    intro m hm i j
    rw [← hm.1]
    rfl
  have split : ∀ q, (∑ k, m' q k * m' r k) - ∑ k, m q k * m r k =
      m' q c * m' r c - m q c * m r c := by
    intro q
    rw [← Finset.sum_sub_distrib, Finset.sum_eq_single c]
    · intro k _ hk
      rw [h q k (fun e => hk e.2), h r k (fun e => hk e.2), sub_self]
    · intro hc
      exact absurd (Finset.mem_univ c) hc
  have hz : ∀ q, m' q c * m' r c = m q c * m r c := by
    intro q
    have := split q
    rw [dot hm', dot hm, sub_self] at this
    linarith
  by_cases hx : m' r c = m r c
  · ext i j
    by_cases e : i = r ∧ j = c
    · rw [e.1, e.2]; exact hx
    · exact h i j e
  · exfalso
    have hneg : m' r c = -m r c := by
      have := hz r
      have h2 : (m' r c - m r c) * (m' r c + m r c) = 0 := by linarith
      rcases mul_eq_zero.mp h2 with h2 | h2
      · exact absurd (sub_eq_zero.mp h2) hx
      · linarith
    have hcol : ∀ q, m' q c = -m q c := by
      intro q
      by_cases e : q = r
      · rw [e, hneg]
      · have h1 := h q c (fun k => e k.1)
        have h2 := hz q
        rw [h1, hneg] at h2
        have h3 : m r c ≠ 0 := fun h0 => hx (by rw [hneg, h0, neg_zero])
        have : m q c * m r c = 0 := by linarith
        rcases mul_eq_zero.mp this with h4 | h4
        · rw [h1, h4, neg_zero]
        · exact absurd h4 h3
    have e : m' = m.updateCol c ((-1 : ℝ) • fun i => m i c) := by
      ext i j
      by_cases hj : j = c
      · subst hj
        rw [updateCol_self, hcol i]
        simp
      · rw [updateCol_ne hj, h i j fun k => hj k.2]
    have hdet := congrArg det e
    rw [det_updateCol_smul, hm'.2] at hdet
    have : m.updateCol c (fun i => m i c) = m := updateCol_eq_self m c
    rw [this, hm.2] at hdet
    norm_num at hdet

/-- **C56.** Changing one of the nine doubles of a rotation matrix never gives a rotation again. -/
theorem c56_rotation_broken {s s' : Store (geoLib ε)} {a i : ℕ} {x : ℝ}
    (hs : Valid (.rot .mat) (s a (.rot .mat))) (h : dataWrite s a (.rot .mat) i x = some s')
    (hx : dataRead s a (.rot .mat) i ≠ some x) : ¬Valid (.rot .mat) (s' a (.rot .mat)) := by
  intro hv
  obtain ⟨w, hw, rfl⟩ := Option.map_eq_some_iff.mp h
  rw [Store.set_get (L := geoLib ε)] at hv
  refine hx ?_
  have hr := varWrite_read hw i
  rw [if_pos rfl] at hr
  have hi : i < 9 := (varWrite_some (τ := .rot .mat) rfl (s a (.rot .mat)) x).mp ⟨w, hw⟩
  have e : (w : M3) = s a (.rot .mat) := by
    refine rotation_entry (r := ⟨i % 3, Nat.mod_lt _ (by decide)⟩) (c := ⟨i / 3, by omega⟩) hs hv ?_
    intro p q hpq
    have hw' : (if h : i < 9 then some (updateRow (s a (.rot .mat) : M3) ⟨i % 3, _⟩
      (Function.update ((s a (.rot .mat) : M3) ⟨i % 3, Nat.mod_lt _ (by decide)⟩)
        ⟨i / 3, by omega⟩ x)) else none) = some w := hw
    rw [dif_pos hi] at hw'
    rw [← Option.some.inj hw']
    by_cases hp : p = ⟨i % 3, Nat.mod_lt _ (by decide)⟩
    · rw [hp, updateRow_self, Function.update_of_ne fun e => hpq ⟨hp, e⟩]
    · rw [updateRow_ne hp]
  rw [← hr, e]
  rfl

/-- **C56.** Changing one of the sixteen doubles of a homogeneous matrix gives a rigid transform again
exactly if it is one of the three of the translation, numbers 12, 13, 14. -/
theorem c56_rigid_broken_iff {s s' : Store (geoLib ε)} {a i : ℕ} {x : ℝ}
    (hs : Valid (.rigid .mat) (s a (.rigid .mat))) (h : dataWrite s a (.rigid .mat) i x = some s')
    (hx : dataRead s a (.rigid .mat) i ≠ some x) :
    Valid (.rigid .mat) (s' a (.rigid .mat)) ↔ i = 12 ∨ i = 13 ∨ i = 14 := by
  obtain ⟨w, hw, rfl⟩ := Option.map_eq_some_iff.mp h
  rw [Store.set_get (L := geoLib ε)]
  have hr := varWrite_read hw i
  rw [if_pos rfl] at hr
  have hi : i < 16 := (varWrite_some (τ := .rigid .mat) rfl (s a (.rigid .mat)) x).mp ⟨w, hw⟩
  have hother : ∀ p q : Fin 4, ¬((p : ℕ) = i % 4 ∧ (q : ℕ) = i / 4) →
      (w : M4) p q = (s a (.rigid .mat) : M4) p q := by
    intro p q hpq
    have hw' : (if h : i < 16 then some (updateRow (s a (.rigid .mat) : M4) ⟨i % 4, _⟩
      (Function.update ((s a (.rigid .mat) : M4) ⟨i % 4, Nat.mod_lt _ (by decide)⟩)
        ⟨i / 4, by omega⟩ x)) else none) = some w := hw
    rw [dif_pos hi] at hw'
    rw [← Option.some.inj hw']
    by_cases hp : p = ⟨i % 4, Nat.mod_lt _ (by decide)⟩
    · rw [hp, updateRow_self, Function.update_of_ne]
      intro e
      exact hpq ⟨by rw [hp], by rw [e]⟩
    · rw [updateRow_ne hp]
  have hsame : (w : M4) = s a (.rigid .mat) → False := by
    intro e
    refine hx ?_
    rw [← hr, e]
    rfl
  constructor
  · intro hv
    by_contra hn
    refine hsame ?_
    by_cases hb : i % 4 = 3
    · ext p q
      by_cases hp : p = Fin.last 3
      · rw [hp, hv.2, hs.2]
      · refine hother p q fun e => hp (Fin.ext ?_)
        rw [e.1, hb]; rfl
    · have hc : i / 4 < 3 := by omega
      have hrow : i % 4 < 3 := by omega
      have hR : (rigidDen .mat w).R = (rigidDen .mat (s a (.rigid .mat))).R := by
        refine rotation_entry (r := ⟨i % 4, hrow⟩) (c := ⟨i / 4, hc⟩) hs.1 hv.1 ?_
        intro p q hpq
        refine hother p.castSucc q.castSucc fun e => hpq ⟨Fin.ext e.1, Fin.ext e.2⟩
      ext p q
      by_cases e : (p : ℕ) = i % 4 ∧ (q : ℕ) = i / 4
      · have := congrFun (congrFun hR ⟨i % 4, hrow⟩) ⟨i / 4, hc⟩
        have e1 : p = Fin.castSucc ⟨i % 4, hrow⟩ := Fin.ext e.1
        have e2 : q = Fin.castSucc ⟨i / 4, hc⟩ := Fin.ext e.2
        rw [e1, e2]
        exact this
      · exact hother p q e
  · intro h12
    have hR : (rigidDen .mat w).R = (rigidDen .mat (s a (.rigid .mat))).R := by
      ext p q
      refine hother p.castSucc q.castSucc fun e => ?_
      have : ((q.castSucc : Fin 4) : ℕ) = q := rfl
      omega
    refine ⟨by rw [hR]; exact hs.1, ?_⟩
    rw [← hs.2]
    funext q
    refine hother (Fin.last 3) q fun e => ?_
    have : ((Fin.last 3 : Fin 4) : ℕ) = 3 := rfl
    omega

/-! ### Concrete cases -/

example (s : Store (geoLib ε)) := c56_write s 1 (τ := .vec .twist) rfl 7 4

example (s : Store (geoLib ε)) := c56_overwrite s 1 (τ := .rot .mat) rfl fun i => i

example : ¬(9 = Fintype.card (Ty.Idx (.rot .mat))) := by
  rw [c56_size_iff (τ := .rot .mat) rfl]
  simp

/-- The third double of a twist variable is the third angular coordinate, the fourth the first linear
one. -/
example (s : Store (geoLib ε)) : dataRead s 1 (.vec .twist) 3 =
    some ((s 1 (.vec .twist) : Twist) (.inr 0)) := rfl

/-- Elements 6 to 8 of a rotation matrix are its third column. -/
example (s : Store (geoLib ε)) : dataRead s 1 (.rot .mat) 7 =
    some ((s 1 (.rot .mat) : M3) 1 2) := rfl

example : ∃ s' : Store (geoLib dblEps), dataWrite (ε := dblEps) demo 1 (.rot .mat) 2 5 = some s' ∧
    ¬Valid (.rot .mat) (s' 1 (.rot .mat)) := by
  obtain ⟨s', h, -⟩ := (c56_write (ε := dblEps) demo 1 (τ := .rot .mat) rfl 5 2).1 (by decide)
  refine ⟨s', h, c56_rotation_broken (demo_valid 1 (.rot .mat)) h ?_⟩
  change (some ((!![0, -1, 0; 1, 0, 0; 0, 0, 1] : M3) 2 0)) ≠ some 5
  simp

example : ∃ s' : Store (geoLib dblEps), dataWrite (ε := dblEps) demo 1 (.rigid .mat) 13 5 = some s' ∧
    Valid (.rigid .mat) (s' 1 (.rigid .mat)) := by
  obtain ⟨s', h, -⟩ := (c56_write (ε := dblEps) demo 1 (τ := .rigid .mat) rfl 5 13).1 (by decide)
  refine ⟨s', h, (c56_rigid_broken_iff (demo_valid 1 (.rigid .mat)) h ?_).mpr (by simp)⟩
  change (some ((mk4 !![0, -1, 0; 1, 0, 0; 0, 0, 1] ![1, 2, 3] : M4) 1 3)) ≠ some 5
  simp [mk4]

/-- The variable of `exFactor` contains (1, 1, 1); the residual as a function of its doubles. -/
example : ∃ (J : Matrix (Fin (exFactor dblEps).dim) (Fin 3) ℝ) (R : (Fin 3 → ℝ) → _ → ℝ),
    (∀ᶠ x in 𝓝 (fun _ => 1), ∀ s', Overwritten (ε := dblEps) demo s' 0 (.vec .trans) x →
      (exFactor dblEps).evaluate s' [exParam dblEps] = some (some (R x))) ∧
    HasFDerivAt R (linMap J) fun _ => 1 := by
  obtain ⟨J, hJ⟩ : ∃ J, IsResidualDerivative (ε := dblEps) demo (exFactor dblEps) [exParam dblEps]
      (exParam dblEps) J := by
    obtain ⟨⟨r, Js⟩, hacc⟩ :=
      (c46_single_accepted (ε := dblEps) demo (exFactor dblEps) [exParam dblEps] (exChannel dblEps) rfl
        rfl rfl (by simp [objects, exParam]) (by simp [value]) exFactor_W)
    obtain ⟨m, J, h1, h2, h3⟩ := c46_jacobian_partial dblEps_pos dblEps_lt.le demo (exFactor dblEps)
      [exParam dblEps] _ exFactor_observes exFactor_W hacc (i := 0) (t := exParam dblEps) rfl
      ⟨by simp [objects, exParam, exFactor], .inl rfl⟩ trivial (by
        intro x hx
        rw [List.mem_singleton] at hx
        subst hx
        refine ⟨trivial, by simp [value], fun h => ?_⟩
        exact Option.some_ne_none _ ((total_self (L := geoLib dblEps) demo 0 0 (.vec .trans)).symm.trans h))
      (by
        intro x hx o ho _ _
        rw [List.mem_singleton] at hx
        subst hx
        simpa [objects, exParam] using ho)
    exact ⟨_, h3⟩
  obtain ⟨R, h1, -, h3⟩ := c56_residual (ε := dblEps) (t := exParam dblEps) rfl (d := fun _ => 1)
    (fun i => by fin_cases i <;> rfl) hJ
  exact ⟨_, R, h1, h3⟩

end WG
