import Verif.Lemmas.DiffMain
import Verif.Spec.Affine

/-! Expressions affine in an object respond linearly, without remainder. -/

namespace WG
open Matrix Spec Filter Topology

variable {ε : ℝ}

/-- `y'` is `y` displaced by `δ` (rotations and rigid motions: not displaced at all). -/
def Shifted : (τ : Ty) → τ.Val → τ.Val → (τ.Idx → ℝ) → Prop
  | .vec k, y, y', δ => y' = fun i : k.Idx => y i + δ i
  | .point, y, y', δ => y' = fun i : Fin 3 => y i + δ i
  | .rot _, y, y', δ => y' = y ∧ δ = 0
  | .rigid _, y, y', δ => y' = y ∧ δ = 0

theorem Shifted.zero {τ : Ty} (y : τ.Val) : Shifted τ y y 0 := by
  cases τ with
  | vec k => exact funext fun i => (add_zero (y i)).symm
  | point => exact funext fun i => (add_zero (y i)).symm
  | rot k => exact ⟨rfl, rfl⟩
  | rigid k => exact ⟨rfl, rfl⟩

theorem Shifted.eq {τ : Ty} {y y' : τ.Val} (h : Shifted τ y y' 0) : y' = y := by
  cases τ with
  | vec k => exact h.trans (funext fun i => add_zero (y i))
  | point => exact h.trans (funext fun i => add_zero (y i))
  | rot k => exact h.1
  | rigid k => exact h.1

theorem bin_jac_some {a b c : Ty} (op : Bin a b c) {x : a.Val} {y : b.Val} {z : c.Val}
    (h : evalBin op x y = some z) : ∃ JL JR, jacL op z x y = some JL ∧ jacR op z x y = some JR := by
  cases op with
  | scaleDiv k =>
    have h' : vScaleDiv (n := k.Idx) x (y (0 : Fin 1)) = some z := h
    unfold vScaleDiv at h'
    have h0 : y (0 : Fin 1) ≠ 0 := by
      intro h0
      simp [h0] at h'
    refine ⟨(1 / y (0 : Fin 1)) • 1, colMat fun i => -x i / (y (0 : Fin 1) * y (0 : Fin 1)), ?_, ?_⟩
    · exact if_neg h0
    · exact if_neg (mul_ne_zero h0 h0)
  | divide =>
    have h' : (rdiv (x (0 : Fin 1)) (y (0 : Fin 1))).map sc = some z := h
    have h0 : y (0 : Fin 1) ≠ 0 := by
      intro h0
      simp [h0, rdiv] at h'
    refine ⟨mat1 (1 / y (0 : Fin 1)), mat1 (-x (0 : Fin 1) / (y (0 : Fin 1) * y (0 : Fin 1))), ?_, ?_⟩
    · change (rdiv _ _).map _ = _
      rw [rdiv, if_neg h0]; rfl
    · change (rdiv _ _).map _ = _
      rw [rdiv, if_neg (mul_ne_zero h0 h0)]; rfl
  | _ => exact ⟨_, _, rfl, rfl⟩

section
variable {n : Type} [Fintype n] [DecidableEq n]

theorem aff_scale (r ρ : ℝ) (v δ : n → ℝ) (h : ρ = 0 ∨ δ = 0) :
    vScale (r + ρ) (fun i => v i + δ i) = fun i => vScale r v i +
      (scaleJacL v *ᵥ (fun _ : Fin 1 => ρ) + scaleJacR r *ᵥ δ) i := by
  funext i
  rcases h with rfl | rfl
  · simp [vScale, scaleJacL, scaleJacR, colMat, mulVec, dotProduct, Matrix.one_apply]; ring
  · simp [vScale, scaleJacL, scaleJacR, colMat, mulVec, dotProduct]; ring

theorem aff_scaleR (r ρ : ℝ) (v δ : n → ℝ) (h : δ = 0 ∨ ρ = 0) :
    vScaleR (fun i => v i + δ i) (r + ρ) = fun i => vScaleR v r i +
      (scaleRJacL r *ᵥ δ + scaleRJacR v *ᵥ (fun _ : Fin 1 => ρ)) i := by
  funext i
  rcases h with rfl | rfl
  · simp [vScaleR, scaleRJacL, scaleRJacR, colMat, mulVec, dotProduct]; ring
  · simp [vScaleR, scaleRJacL, scaleRJacR, colMat, mulVec, dotProduct, Matrix.one_apply]; ring

theorem aff_dot (a b α β : n → ℝ) (h : α = 0 ∨ β = 0) :
    sc (vDot (fun i => a i + α i) (fun i => b i + β i)) = fun i => sc (vDot a b) i +
      (dotJacL b *ᵥ α + dotJacR a *ᵥ β) i := by
  funext i
  rcases h with rfl | rfl
  · simp [sc, vDot, dotJacL, dotJacR, rowMat, mulVec, dotProduct, mul_add, Finset.sum_add_distrib]
  · simp [sc, vDot, dotJacL, dotJacR, rowMat, mulVec, dotProduct, add_mul, Finset.sum_add_distrib]
    exact Finset.sum_congr rfl fun j _ => mul_comm _ _

end

theorem rotateQ_eq (q : Quat) (v : V3) : rotateQ q v = q.toMatrix *ᵥ v := Quat.rotate_eq q v

theorem transformEval_eq (k : RigK) (x : k.Val) (v : V3) :
    transformEval k x v = k.rotMatrix x *ᵥ v + k.trans x := by
  cases k with
  | mat => rfl
  | compact => exact congrArg (· + _) (rotateQ_eq _ _)

theorem scalar_shift {y y' : (Ty.vec .scalar).Val} {δ : (Ty.vec .scalar).Idx → ℝ}
    (h : Shifted (.vec .scalar) y y' δ) : y' (0 : Fin 1) = y (0 : Fin 1) + δ (0 : Fin 1) := by
  rw [show y' = fun i : Fin 1 => y i + δ i from h]

theorem scalar_eta (δ : (Ty.vec .scalar).Idx → ℝ) : (fun _ : Fin 1 => δ (0 : Fin 1)) = δ := by
  funext i; fin_cases i; rfl

theorem bin_affine {a b c : Ty} (op : Bin a b c) {x x' : a.Val} {y y' : b.Val} {z : c.Val}
    {δL : a.Idx → ℝ} {δR : b.Idx → ℝ} (hx : Shifted a x x' δL) (hy : Shifted b y y' δR)
    (hz : evalBin op x y = some z) {JL JR} (hL : jacL op z x y = some JL)
    (hR : jacR op z x y = some JR)
    (hd : match depBin op with
      | .both => True
      | .one => δL = 0 ∨ δR = 0
      | .left => δR = 0
      | .right => δL = 0
      | .never => δL = 0 ∧ δR = 0) :
    ∃ z', evalBin op x' y' = some z' ∧ Shifted c z z' (JL *ᵥ δL + JR *ᵥ δR) := by
  cases op with
  | sum k =>
    cases hL; cases hR
    refine ⟨_, rfl, ?_⟩
    rw [show x' = _ from hx, show y' = _ from hy, show z = vSum (n := k.Idx) x y from (Option.some.inj hz).symm]
    funext i
    simp only [vSum, sumJac, one_mulVec, Pi.add_apply]; ring
  | sumPV =>
    cases hL; cases hR
    refine ⟨_, rfl, ?_⟩
    rw [show x' = _ from hx, show y' = _ from hy, show z = vSum (n := Fin 3) x y from (Option.some.inj hz).symm]
    funext i
    simp only [vSum, sumJac, one_mulVec, Pi.add_apply]; ring
  | sumVP =>
    cases hL; cases hR
    refine ⟨_, rfl, ?_⟩
    rw [show x' = _ from hx, show y' = _ from hy, show z = vSum (n := Fin 3) x y from (Option.some.inj hz).symm]
    funext i
    simp only [vSum, sumJac, one_mulVec, Pi.add_apply]; ring
  | sub k =>
    cases hL; cases hR
    refine ⟨_, rfl, ?_⟩
    rw [show x' = _ from hx, show y' = _ from hy, show z = vSub (n := k.Idx) x y from (Option.some.inj hz).symm]
    funext i
    simp only [vSub, subJacL, subJacR, one_mulVec, neg_mulVec, Pi.add_apply, Pi.sub_apply, Pi.neg_apply]; ring
  | subPP =>
    cases hL; cases hR
    refine ⟨_, rfl, ?_⟩
    rw [show x' = _ from hx, show y' = _ from hy, show z = vSub (n := Fin 3) x y from (Option.some.inj hz).symm]
    funext i
    simp only [vSub, subJacL, subJacR, one_mulVec, neg_mulVec, Pi.add_apply, Pi.sub_apply, Pi.neg_apply]; ring
  | subPV =>
    cases hL; cases hR
    refine ⟨_, rfl, ?_⟩
    rw [show x' = _ from hx, show y' = _ from hy, show z = vSub (n := Fin 3) x y from (Option.some.inj hz).symm]
    funext i
    simp only [vSub, subJacL, subJacR, one_mulVec, neg_mulVec, Pi.add_apply, Pi.sub_apply, Pi.neg_apply]; ring
  | scale k =>
    cases hL; cases hR
    refine ⟨_, rfl, ?_⟩
    have hs := scalar_shift hx
    have := aff_scale (n := k.Idx) (x (0 : Fin 1)) (δL (0 : Fin 1)) y δR
      (hd.imp (fun h => by rw [h]; rfl) id)
    rw [scalar_eta δL] at this
    rw [show z = vScale (n := k.Idx) (x (0 : Fin 1)) y from (Option.some.inj hz).symm, show y' = _ from hy]
    rw [← hs] at this
    exact this
  | scaleR k =>
    cases hL; cases hR
    refine ⟨_, rfl, ?_⟩
    have hs := scalar_shift hy
    have := aff_scaleR (n := k.Idx) (y (0 : Fin 1)) (δR (0 : Fin 1)) x δL
      (hd.imp id (fun h => by rw [h]; rfl))
    rw [scalar_eta δR] at this
    rw [show z = vScaleR (n := k.Idx) x (y (0 : Fin 1)) from (Option.some.inj hz).symm, show x' = _ from hx]
    rw [← hs] at this
    exact this
  | dot k =>
    cases hL; cases hR
    refine ⟨_, rfl, ?_⟩
    rw [show x' = _ from hx, show y' = _ from hy,
      show z = sc (vDot (n := k.Idx) x y) from (Option.some.inj hz).symm]
    exact aff_dot (n := k.Idx) x y δL δR hd
  | product =>
    cases hL; cases hR
    refine ⟨_, rfl, ?_⟩
    have h1 := scalar_shift hx
    have h2 := scalar_shift hy
    rw [show z = sc (sProduct (x (0 : Fin 1)) (y (0 : Fin 1))) from (Option.some.inj hz).symm]
    funext i
    change sProduct (x' (0 : Fin 1)) (y' (0 : Fin 1)) = _
    rw [h1, h2]
    have key : δL (0 : Fin 1) = 0 ∨ δR (0 : Fin 1) = 0 :=
      hd.imp (fun h => by rw [h]; rfl) (fun h => by rw [h]; rfl)
    have hc : (productJacL (y (0 : Fin 1)) *ᵥ δL + productJacR (x (0 : Fin 1)) *ᵥ δR) i =
        y (0 : Fin 1) * δL (0 : Fin 1) + x (0 : Fin 1) * δR (0 : Fin 1) := by
      simp [productJacL, productJacR, mat1, mulVec, dotProduct]
    change _ = sc (sProduct (x (0 : Fin 1)) (y (0 : Fin 1))) i +
      (productJacL (y (0 : Fin 1)) *ᵥ δL + productJacR (x (0 : Fin 1)) *ᵥ δR) i
    rw [hc]
    unfold sc sProduct
    rcases key with h | h <;> rw [h] <;> ring
  | scaleDiv k =>
    have hd' : δR = 0 := hd
    subst hd'
    have hy' := hy.eq
    subst hy'
    have h' : vScaleDiv (n := k.Idx) x (y' (0 : Fin 1)) = some z := hz
    have h0 : y' (0 : Fin 1) ≠ 0 := by
      intro h0
      simp [h0, vScaleDiv] at h'
    have e1 : JL = (1 / y' (0 : Fin 1)) • 1 := by
      have : scaleDivJacL (n := k.Idx) (y' (0 : Fin 1)) = some JL := hL
      rw [scaleDivJacL, if_neg h0] at this
      exact (Option.some.inj this).symm
    have e2 : z = fun i : k.Idx => x i / y' (0 : Fin 1) := by
      rw [vScaleDiv, if_neg h0] at h'
      exact (Option.some.inj h').symm
    refine ⟨fun i : k.Idx => x' i / y' (0 : Fin 1), if_neg h0, ?_⟩
    rw [e1, e2, show x' = _ from hx, mulVec_zero, add_zero, smul_mulVec, one_mulVec]
    funext i
    simp only [Pi.smul_apply, smul_eq_mul]
    field_simp
  | divide =>
    have hd' : δR = 0 := hd
    subst hd'
    have hy' := hy.eq
    subst hy'
    have h' : (rdiv (x (0 : Fin 1)) (y' (0 : Fin 1))).map sc = some z := hz
    have h0 : y' (0 : Fin 1) ≠ 0 := by
      intro h0
      simp [h0, rdiv] at h'
    have e1 : JL = mat1 (1 / y' (0 : Fin 1)) := by
      have : (rdiv 1 (y' (0 : Fin 1))).map mat1 = some JL := hL
      rw [rdiv, if_neg h0] at this
      exact (Option.some.inj this).symm
    have e2 : z = sc (x (0 : Fin 1) / y' (0 : Fin 1)) := by
      rw [rdiv, if_neg h0] at h'
      exact (Option.some.inj h').symm
    refine ⟨sc (x' (0 : Fin 1) / y' (0 : Fin 1)), ?_, ?_⟩
    · change (rdiv (x' (0 : Fin 1)) (y' (0 : Fin 1))).map sc = _
      rw [rdiv, if_neg h0]; rfl
    · rw [e1, e2, scalar_shift hx, mulVec_zero, add_zero]
      funext i
      have : (mat1 (1 / y' (0 : Fin 1)) *ᵥ δL) i = 1 / y' (0 : Fin 1) * δL (0 : Fin 1) := by
        simp [mat1, mulVec, dotProduct]
      change _ = sc _ i + (mat1 (1 / y' (0 : Fin 1)) *ᵥ δL) i
      rw [this]
      unfold sc
      field_simp
  | rotateQ =>
    cases hR
    have hd' : δL = 0 := hd
    subst hd'
    have hx' := hx.eq
    subst hx'
    refine ⟨_, rfl, ?_⟩
    rw [show y' = _ from hy, mulVec_zero, zero_add]
    have hz' : z = rotateQ x' y := (Option.some.inj hz).symm
    rw [hz', rotateQ_eq, rotateQ_eq]
    exact mulVec_add _ _ _
  | rotateM =>
    cases hR
    have hd' : δL = 0 := hd
    subst hd'
    have hx' := hx.eq
    subst hx'
    refine ⟨_, rfl, ?_⟩
    rw [show y' = _ from hy, mulVec_zero, zero_add]
    have hz' : z = rotateM x' y := (Option.some.inj hz).symm
    rw [hz']
    exact mulVec_add _ _ _
  | transform k =>
    cases hR
    have hd' : δL = 0 := hd
    subst hd'
    have hx' := hx.eq
    subst hx'
    refine ⟨_, rfl, ?_⟩
    rw [show y' = _ from hy, mulVec_zero, zero_add]
    have hz' : z = transformEval k x' y := (Option.some.inj hz).symm
    rw [hz', transformEval_eq, transformEval_eq]
    change _ *ᵥ (y + δR) + _ = (_ *ᵥ y + _) + _ *ᵥ δR
    rw [mulVec_add]
    abel
  | _ =>
    have h1 : δL = 0 := hd.1
    have h2 : δR = 0 := hd.2
    subst h1 h2
    rw [hx.eq, hy.eq, mulVec_zero, mulVec_zero, add_zero]
    exact ⟨z, hz, Shifted.zero z⟩

theorem occ_total_nil {L : Lib} {s : Store L} {t : Target L} {τ : L.Ty} {e : Expr L τ} (h : t ∉ objects e)
    {J : Matrix (L.Idx τ) (L.Idx t.ty) ℝ} (hJ : total (occurrences s t e) = some J) : J = 0 := by
  rw [(occ_nil_iff s t e).mpr h] at hJ
  exact (Option.some.inj hJ).symm

/-- The value of an expression affine in `t`, when `t` is displaced. -/
theorem affine_value (s : Store (geoLib ε)) (t : Target (geoLib ε)) {v' : t.ty.Val}
    {d : t.ty.Idx → ℝ} (hd : Shifted t.ty (s t.addr t.ty) v' d) : {τ : Ty} →
    (e : Expr (geoLib ε) τ) → AffineIn t e →
    (∀ o ∈ objects e, o.addr = t.addr → o.ty = t.ty → o = t) →
    {y : τ.Val} → value s e = some y → {J : Matrix τ.Idx t.ty.Idx ℝ} →
    total (occurrences s t e) = some J →
    ∃ y', value (s.set t.addr t.ty v') e = some y' ∧ Shifted τ y y' (J *ᵥ d)
  | _, .leaf a c τ, _, ho, y, hy, J, hJ => by
    have hy' : y = s a τ := (Option.some.inj hy).symm
    by_cases h : (⟨a, c, τ⟩ : Target (geoLib ε)) = t
    · subst h
      have : J = 1 := by
        have h1 : total (occurrences s (⟨a, c, τ⟩ : Target (geoLib ε)) (.leaf a c τ)) = some 1 := by
          unfold occurrences
          rw [dif_pos rfl]
          exact @add_zero (OMat τ.Idx τ.Idx) _ (some (1 : Matrix τ.Idx τ.Idx ℝ))
        rw [h1] at hJ
        exact (Option.some.inj hJ).symm
      refine ⟨v', congrArg some (Store.set_get s a τ v'), ?_⟩
      rw [hy', this, one_mulVec]
      exact hd
    · have hn : t ∉ objects (.leaf a c τ : Expr (geoLib ε) τ) := by
        rw [objects, List.mem_singleton]
        exact fun h' => h h'.symm
      rw [occ_total_nil hn hJ, zero_mulVec]
      refine ⟨s a τ, congrArg some (Store.set_of_ne s v' fun hh => ?_), ?_⟩
      · exact h (ho ⟨a, c, τ⟩ (by simp [objects]) hh.1 hh.2.symm)
      · rw [hy']; exact Shifted.zero _
  | β, .un a op e, ha, ho, y, hy, J, hJ => by
    by_cases hn : t ∈ objects e
    · obtain ⟨K, hK, hJK⟩ := total_map_some _ _ hJ
      have ih := fun (ha : AffineIn t e) (x) (hx : value s e = some x) =>
        affine_value s t hd e ha ho hx hK
      cases op with
      | minus k =>
        obtain ⟨x, hx, hxy⟩ := Option.bind_eq_some_iff.mp hy
        obtain ⟨x', h1, h2⟩ := ih ha x hx
        have hs : slopeU s (Un.minus k : Un _ _) e = some (minusJac (n := k.Idx)) := by
          unfold slopeU
          rw [hx]; rfl
        refine ⟨fun i : k.Idx => -(x' i), ?_, ?_⟩
        · change (value _ e).bind _ = _
          rw [h1]; rfl
        · have e1 : y = fun i : k.Idx => -(x i) := (Option.some.inj hxy).symm
          have e2 : x' = fun i : k.Idx => x i + (K *ᵥ d) i := h2
          rw [hJK _ hs, e1, e2, ← mulVec_mulVec]
          funext i
          simp only [minusJac, neg_mulVec, one_mulVec, Pi.neg_apply]
          ring
      | recast =>
        obtain ⟨x, hx, hxy⟩ := Option.bind_eq_some_iff.mp hy
        obtain ⟨x', h1, h2⟩ := ih ha x hx
        have hs : slopeU s (Un.recast β : Un _ _) e = some (1 : Matrix β.Idx β.Idx ℝ) := by
          unfold slopeU
          rw [hx]; rfl
        refine ⟨x', ?_, ?_⟩
        · change (value _ e).bind _ = _
          rw [h1]; rfl
        · have e1 : y = x := (Option.some.inj hxy).symm
          rw [hJK _ hs, e1, Matrix.one_mul]
          exact h2
      | _ => exact absurd hn ha
    · rw [occ_total_nil (e := .un a op e) hn hJ, zero_mulVec]
      refine ⟨y, ?_, Shifted.zero y⟩
      rw [value_set_of_not_mem s t v' (.un a op e) fun o hm h1 h2 => hn (ho o hm h1 h2 ▸ hm)]
      exact hy
  | _, .bin a op l r, ha, ho, z, hz, J, hJ => by
    obtain ⟨x, hx, hz⟩ := Option.bind_eq_some_iff.mp hz
    obtain ⟨y, hy, hz⟩ := Option.bind_eq_some_iff.mp hz
    obtain ⟨JL, JR, hL, hR⟩ := bin_jac_some op hz
    change total (_ ++ _) = _ at hJ
    rw [total_append] at hJ
    obtain ⟨J1, J2, hJ1, hJ2, hJJ⟩ : ∃ J1 J2, total ((occurrences s t l).map
        (OMat.mul (slopeL s op l r))) = some J1 ∧ total ((occurrences s t r).map
        (OMat.mul (slopeR s op l r))) = some J2 ∧ J = J1 + J2 := by
      rcases h1 : total ((occurrences s t l).map (OMat.mul (slopeL s op l r))) with _ | J1
      · rw [h1] at hJ; cases hJ
      · rcases h2 : total ((occurrences s t r).map (OMat.mul (slopeR s op l r))) with _ | J2
        · rw [h1, h2] at hJ; cases hJ
        · rw [h1, h2] at hJ
          exact ⟨J1, J2, rfl, rfl, (Option.some.inj hJ).symm⟩
    obtain ⟨K1, hK1, e1⟩ := total_map_some _ _ hJ1
    obtain ⟨K2, hK2, e2⟩ := total_map_some _ _ hJ2
    have hol : ∀ o ∈ objects l, o.addr = t.addr → o.ty = t.ty → o = t :=
      fun o h => ho o (List.mem_append_left _ h)
    have hor : ∀ o ∈ objects r, o.addr = t.addr → o.ty = t.ty → o = t :=
      fun o h => ho o (List.mem_append_right _ h)
    have sl : slopeL s op l r = some JL := by
      unfold slopeL
      rw [hx, hy]
      change (evalBin op x y).bind _ = _
      rw [show evalBin op x y = some z from hz]; exact hL
    have sr : slopeR s op l r = some JR := by
      unfold slopeR
      rw [hx, hy]
      change (evalBin op x y).bind _ = _
      rw [show evalBin op x y = some z from hz]; exact hR
    have hJd : J *ᵥ d = JL *ᵥ (K1 *ᵥ d) + JR *ᵥ (K2 *ᵥ d) := by
      rw [hJJ, e1 _ sl, e2 _ sr, add_mulVec, mulVec_mulVec, mulVec_mulVec]
    -- the operands
    have stay : ∀ {α : Ty} (f : Expr (geoLib ε) α) {u : α.Val} {K : Matrix α.Idx t.ty.Idx ℝ},
        (∀ o ∈ objects f, o.addr = t.addr → o.ty = t.ty → o = t) → t ∉ objects f →
        value s f = some u → total (occurrences s t f) = some K →
        (∃ u', value (s.set t.addr t.ty v') f = some u' ∧ Shifted α u u' (K *ᵥ d)) ∧ K *ᵥ d = 0 := by
      intro α f u K hf hn hu hK
      rw [occ_total_nil hn hK, zero_mulVec]
      refine ⟨⟨u, ?_, Shifted.zero u⟩, rfl⟩
      rw [value_set_of_not_mem s t v' f fun o hm h1 h2 => hn (hf o hm h1 h2 ▸ hm)]
      exact hu
    have fin : ∀ {x' y'}, value (s.set t.addr t.ty v') l = some x' → Shifted _ x x' (K1 *ᵥ d) →
        value (s.set t.addr t.ty v') r = some y' → Shifted _ y y' (K2 *ᵥ d) →
        (match depBin op with
          | .both => True
          | .one => K1 *ᵥ d = 0 ∨ K2 *ᵥ d = 0
          | .left => K2 *ᵥ d = 0
          | .right => K1 *ᵥ d = 0
          | .never => K1 *ᵥ d = 0 ∧ K2 *ᵥ d = 0) →
        ∃ y', value (s.set t.addr t.ty v') (.bin a op l r) = some y' ∧ Shifted _ z y' (J *ᵥ d) := by
      intro x' y' h1 h2 h3 h4 h5
      obtain ⟨z', h6, h7⟩ := bin_affine op h2 h4 hz hL hR h5
      refine ⟨z', ?_, by rw [hJd]; exact h7⟩
      change (value _ l).bind (fun x => (value _ r).bind _) = _
      rw [h1, h3]; exact h6
    unfold AffineIn at ha
    rcases hdep : depBin op with _ | _ | _ | _ | _ <;> simp only [hdep] at ha fin
    · obtain ⟨x', h1, h2⟩ := affine_value s t hd l ha.1 hol hx hK1
      obtain ⟨y', h3, h4⟩ := affine_value s t hd r ha.2 hor hy hK2
      exact fin h1 h2 h3 h4 trivial
    · rcases ha with ha | ha
      · obtain ⟨x', h1, h2⟩ := affine_value s t hd l ha.1 hol hx hK1
        obtain ⟨⟨y', h3, h4⟩, h5⟩ := stay r hor ha.2 hy hK2
        exact fin h1 h2 h3 h4 (.inr h5)
      · obtain ⟨⟨x', h1, h2⟩, h5⟩ := stay l hol ha.1 hx hK1
        obtain ⟨y', h3, h4⟩ := affine_value s t hd r ha.2 hor hy hK2
        exact fin h1 h2 h3 h4 (.inl h5)
    · obtain ⟨x', h1, h2⟩ := affine_value s t hd l ha.1 hol hx hK1
      obtain ⟨⟨y', h3, h4⟩, h5⟩ := stay r hor ha.2 hy hK2
      exact fin h1 h2 h3 h4 h5
    · obtain ⟨⟨x', h1, h2⟩, h5⟩ := stay l hol ha.1 hx hK1
      obtain ⟨y', h3, h4⟩ := affine_value s t hd r ha.2 hor hy hK2
      exact fin h1 h2 h3 h4 h5
    · obtain ⟨⟨x', h1, h2⟩, h5⟩ := stay l hol ha.1 hx hK1
      obtain ⟨⟨y', h3, h4⟩, h6⟩ := stay r hor ha.2 hy hK2
      exact fin h1 h2 h3 h4 ⟨h5, h6⟩
  | _, .proxy a e, ha, ho, y, hy, J, hJ => affine_value s t hd e ha ho hy hJ

/-- An affine expression responds linearly. -/
theorem affine_response (s : Store (geoLib ε)) (t : Target (geoLib ε)) (hft : IsFlat t.ty) {τ : Ty}
    (hfe : IsFlat τ) (e : Expr (geoLib ε) τ) (ha : AffineIn t e)
    (ho : ∀ o ∈ objects e, o.addr = t.addr → o.ty = t.ty → o = t) {y : τ.Val}
    (hy : value s e = some y) {J : Matrix τ.Idx t.ty.Idx ℝ}
    (hJ : total (occurrences s t e) = some J) (d : t.ty.Idx → ℝ) :
    response s t e d = some (J *ᵥ d) := by
  obtain ⟨v', h1, h2⟩ : ∃ v', boxPlusVal ε t.ty (s t.addr t.ty) d = some v' ∧
      Shifted t.ty (s t.addr t.ty) v' d := by
    generalize s t.addr t.ty = v
    obtain ⟨a, c, σ⟩ := t
    cases σ with
    | vec k => exact ⟨_, rfl, rfl⟩
    | point => exact ⟨_, rfl, rfl⟩
    | rot k => exact hft.elim
    | rigid k => exact hft.elim
  obtain ⟨y', h3, h4⟩ := affine_value s t h2 e ha ho hy hJ
  unfold response
  rw [h1, hy]
  simp only [Option.bind_some]
  rw [h3]
  simp only [Option.bind_some]
  cases τ with
  | vec k =>
    refine congrArg some (funext fun i : k.Idx => ?_)
    change y' i - y i = _
    rw [show y' = _ from h4]
    exact add_sub_cancel_left _ _
  | point =>
    refine congrArg some (funext fun i : Fin 3 => ?_)
    change y' i - y i = _
    rw [show y' = _ from h4]
    exact add_sub_cancel_left _ _
  | rot k => exact hfe.elim
  | rigid k => exact hfe.elim

end WG
