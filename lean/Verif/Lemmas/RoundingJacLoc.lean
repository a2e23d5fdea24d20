import Verif.Lemmas.RoundingJacNorm

/-! # Rounding errors of the local Jacobians -/

namespace WG.Round
open Matrix Spec

variable {F : Fl} {ε : ℝ}

theorem opLe_one {n : Type} [Fintype n] [DecidableEq n] : OpLe (1 : Matrix n n ℝ) 1 := fun v => by
  rw [Matrix.one_mulVec, one_mul]

theorem opLe_orth {R : M3} (h : Rᵀ * R = 1) : OpLe R 1 := fun v => by
  rw [len_orth h, one_mul]

theorem opLe_cross (t : V3) : OpLe (crossMatrix t) (len t) := fun v => by
  rw [crossMatrix_mulVec]
  exact len_cross_le t v

theorem fro_cross (t : V3) : fro (crossMatrix t) ≤ 3 / 2 * len t := by
  refine fro_le_of_sq (mul_nonneg (by norm_num) (len_nonneg t)) ?_
  rw [mul_pow, len_sq]
  simp only [Fin.sum_univ_three, crossMatrix, Matrix.of_apply, Matrix.cons_val', Matrix.cons_val_zero,
    Matrix.cons_val_one, Matrix.cons_val_two, Matrix.empty_val', Matrix.cons_val_fin_one,
    Matrix.head_cons, Matrix.tail_cons, Matrix.head_fin_const, Matrix.cons_val]
  nlinarith [sq_nonneg (t 0), sq_nonneg (t 1), sq_nonneg (t 2)]

theorem crossMatrix_sub (s t : V3) : crossMatrix (s - t) = crossMatrix s - crossMatrix t := by
  ext i j
  fin_cases i <;> fin_cases j <;> simp [crossMatrix] <;> ring

theorem locNear_cross {v v' : V3} {V S : ℝ} (hV : 1 ≤ V) (hv : len v ≤ S)
    (he : len (v' - v) ≤ (V - 1) * S) :
    LocNear S (V ^ 2) (crossMatrix (-v)) (crossMatrix (-v')) := by
  have h0 := (len_nonneg v).trans hv
  refine ⟨h0, one_le_pow₀ hV, fun w => ?_, ?_⟩
  · refine (opLe_cross (-v) w).trans (mul_le_mul_of_nonneg_right ?_ (len_nonneg w))
    rwa [len_neg]
  · rw [← crossMatrix_sub]
    refine (fro_cross _).trans ?_
    rw [show -v' - -v = -(v' - v) by abel, len_neg]
    nlinarith [mul_nonneg (sub_nonneg.mpr hV) h0, mul_nonneg (mul_nonneg (sub_nonneg.mpr hV)
      (sub_nonneg.mpr hV)) h0]

section
variable {n m p : Type} [Fintype n] [Fintype m] [Fintype p]

theorem len_elim_sq (x : m → ℝ) (y : n → ℝ) : len (Sum.elim x y) ^ 2 = len x ^ 2 + len y ^ 2 := by
  rw [len_sq, len_sq, len_sq, Fintype.sum_sum_type]
  rfl

theorem len_inl_le (v : m ⊕ n → ℝ) : len (v ∘ Sum.inl) ≤ len v := by
  have h := len_elim_sq (v ∘ Sum.inl) (v ∘ Sum.inr)
  rw [Sum.elim_comp_inl_inr] at h
  exact abs_le_of_sq_le_sq' (by nlinarith [sq_nonneg (len (v ∘ Sum.inr))]) (len_nonneg _) |>.2

theorem len_inr_le (v : m ⊕ n → ℝ) : len (v ∘ Sum.inr) ≤ len v := by
  have h := len_elim_sq (v ∘ Sum.inl) (v ∘ Sum.inr)
  rw [Sum.elim_comp_inl_inr] at h
  exact abs_le_of_sq_le_sq' (by nlinarith [sq_nonneg (len (v ∘ Sum.inl))]) (len_nonneg _) |>.2

theorem fro_fromCols_sq (A : Matrix p m ℝ) (B : Matrix p n ℝ) :
    fro (fromCols A B) ^ 2 = fro A ^ 2 + fro B ^ 2 := by
  rw [fro_sq, fro_sq, fro_sq, ← Finset.sum_add_distrib]
  refine Finset.sum_congr rfl fun i _ => ?_
  rw [Fintype.sum_sum_type]
  rfl

theorem locNear_fromCols {A A' : Matrix p m ℝ} {g α : ℝ} [DecidableEq p] [DecidableEq n]
    {B : Matrix p n ℝ} (hB : OpLe B 1) (h : LocNear g α A A') :
    LocNear (1 + g) α (fromCols A B) (fromCols A' B) := by
  obtain ⟨g0, one, op, err⟩ := h
  refine ⟨by linarith, one, fun v => ?_, ?_⟩
  · rw [← Sum.elim_comp_inl_inr v, Matrix.fromCols_mulVec_sumElim, Sum.elim_comp_inl_inr]
    have h1 := (op (v ∘ Sum.inl)).trans (mul_le_mul_of_nonneg_left (len_inl_le v) g0)
    have h2 := (hB (v ∘ Sum.inr)).trans (mul_le_mul_of_nonneg_left (len_inr_le v) zero_le_one)
    have := len_add_le (A *ᵥ (v ∘ Sum.inl)) (B *ᵥ (v ∘ Sum.inr))
    linarith
  · have e : fromCols A' B - fromCols A B = fromCols (A' - A) (0 : Matrix p n ℝ) := by
      ext i j
      rcases j with j | j <;> simp
    have h2 := fro_fromCols_sq (A' - A) (0 : Matrix p n ℝ)
    rw [e]
    rw [fro_zero] at h2
    have h3 : fro (fromCols (A' - A) (0 : Matrix p n ℝ)) = fro (A' - A) := by
      nlinarith [fro_nonneg (A' - A), fro_nonneg (fromCols (A' - A) (0 : Matrix p n ℝ))]
    rw [h3]
    nlinarith

theorem locNear_col {v v' : n → ℝ} {B T : ℝ} (hB : 1 ≤ B) (hv : len v ≤ T)
    (he : len (v' - v) ≤ (B - 1) * T) : LocNear T B (colMat v) (colMat v') := by
  refine ⟨(len_nonneg v).trans hv, hB, fun w => ?_, ?_⟩
  · have e : colMat v *ᵥ w = w 0 • v := by
      funext i
      simp [colMat, Matrix.mulVec, dotProduct, mul_comm]
    rw [e, len_smul, len_one, mul_comm]
    exact mul_le_mul_of_nonneg_right hv (abs_nonneg _)
  · refine le_trans (le_of_eq ?_) he
    have h : fro (colMat v' - colMat v) ^ 2 = len (v' - v) ^ 2 := by
      rw [fro_sq, len_sq]
      refine Finset.sum_congr rfl fun i _ => ?_
      rw [Fin.sum_univ_one]
      rfl
    nlinarith [fro_nonneg (colMat v' - colMat v), len_nonneg (v' - v)]

theorem locNear_row {v v' : n → ℝ} {B T : ℝ} (hB : 1 ≤ B) (hv : len v ≤ T)
    (he : len (v' - v) ≤ (B - 1) * T) : LocNear T B (rowMat v) (rowMat v') := by
  refine ⟨(len_nonneg v).trans hv, hB, fun w => ?_, ?_⟩
  · rw [len_one]
    exact (abs_dot_le v w).trans (mul_le_mul_of_nonneg_right hv (len_nonneg w))
  · refine le_trans (le_of_eq ?_) he
    have h : fro (rowMat v' - rowMat v) ^ 2 = len (v' - v) ^ 2 := by
      rw [fro_sq, len_sq, Fin.sum_univ_one]
      rfl
    nlinarith [fro_nonneg (rowMat v' - rowMat v), len_nonneg (v' - v)]

end

theorem locNear_smul {n : Type} [Fintype n] [DecidableEq n] (hc : Fintype.card n ≤ 6) {s s' A S : ℝ}
    (hA : 1 ≤ A) (hs : |s| ≤ S) (he : |s' - s| ≤ (A - 1) * S) :
    LocNear S (A ^ 3) (s • (1 : Matrix n n ℝ)) (s' • (1 : Matrix n n ℝ)) := by
  have S0 := (abs_nonneg s).trans hs
  have op : ∀ r : ℝ, OpLe (r • (1 : Matrix n n ℝ)) |r| := fun r w => by
    rw [Matrix.smul_mulVec, Matrix.one_mulVec, len_smul]
  refine ⟨S0, one_le_pow₀ hA, fun w => (op s w).trans
    (mul_le_mul_of_nonneg_right hs (len_nonneg w)), ?_⟩
  rw [← sub_smul]
  refine (fro_le_of_opLe (op (s' - s)) (abs_nonneg _) hc).trans ?_
  have h1 : 3 * (A - 1) ≤ A ^ 3 - 1 := by nlinarith [sq_nonneg (A - 1), sub_nonneg.mpr hA]
  nlinarith

/-- Matrix of a computed rotation. -/
theorem rotMatrix_near {k : RotK} {R R' : k.Val} {M : M3} {A S : ℝ} (hR : RotOk k R) (hA : 1 ≤ A)
    (hw : Within (.rot k) (A - 1) S R R') (h : FlRotMatrix F k R' M) :
    1 ≤ rotJac F.u k A ∧ (k.matrix R)ᵀ * k.matrix R = 1 ∧
      frob (M - k.matrix R) ≤ rotJac F.u k A - 1 := by
  cases k with
  | quat => exact conv_near hR hA hw h
  | mat =>
    cases h
    exact ⟨hA, hR, hw⟩
  | aa => exact h.elim

theorem locNear_rot {k : RotK} {R R' : k.Val} {M : M3} {A S : ℝ} (hR : RotOk k R) (hA : 1 ≤ A)
    (hw : Within (.rot k) (A - 1) S R R') (h : FlRotMatrix F k R' M) :
    LocNear 1 (rotJac F.u k A) (k.matrix R) M := by
  obtain ⟨h1, h2, h3⟩ := rotMatrix_near hR hA hw h
  refine ⟨zero_le_one, h1, opLe_orth h2, ?_⟩
  rw [mul_one]
  exact h3

theorem fro_blocks (E G : M3) : fro (fromBlocks E 0 G E) ≤ 3 / 2 * frob E + frob G := by
  have h1 : fromBlocks E 0 G E = fromBlocks E 0 0 E + fromBlocks 0 0 G 0 := by
    rw [Matrix.fromBlocks_add]
    simp
  have sq : ∀ A B C D : M3, fro (fromBlocks A B C D) ^ 2 =
      frob A ^ 2 + frob B ^ 2 + frob C ^ 2 + frob D ^ 2 := by
    intro A B C D
    rw [fro_sq, Fintype.sum_sum_type, frob_sq, frob_sq, frob_sq, frob_sq]
    simp only [Fintype.sum_sum_type, Matrix.fromBlocks_apply₁₁, Matrix.fromBlocks_apply₁₂,
      Matrix.fromBlocks_apply₂₁, Matrix.fromBlocks_apply₂₂, Finset.sum_add_distrib]
    ring
  have z : frob 0 = 0 := len_zero
  have a1 := sq E 0 0 E
  have a2 := sq 0 0 G 0
  rw [z] at a1 a2
  have b1 : fro (fromBlocks E 0 0 E) ≤ 3 / 2 * frob E :=
    abs_le_of_sq_le_sq' (by nlinarith [sq_nonneg (frob E)]) (by linarith [frob_nonneg E]) |>.2
  have b2 : fro (fromBlocks (0 : M3) 0 G 0) ≤ frob G :=
    abs_le_of_sq_le_sq' (by nlinarith) (frob_nonneg G) |>.2
  rw [h1]
  exact (fro_add_le _ _).trans (add_le_add b1 b2)

theorem opLe_adjoint {R : M3} (h : Rᵀ * R = 1) (t : V3) : OpLe (adjoint R t) (1 + len t) := by
  intro v
  have e : adjoint R t *ᵥ v = Sum.elim (R *ᵥ (v ∘ Sum.inl)) (R *ᵥ (v ∘ Sum.inr)) +
      Sum.elim (0 : V3) (crossMatrix t *ᵥ (R *ᵥ (v ∘ Sum.inl))) := by
    rw [adjoint, Matrix.fromBlocks_mulVec, ← Sum.elim_add_add, Matrix.zero_mulVec,
      ← Matrix.mulVec_mulVec, add_comm (R *ᵥ (v ∘ Sum.inr))]
  have h1 : len (Sum.elim (R *ᵥ (v ∘ Sum.inl)) (R *ᵥ (v ∘ Sum.inr))) = len v := by
    have a := len_elim_sq (R *ᵥ (v ∘ Sum.inl)) (R *ᵥ (v ∘ Sum.inr))
    have b := len_elim_sq (v ∘ Sum.inl) (v ∘ Sum.inr)
    rw [Sum.elim_comp_inl_inr] at b
    rw [len_orth h, len_orth h, ← b] at a
    nlinarith [len_nonneg v, len_nonneg (Sum.elim (R *ᵥ (v ∘ Sum.inl)) (R *ᵥ (v ∘ Sum.inr)))]
  have h2 : len (Sum.elim (0 : V3) (crossMatrix t *ᵥ (R *ᵥ (v ∘ Sum.inl)))) ≤ len t * len v := by
    have a := len_elim_sq (0 : V3) (crossMatrix t *ᵥ (R *ᵥ (v ∘ Sum.inl)))
    rw [len_zero] at a
    have b := opLe_cross t (R *ᵥ (v ∘ Sum.inl))
    rw [len_orth h] at b
    have c := b.trans (mul_le_mul_of_nonneg_left (len_inl_le v) (len_nonneg t))
    refine le_trans (le_of_eq ?_) c
    nlinarith [len_nonneg (Sum.elim (0 : V3) (crossMatrix t *ᵥ (R *ᵥ (v ∘ Sum.inl)))),
      len_nonneg (crossMatrix t *ᵥ (R *ᵥ (v ∘ Sum.inl)))]
  rw [e]
  refine (len_add_le _ _).trans ?_
  rw [h1]
  linarith

theorem matrix_rot (k : RigK) (x : k.Val) : k.rotK.matrix (k.rot x) = k.rotMatrix x := by
  cases k <;> rfl

theorem locNear_adjoint {k : RigK} {x x' : k.Val} {A : M6} {V T : ℝ} (hx : Ok (.rigid k) T x)
    (hV : 1 ≤ V) (hw : Within (.rigid k) (V - 1) T x x') (h : FlAdjoint F k x' A) :
    LocNear (1 + T) (adjFactor F.u k V) (adjoint (k.rotMatrix x) (k.trans x)) A := by
  obtain ⟨R', C, hR', hC, rfl⟩ := h
  obtain ⟨hw1, hw2⟩ := within_rigid.mp hw
  obtain ⟨p1, p2, p3⟩ := rotMatrix_near hx.1 hV hw1 hR'
  rw [matrix_rot] at p2 p3
  have hT : len (k.trans x) ≤ T := hx.2
  have T0 : 0 ≤ T := (len_nonneg _).trans hT
  have g0 := growth_nonneg F 3
  set ρ := rotJac F.u k.rotK V with hρ
  set g := growth F.u 3 with hg
  set R := k.rotMatrix x
  set t := k.trans x
  set t' := k.trans x'
  have one : 1 ≤ adjFactor F.u k V := by
    unfold adjFactor
    exact one_le_mul' (one_le_mul' (one_le_pow₀ hV) (one_le_pow₀ p1)) (by linarith)
  refine ⟨by linarith, one, fun w => (opLe_adjoint p2 t w).trans
    (mul_le_mul_of_nonneg_right (by linarith) (len_nonneg w)), ?_⟩
  have nR : frob R' ≤ 2 * ρ := by
    have := frob_near p2 p3
    have := sqrt3_le
    linarith
  have nt : len t' ≤ V * T := len_near hT hw2
  have e1 : frob (C - crossMatrix t' * R') ≤ 3 * g * (V * ρ) * T := by
    have := prod_fro hC
    refine this.trans ?_
    change g * (fro (crossMatrix t') * frob R') ≤ _
    have b := (fro_cross t').trans (mul_le_mul_of_nonneg_left nt (by norm_num))
    have c := mul_le_mul b nR (frob_nonneg R') (by positivity)
    refine (mul_le_mul_of_nonneg_left c g0).trans (le_of_eq (by ring))
  have e2 : frob (crossMatrix (t' - t) * R') ≤ 3 / 2 * ((V - 1) * T) * ρ := by
    have s1 : crossMatrix (t' - t) * R' = crossMatrix (t' - t) * R + crossMatrix (t' - t) * (R' - R) := by
      rw [Matrix.mul_sub, add_sub_cancel]
    have s2 : frob (crossMatrix (t' - t)) ≤ 3 / 2 * ((V - 1) * T) :=
      (fro_cross _).trans (mul_le_mul_of_nonneg_left hw2 (by norm_num))
    have s3 := frob_mul_orth p2 (crossMatrix (t' - t))
    have s4 := (frob_mul_le (crossMatrix (t' - t)) (R' - R)).trans (mul_le_mul s2 p3 (frob_nonneg _)
      (by nlinarith [mul_nonneg (sub_nonneg.mpr hV) T0]))
    rw [s1]
    refine (frob_add_le _ _).trans ?_
    rw [s3]
    nlinarith
  have e3 : frob (crossMatrix t * (R' - R)) ≤ T * (ρ - 1) := by
    refine (fro_mul_opLe (opLe_cross t) (len_nonneg t) (R' - R)).trans ?_
    exact mul_le_mul hT p3 (frob_nonneg _) T0
  have e4 : frob (C - crossMatrix t * R) ≤
      T * (3 / 2 * (V - 1) * ρ + (ρ - 1) + 3 * g * (V * ρ)) := by
    have s : C - crossMatrix t * R = (C - crossMatrix t' * R') +
        (crossMatrix (t' - t) * R' + crossMatrix t * (R' - R)) := by
      rw [crossMatrix_sub, Matrix.sub_mul, Matrix.mul_sub]
      abel
    rw [s]
    have := frob_add_le (C - crossMatrix t' * R')
      (crossMatrix (t' - t) * R' + crossMatrix t * (R' - R))
    have := frob_add_le (crossMatrix (t' - t) * R') (crossMatrix t * (R' - R))
    linarith
  have e5 : fromBlocks R' 0 C R' - adjoint R t =
      fromBlocks (R' - R) 0 (C - crossMatrix t * R) (R' - R) := by
    rw [adjoint]
    ext i j
    rcases i with i | i <;> rcases j with j | j <;> simp
  rw [e5]
  refine (fro_blocks _ _).trans ?_
  have w1 : (1 : ℝ) ≤ V * ρ := one_le_mul' hV p1
  have w2 : 2 * (V * ρ - 1) ≤ V ^ 2 * ρ ^ 2 - 1 := by nlinarith
  have w3 : V * ρ ≤ V ^ 2 * ρ ^ 2 := by nlinarith
  have w4 : 3 * g * (V * ρ) ≤ 3 * g * (V ^ 2 * ρ ^ 2) := mul_le_mul_of_nonneg_left w3 (by linarith)
  have w5 : 3 * g * (V * ρ) ≥ 0 := by positivity
  have w6 : (V - 1) * ρ ≥ 0 := mul_nonneg (by linarith) (by linarith)
  have a1 : 3 / 2 * (ρ - 1) ≤ adjFactor F.u k V - 1 := by
    unfold adjFactor
    rw [← hρ, ← hg]
    nlinarith
  have a2 : 3 / 2 * (V - 1) * ρ + (ρ - 1) + 3 * g * (V * ρ) ≤ adjFactor F.u k V - 1 := by
    unfold adjFactor
    rw [← hρ, ← hg]
    nlinarith
  have a3 := mul_le_mul_of_nonneg_left a2 T0
  nlinarith

theorem idx_card : (τ : Ty) → Fintype.card τ.Idx ≤ 6
  | .vec .scalar => by decide
  | .vec .trans => by decide
  | .vec .relrot => by decide
  | .vec .twist => by decide
  | .point => by decide
  | .rot _ => (by decide : Fintype.card (Fin 3) ≤ 6)
  | .rigid _ => (by decide : Fintype.card (Fin 3 ⊕ Fin 3) ≤ 6)

theorem vk_card (k : VK) : Fintype.card k.Idx ≤ 6 := idx_card (.vec k)

theorem len_double {n : Type} [Fintype n] {v v' : n → ℝ} {A S : ℝ} (hA : 1 ≤ A) (hv : len v ≤ S)
    (he : len (v' - v) ≤ (A - 1) * S) :
    len ((fun j => F.rnd (2 * v' j)) - fun j => 2 * v j) ≤ (A * (1 + F.u) - 1) * (2 * S) := by
  have h1 : ((fun j => F.rnd (2 * v' j)) - fun j => 2 * v j) =
      ((fun j => F.rnd (2 * v' j)) - (2 : ℝ) • v') + (2 : ℝ) • (v' - v) := by
    rw [smul_sub]
    funext j
    simp
  have h2 : len ((fun j => F.rnd (2 * v' j)) - (2 : ℝ) • v') ≤ F.u * len ((2 : ℝ) • v') :=
    len_rnd fun _ => rfl
  have h3 := len_near hv he
  have u0 := u_nonneg F
  rw [len_smul, abs_two] at h2
  rw [h1]
  refine (len_add_le _ _).trans ?_
  rw [len_smul, abs_two]
  have := mul_le_mul_of_nonneg_left h3 u0
  nlinarith

theorem gainUn_nonneg {a b : Ty} (op : Un a b) {S : ℝ} (hS : 0 ≤ S) : 0 ≤ gainUn op S := by
  cases op <;> simp only [gainUn] <;> linarith

theorem gainL_nonneg {a b c : Ty} (op : Bin a b c) {S T : ℝ} (hS : 0 ≤ S) (hT : 0 ≤ T) :
    0 ≤ gainL op S T := by
  cases op <;> simp only [gainL] <;> linarith

theorem gainR_nonneg {a b c : Ty} (op : Bin a b c) {S T : ℝ} (hS : 0 ≤ S) (hT : 0 ≤ T) :
    0 ≤ gainR op S T := by
  cases op <;> simp only [gainR] <;> linarith

/-- Errors of the Jacobians of the unary operators. -/
theorem jacUn_near {a b : Ty} (op : Un a b) {x x' : a.Val} {v v' : b.Val}
    {J' : Matrix b.Idx a.Idx ℝ} {A S : ℝ} (hA : 1 ≤ A) (hS : 0 ≤ S) (hx : Ok a S x)
    (hw : Within a (A - 1) S x x') (hV : 1 ≤ facUn F.u op A) (hv : Ok b (ampUn op S) v)
    (hwv : Within b (facUn F.u op A - 1) (ampUn op S) v v') (h : FlJacUn F op v' x' J') :
    ∃ J, jacUn ε op v x = some J ∧ LocNear (gainUn op S) (locUn F.u op A) J J' := by
  cases op with
  | minus k =>
    cases h
    exact ⟨_, rfl, (LocNear.same zero_le_one opLe_one).neg⟩
  | sqNorm k =>
    cases h
    refine ⟨_, rfl, locNear_row (one_le_mul' hA (one_le_U F)) ?_ (len_double hA hx hw)⟩
    change len ((2 : ℝ) • (x : k.Idx → ℝ)) ≤ 2 * S
    rw [len_smul, abs_two]
    exact mul_le_mul_of_nonneg_left hx zero_le_two
  | invRot k =>
    obtain ⟨M, hM, rfl⟩ := h
    exact ⟨_, rfl, (locNear_rot hv hA hwv hM).neg⟩
  | invRigid k =>
    obtain ⟨M, hM, rfl⟩ := h
    exact ⟨_, rfl, (locNear_adjoint hv hV hwv hM).neg⟩
  | getRot k =>
    cases h
    refine ⟨_, rfl, LocNear.same zero_le_one fun w => ?_⟩
    rw [← Sum.elim_comp_inl_inr w, getRotJac, Matrix.fromCols_mulVec_sumElim, Matrix.one_mulVec,
      Matrix.zero_mulVec, add_zero, Sum.elim_comp_inl_inr]
    exact (len_inl_le w).trans (le_of_eq (one_mul _).symm)
  | getTrans k =>
    cases h
    exact ⟨_, rfl, locNear_fromCols opLe_one (locNear_cross hA hv hwv)⟩
  | convRot k l =>
    cases h
    exact ⟨_, rfl, LocNear.same zero_le_one opLe_one⟩
  | convRigid k l =>
    cases h
    exact ⟨_, rfl, LocNear.same zero_le_one opLe_one⟩
  | recast τ =>
    cases h
    exact ⟨_, rfl, LocNear.same zero_le_one opLe_one⟩
  | _ => exact h.elim

/-- Errors of the left Jacobians of the binary operators. -/
theorem jacL_near {a b c : Ty} (op : Bin a b c) {x x' : a.Val} {y y' : b.Val} {v v' : c.Val}
    {J' : Matrix c.Idx a.Idx ℝ} {A B S T : ℝ} (hB : 1 ≤ B)
    (hy : Ok b T y) (hw' : Within b (B - 1) T y y')
    (hV : 1 ≤ facBin F.u op A B) (hv : Ok c (ampBin op S T) v)
    (hwv : Within c (facBin F.u op A B - 1) (ampBin op S T) v v') (h : FlJacL F op v' x' y' J') :
    ∃ J, jacL op v x y = some J ∧ LocNear (gainL op S T) (locL F.u op A B) J J' := by
  cases op with
  | sum k => cases h; exact ⟨_, rfl, LocNear.same zero_le_one opLe_one⟩
  | sumPV => cases h; exact ⟨_, rfl, LocNear.same zero_le_one opLe_one⟩
  | sumVP => cases h; exact ⟨_, rfl, LocNear.same zero_le_one opLe_one⟩
  | sub k => cases h; exact ⟨_, rfl, LocNear.same zero_le_one opLe_one⟩
  | subPP => cases h; exact ⟨_, rfl, LocNear.same zero_le_one opLe_one⟩
  | subPV => cases h; exact ⟨_, rfl, LocNear.same zero_le_one opLe_one⟩
  | scale k =>
    cases h
    exact ⟨_, rfl, locNear_col hB hy hw'⟩
  | scaleR k =>
    cases h
    refine ⟨_, rfl, locNear_smul (vk_card k) hB ?_ ?_⟩
    · rw [← len_one y]; exact hy
    · have := hw'
      change len (n := Fin 1) (y' - y) ≤ _ at this
      rwa [len_one] at this
  | dot k =>
    cases h
    exact ⟨_, rfl, locNear_row hB hy hw'⟩
  | product =>
    cases h
    refine ⟨_, rfl, ?_⟩
    have e : ∀ z : Fin 1 → ℝ, productJacL (z 0) = rowMat z := by
      intro z
      ext i j
      rw [Subsingleton.elim j 0]
      rfl
    rw [e, e]
    exact locNear_row hB hy hw'
  | composeQ => cases h; exact ⟨_, rfl, LocNear.same zero_le_one opLe_one⟩
  | composeM => cases h; exact ⟨_, rfl, LocNear.same zero_le_one opLe_one⟩
  | composeRigid k l => cases h; exact ⟨_, rfl, LocNear.same zero_le_one opLe_one⟩
  | flipQ => exact ⟨_, rfl, locNear_rot (F := F) (k := .quat) hy hB hw' h⟩
  | flipM => exact ⟨_, rfl, locNear_rot (F := F) (k := .mat) hy hB hw' h⟩
  | flipRigid k l => exact ⟨_, rfl, locNear_adjoint hy hB hw' h⟩
  | rotateQ =>
    cases h
    exact ⟨_, rfl, locNear_cross hV hv hwv⟩
  | rotateM =>
    cases h
    exact ⟨_, rfl, locNear_cross hV hv hwv⟩
  | transform k =>
    cases h
    exact ⟨_, rfl, locNear_fromCols opLe_one (locNear_cross hV hv hwv)⟩
  | _ => exact h.elim

/-- Errors of the right Jacobians of the binary operators. -/
theorem jacR_near {a b c : Ty} (op : Bin a b c) {x x' : a.Val} {y y' : b.Val} {v v' : c.Val}
    {J' : Matrix c.Idx b.Idx ℝ} {A B S T : ℝ} (hA : 1 ≤ A)
    (hx : Ok a S x) (hw : Within a (A - 1) S x x') (h : FlJacR F op v' x' y' J') :
    ∃ J, jacR op v x y = some J ∧ LocNear (gainR op S T) (locR F.u op A B) J J' := by
  cases op with
  | sum k => cases h; exact ⟨_, rfl, LocNear.same zero_le_one opLe_one⟩
  | sumPV => cases h; exact ⟨_, rfl, LocNear.same zero_le_one opLe_one⟩
  | sumVP => cases h; exact ⟨_, rfl, LocNear.same zero_le_one opLe_one⟩
  | sub k => cases h; exact ⟨_, rfl, (LocNear.same zero_le_one opLe_one).neg⟩
  | subPP => cases h; exact ⟨_, rfl, (LocNear.same zero_le_one opLe_one).neg⟩
  | subPV => cases h; exact ⟨_, rfl, (LocNear.same zero_le_one opLe_one).neg⟩
  | scale k =>
    cases h
    refine ⟨_, rfl, locNear_smul (vk_card k) hA ?_ ?_⟩
    · rw [← len_one x]; exact hx
    · have := hw
      change len (n := Fin 1) (x' - x) ≤ _ at this
      rwa [len_one] at this
  | scaleR k =>
    cases h
    exact ⟨_, rfl, locNear_col hA hx hw⟩
  | dot k =>
    cases h
    exact ⟨_, rfl, locNear_row hA hx hw⟩
  | product =>
    cases h
    refine ⟨_, rfl, ?_⟩
    have e : ∀ z : Fin 1 → ℝ, productJacR (z 0) = rowMat z := by
      intro z
      ext i j
      rw [Subsingleton.elim j 0]
      rfl
    rw [e, e]
    exact locNear_row hA hx hw
  | composeQ => exact ⟨_, rfl, locNear_rot (F := F) (k := .quat) hx hA hw h⟩
  | composeM => exact ⟨_, rfl, locNear_rot (F := F) (k := .mat) hx hA hw h⟩
  | composeRigid k l => exact ⟨_, rfl, locNear_adjoint hx hA hw h⟩
  | flipQ => cases h; exact ⟨_, rfl, LocNear.same zero_le_one opLe_one⟩
  | flipM => cases h; exact ⟨_, rfl, LocNear.same zero_le_one opLe_one⟩
  | flipRigid k l => cases h; exact ⟨_, rfl, LocNear.same zero_le_one opLe_one⟩
  | rotateQ => exact ⟨_, rfl, locNear_rot (F := F) (k := .quat) hx hA hw h⟩
  | rotateM => exact ⟨_, rfl, locNear_rot (F := F) (k := .mat) hx hA hw h⟩
  | transform k =>
    refine ⟨k.rotMatrix x, rfl, ?_⟩
    rw [← matrix_rot]
    exact locNear_rot hx.1 hA (within_rigid.mp hw).1 h
  | _ => exact h.elim

end WG.Round
