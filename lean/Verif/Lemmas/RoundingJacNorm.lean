import Verif.Lemmas.RoundingOutcome
import Verif.Spec.RoundingJac

/-! # Norms of Jacobians and rounded products -/

namespace WG.Round
open Matrix Spec

section
variable {F : Fl} {m n p : Type} [Fintype m] [Fintype n] [Fintype p]

/-- Frobenius norm of a matrix of any size. -/
noncomputable def fro (A : Matrix m n ℝ) : ℝ := len fun q : m × n => A q.1 q.2

/-- `A` stretches no vector by more than `g`. -/
def OpLe (A : Matrix m n ℝ) (g : ℝ) : Prop := ∀ v, len (A *ᵥ v) ≤ g * len v

theorem fro_nonneg (A : Matrix m n ℝ) : 0 ≤ fro A := len_nonneg _

theorem fro_zero : fro (0 : Matrix m n ℝ) = 0 := len_zero

theorem fro_sq (A : Matrix m n ℝ) : fro A ^ 2 = ∑ i, ∑ j, A i j ^ 2 := by
  rw [fro, len_sq, Fintype.sum_prod_type]

theorem fro_add_le (A B : Matrix m n ℝ) : fro (A + B) ≤ fro A + fro B :=
  len_add_le (fun q : m × n => A q.1 q.2) fun q => B q.1 q.2

theorem fro_neg (A : Matrix m n ℝ) : fro (-A) = fro A := len_neg fun q : m × n => A q.1 q.2

theorem fro_transpose (A : Matrix m n ℝ) : fro Aᵀ = fro A := by
  have h : fro Aᵀ ^ 2 = fro A ^ 2 := by
    rw [fro_sq, fro_sq, Finset.sum_comm]
    rfl
  nlinarith [fro_nonneg A, fro_nonneg Aᵀ]

theorem fro_le_of_sq {A : Matrix m n ℝ} {c : ℝ} (hc : 0 ≤ c) (h : ∑ i, ∑ j, A i j ^ 2 ≤ c ^ 2) :
    fro A ≤ c := len_le_of_sq hc (by rwa [Fintype.sum_prod_type])

theorem len_mulVec_fro (A : Matrix m n ℝ) (v : n → ℝ) : len (A *ᵥ v) ≤ fro A * len v := by
  refine len_le_of_sq (mul_nonneg (fro_nonneg A) (len_nonneg v)) ?_
  rw [mul_pow, fro_sq, Finset.sum_mul]
  refine Finset.sum_le_sum fun i _ => ?_
  have h := abs_dot_le (fun j => A i j) v
  have h2 : ((A *ᵥ v) i) ^ 2 ≤ (len (fun j => A i j) * len v) ^ 2 := by
    rw [← sq_abs]
    exact pow_le_pow_left₀ (abs_nonneg _) h 2
  rwa [mul_pow, len_sq fun j => A i j] at h2

theorem fro_le_of_opLe [DecidableEq n] {A : Matrix m n ℝ} {g : ℝ} (h : OpLe A g) (hg : 0 ≤ g)
    (hc : Fintype.card n ≤ 6) : fro A ≤ 3 * g := by
  refine fro_le_of_sq (by linarith) ?_
  rw [Finset.sum_comm]
  have key : ∀ j, ∑ i, A i j ^ 2 ≤ g ^ 2 := by
    intro j
    have h1 := h (Pi.single j 1)
    have h2 : len (Pi.single j (1 : ℝ) : n → ℝ) = 1 := by
      have : len (Pi.single j (1 : ℝ) : n → ℝ) ^ 2 = 1 := by
        rw [len_sq, Finset.sum_eq_single j]
        · simp
        · intro b _ hb
          simp [hb]
        · simp
      nlinarith [len_nonneg (Pi.single j (1 : ℝ) : n → ℝ)]
    rw [h2, mul_one, Matrix.mulVec_single_one] at h1
    have h3 := len_sq (Aᵀ j)
    have h4 : ∑ i, A i j ^ 2 = len (Aᵀ j) ^ 2 := h3.symm
    rw [h4]
    exact pow_le_pow_left₀ (len_nonneg _) h1 2
  refine (Finset.sum_le_sum fun j _ => key j).trans ?_
  rw [Finset.sum_const, nsmul_eq_mul, Finset.card_univ]
  have : (Fintype.card n : ℝ) ≤ 6 := by exact_mod_cast hc
  nlinarith [sq_nonneg g]

theorem opLe_transpose {A : Matrix m n ℝ} {g : ℝ} (h : OpLe A g) (hg : 0 ≤ g) : OpLe Aᵀ g := by
  intro w
  have h1 : len (Aᵀ *ᵥ w) ^ 2 = (A *ᵥ (Aᵀ *ᵥ w)) ⬝ᵥ w := by
    rw [len_sq_dot, Matrix.dotProduct_mulVec, Matrix.vecMul_transpose]
  have h2 := (le_abs_self _).trans (abs_dot_le (A *ᵥ (Aᵀ *ᵥ w)) w)
  have h3 := mul_le_mul_of_nonneg_right (h (Aᵀ *ᵥ w)) (len_nonneg w)
  by_cases h0 : len (Aᵀ *ᵥ w) = 0
  · rw [h0]
    exact mul_nonneg hg (len_nonneg w)
  · have hp : 0 < len (Aᵀ *ᵥ w) := lt_of_le_of_ne (len_nonneg _) (Ne.symm h0)
    have h4 : len (Aᵀ *ᵥ w) * len (Aᵀ *ᵥ w) ≤ (g * len w) * len (Aᵀ *ᵥ w) := by
      nlinarith
    exact le_of_mul_le_mul_right h4 hp

theorem prod_entry {A : Matrix m n ℝ} {B : Matrix n p ℝ} {C : Matrix m p ℝ} (h : FlProd F A B C)
    (i : m) (j : p) :
    |C i j - (A * B) i j| ≤ growth F.u (Fintype.card n) * ∑ k, |A i k * B k j| := by
  classical
  obtain ⟨K, hK, hs⟩ := h i j
  have e := flSum_err hs
  have e1 : sumOf (K.toList.map fun k => (A i k, B k j)) = (A * B) i j := by
    rw [sumOf, List.map_map, Matrix.mul_apply]
    change (K.toList.map fun k => A i k * B k j).sum = _
    rw [Finset.sum_map_toList]
    refine Finset.sum_subset (Finset.subset_univ K) fun k _ hk => ?_
    rcases hK k hk with h | h <;> rw [h] <;> ring
  have e2 : absOf (K.toList.map fun k => (A i k, B k j)) ≤ ∑ k, |A i k * B k j| := by
    rw [absOf, List.map_map]
    change (K.toList.map fun k => |A i k * B k j|).sum ≤ _
    rw [Finset.sum_map_toList]
    exact Finset.sum_le_sum_of_subset_of_nonneg (Finset.subset_univ K) fun _ _ _ => abs_nonneg _
  rw [e1, List.length_map, Finset.length_toList] at e
  refine e.trans (mul_le_mul (growth_mono F (Finset.card_le_univ K)) e2 (absOf_nonneg _)
    (growth_nonneg F _))

theorem prod_col {A : Matrix m n ℝ} {B : Matrix n p ℝ} {C : Matrix m p ℝ} (h : FlProd F A B C)
    (j : p) : len (fun i => C i j - (A * B) i j) ≤
      growth F.u (Fintype.card n) * (fro A * len fun k => B k j) := by
  have g0 := growth_nonneg F (Fintype.card n)
  have h1 : len (fun i => C i j - (A * B) i j) ≤
      len (growth F.u (Fintype.card n) • ((Matrix.of fun i k => |A i k|) *ᵥ fun k => |B k j|)) := by
    refine len_mono fun i => ?_
    refine (prod_entry h i j).trans ((le_of_eq ?_).trans (le_abs_self _))
    rw [Pi.smul_apply, smul_eq_mul]
    refine congrArg _ (Finset.sum_congr rfl fun k _ => ?_)
    rw [abs_mul]
    rfl
  rw [len_smul, abs_of_nonneg g0] at h1
  refine h1.trans (mul_le_mul_of_nonneg_left ((len_mulVec_fro _ _).trans (le_of_eq ?_)) g0)
  rw [len_abs]
  exact congrArg (· * _) (len_abs fun q : m × n => A q.1 q.2)

theorem flProd_transpose_err {A : Matrix m n ℝ} {B : Matrix n p ℝ} {C : Matrix m p ℝ}
    (h : FlProd F A B C) (i : m) : len (fun j => C i j - (A * B) i j) ≤
      growth F.u (Fintype.card n) * (fro B * len fun k => A i k) := by
  have g0 := growth_nonneg F (Fintype.card n)
  have h1 : len (fun j => C i j - (A * B) i j) ≤
      len (growth F.u (Fintype.card n) • ((Matrix.of fun j k => |B k j|) *ᵥ fun k => |A i k|)) := by
    refine len_mono fun j => ?_
    refine (prod_entry h i j).trans ((le_of_eq ?_).trans (le_abs_self _))
    rw [Pi.smul_apply, smul_eq_mul]
    refine congrArg _ (Finset.sum_congr rfl fun k _ => ?_)
    rw [abs_mul, mul_comm]
    rfl
  rw [len_smul, abs_of_nonneg g0] at h1
  refine h1.trans (mul_le_mul_of_nonneg_left ((len_mulVec_fro _ _).trans (le_of_eq ?_)) g0)
  rw [len_abs]
  refine congrArg (· * _) ((len_abs fun q : p × n => Bᵀ q.1 q.2).trans (fro_transpose B))

theorem prod_fro {A : Matrix m n ℝ} {B : Matrix n p ℝ} {C : Matrix m p ℝ} (h : FlProd F A B C) :
    fro (C - A * B) ≤ growth F.u (Fintype.card n) * (fro A * fro B) := by
  have g0 := growth_nonneg F (Fintype.card n)
  refine fro_le_of_sq (mul_nonneg g0 (mul_nonneg (fro_nonneg A) (fro_nonneg B))) ?_
  rw [Finset.sum_comm]
  have h1 : ∀ j, ∑ i, (C - A * B) i j ^ 2 ≤
      (growth F.u (Fintype.card n) * fro A) ^ 2 * ∑ k, B k j ^ 2 := by
    intro j
    have h2 := pow_le_pow_left₀ (len_nonneg _) (prod_col h j) 2
    rw [len_sq, ← mul_assoc, mul_pow, len_sq] at h2
    exact h2
  refine (Finset.sum_le_sum fun j _ => h1 j).trans (le_of_eq ?_)
  rw [← Finset.mul_sum, ← Finset.sum_comm, ← fro_sq]
  ring

theorem fro_mul_opLe {A : Matrix m n ℝ} {g : ℝ} (h : OpLe A g) (hg : 0 ≤ g) (B : Matrix n p ℝ) :
    fro (A * B) ≤ g * fro B := by
  refine fro_le_of_sq (mul_nonneg hg (fro_nonneg B)) ?_
  rw [Finset.sum_comm, mul_pow, fro_sq, Finset.sum_comm (f := fun i j => B i j ^ 2), Finset.mul_sum]
  refine Finset.sum_le_sum fun j _ => ?_
  have h1 := pow_le_pow_left₀ (len_nonneg _) (h fun k => B k j) 2
  rw [mul_pow, len_sq, len_sq] at h1
  exact h1

/-- What is known of an exact local Jacobian `J` and the computed one. -/
structure LocNear (g α : ℝ) (J J' : Matrix m n ℝ) : Prop where
  g0 : 0 ≤ g
  one : 1 ≤ α
  op : OpLe J g
  err : fro (J' - J) ≤ (α - 1) * g

theorem LocNear.same {g : ℝ} {J : Matrix m n ℝ} (hg : 0 ≤ g) (h : OpLe J g) : LocNear g 1 J J :=
  ⟨hg, le_rfl, h, by rw [sub_self, sub_self, zero_mul, fro_zero]⟩

theorem LocNear.neg {g α : ℝ} {J J' : Matrix m n ℝ} (h : LocNear g α J J') :
    LocNear g α (-J) (-J') := by
  refine ⟨h.g0, h.one, fun v => ?_, ?_⟩
  · rw [Matrix.neg_mulVec, len_neg]
    exact h.op v
  · rw [show -J' - -J = -(J' - J) by abel, fro_neg]
    exact h.err

/-- One application of the chain rule, on columns. -/
theorem chain_col [DecidableEq n] {L L' : Matrix m n ℝ} {J J' : Matrix n p ℝ} {K : Matrix m p ℝ}
    {g α β S : ℝ} (hL : LocNear g α L L') (hc : Fintype.card n ≤ 6) (hβ : 1 ≤ β) (hS : 0 ≤ S) {j : p}
    (hJ : len (fun k => J k j) ≤ S) (he : len (fun k => J' k j - J k j) ≤ (β - 1) * S)
    (h : FlProd F L' J' K) :
    len (fun i => (L * J) i j) ≤ g * S ∧
      len (fun i => K i j - (L * J) i j) ≤ (α * β * chainFactor F.u - 1) * (g * S) := by
  obtain ⟨hg, hα, hop, hE⟩ := hL
  have g6 := growth_nonneg F 6
  have c1 : len (fun i => (L * J) i j) ≤ g * S :=
    (hop fun k => J k j).trans (mul_le_mul_of_nonneg_left hJ hg)
  refine ⟨c1, ?_⟩
  have nJ : len (fun k => J' k j) ≤ β * S := len_near hJ he
  have nL : fro L' ≤ 3 * α * g := by
    have h1 := fro_le_of_opLe hop hg hc
    have h2 := fro_add_le (L' - L) L
    rw [sub_add_cancel] at h2
    nlinarith
  have r1 := (prod_col h j).trans (mul_le_mul (growth_mono F hc) (mul_le_mul nL nJ (len_nonneg _)
    (by positivity)) (mul_nonneg (fro_nonneg _) (len_nonneg _)) g6)
  have r2 : len ((L' - L) *ᵥ fun k => J' k j) ≤ (α - 1) * g * (β * S) :=
    (len_mulVec_fro _ _).trans (mul_le_mul hE nJ (len_nonneg _)
      (mul_nonneg (by linarith) hg))
  have r3 : len (L *ᵥ fun k => J' k j - J k j) ≤ g * ((β - 1) * S) :=
    (hop _).trans (mul_le_mul_of_nonneg_left he hg)
  have dec : (fun i => K i j - (L * J) i j) = (fun i => K i j - (L' * J') i j) +
      ((L' - L) *ᵥ (fun k => J' k j) + L *ᵥ fun k => J' k j - J k j) := by
    have e1 : (L *ᵥ fun k => J' k j - J k j) = (L *ᵥ fun k => J' k j) - L *ᵥ fun k => J k j :=
      Matrix.mulVec_sub L (fun k => J' k j) fun k => J k j
    rw [e1, Matrix.sub_mulVec]
    funext i
    have a1 : (L' * J') i j = (L' *ᵥ fun k => J' k j) i := rfl
    have a2 : (L * J) i j = (L *ᵥ fun k => J k j) i := rfl
    simp only [Pi.add_apply, Pi.sub_apply, a1, a2]
    ring
  rw [dec]
  refine (len_add_le _ _).trans ((add_le_add r1 ((len_add_le _ _).trans (add_le_add r2 r3))).trans
    (le_of_eq ?_))
  unfold chainFactor
  ring

/-- One application of the chain rule, on rows. -/
theorem chain_row [DecidableEq n] [DecidableEq p] {A A' : Matrix m n ℝ} {L L' : Matrix n p ℝ}
    {K : Matrix m p ℝ}
    {g α β S : ℝ} (hL : LocNear g α L L') (hc : Fintype.card n ≤ 6) (hp : Fintype.card p ≤ 6)
    (hβ : 1 ≤ β) (hS : 0 ≤ S) {i : m}
    (hA : len (fun k => A i k) ≤ S) (he : len (fun k => A' i k - A i k) ≤ (β - 1) * S)
    (h : FlProd F A' L' K) :
    len (fun j => (A * L) i j) ≤ g * S ∧
      len (fun j => K i j - (A * L) i j) ≤ (α * β * chainFactor F.u - 1) * (g * S) := by
  obtain ⟨hg, hα, hop, hE⟩ := hL
  have hop' := opLe_transpose hop hg
  have g6 := growth_nonneg F 6
  have row : ∀ (M : Matrix m n ℝ) (N : Matrix n p ℝ), (fun j => (M * N) i j) = Nᵀ *ᵥ fun k => M i k := by
    intro M N
    funext j
    rw [Matrix.mul_apply]
    exact Finset.sum_congr rfl fun k _ => mul_comm _ _
  have c1 : len (fun j => (A * L) i j) ≤ g * S := by
    rw [row]
    exact (hop' _).trans (mul_le_mul_of_nonneg_left hA hg)
  refine ⟨c1, ?_⟩
  have nA : len (fun k => A' i k) ≤ β * S := len_near hA he
  have nL : fro L' ≤ 3 * α * g := by
    have h1 := fro_le_of_opLe hop hg hp
    have h2 := fro_add_le (L' - L) L
    rw [sub_add_cancel] at h2
    nlinarith
  have r1 := (flProd_transpose_err h i).trans (mul_le_mul (growth_mono F hc) (mul_le_mul nL nA
    (len_nonneg _) (by positivity)) (mul_nonneg (fro_nonneg _) (len_nonneg _)) g6)
  have r2 : len ((L' - L)ᵀ *ᵥ fun k => A' i k) ≤ (α - 1) * g * (β * S) :=
    (len_mulVec_fro _ _).trans (mul_le_mul (by rw [fro_transpose]; exact hE) nA (len_nonneg _)
      (mul_nonneg (by linarith) hg))
  have r3 : len (Lᵀ *ᵥ fun k => A' i k - A i k) ≤ g * ((β - 1) * S) :=
    (hop' _).trans (mul_le_mul_of_nonneg_left he hg)
  have dec : (fun j => K i j - (A * L) i j) = (fun j => K i j - (A' * L') i j) +
      ((L' - L)ᵀ *ᵥ (fun k => A' i k) + Lᵀ *ᵥ fun k => A' i k - A i k) := by
    have e1 : (Lᵀ *ᵥ fun k => A' i k - A i k) = (Lᵀ *ᵥ fun k => A' i k) - Lᵀ *ᵥ fun k => A i k :=
      Matrix.mulVec_sub Lᵀ (fun k => A' i k) fun k => A i k
    rw [e1, Matrix.transpose_sub, Matrix.sub_mulVec]
    funext j
    have a1 : (A' * L') i j = (L'ᵀ *ᵥ fun k => A' i k) j := congrFun (row A' L') j
    have a2 : (A * L) i j = (Lᵀ *ᵥ fun k => A i k) j := congrFun (row A L) j
    simp only [Pi.add_apply, Pi.sub_apply, a1, a2]
    ring
  rw [dec]
  refine (len_add_le _ _).trans ((add_le_add r1 ((len_add_le _ _).trans (add_le_add r2 r3))).trans
    (le_of_eq ?_))
  unfold chainFactor
  ring

/-- The rounded sum of two columns. -/
theorem sum_col {A B A' B' : Matrix m n ℝ} {S T φ ψ : ℝ} (hφ : 1 ≤ φ) (hψ : 1 ≤ ψ) {j : n}
    (hA : len (fun i => A i j) ≤ S) (hB : len (fun i => B i j) ≤ T)
    (eA : len (fun i => A' i j - A i j) ≤ (φ - 1) * S)
    (eB : len (fun i => B' i j - B i j) ≤ (ψ - 1) * T) :
    len (fun i => (A + B) i j) ≤ S + T ∧
      len (fun i => (Matrix.of fun i j => F.rnd (A' i j + B' i j)) i j - (A + B) i j) ≤
        (max φ ψ * (1 + F.u) - 1) * (S + T) :=
  add_near (F := F) (z := fun i => F.rnd (A' i j + B' i j)) hφ hψ hA hB eA eB fun _ => rfl

end

end WG.Round
