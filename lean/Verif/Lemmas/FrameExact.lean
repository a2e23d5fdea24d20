import Verif.Lemmas.FrameNames
import Verif.Lemmas.Linear

/-! Label combinations without a named result: arrangements refuting every candidate. -/

namespace WG
open Matrix Spec

/-- Arrangement with given orientations and origins, moving at the velocities `o` (helper). -/
def arr (R : ℕ → M3) (hR : ∀ n, IsRotation (R n)) (o : ℕ → V3) : Arrangement :=
  ⟨fun n => ⟨R n, o n⟩, hR, o, o⟩

/-- Half turn about the third axis or identity (helper). -/
def half (b : Bool) : M3 := if b then !![-1, 0, 0; 0, -1, 0; 0, 0, 1] else 1

/-- Sign of the first coordinate under `half` (helper). -/
def sgn (b : Bool) : ℝ := if b then -1 else 1

theorem isRotation_one : IsRotation 1 := ⟨by simp, det_one⟩

theorem half_rotation (b : Bool) : IsRotation (half b) := by
  cases b
  · exact isRotation_one
  · refine ⟨?_, ?_⟩
    · ext i j; fin_cases i <;> fin_cases j <;> simp [half, Matrix.mul_apply, Fin.sum_univ_three]
    · simp [half, det_fin_three]

/-- Arrangement on a line with half-turned frames (helper). -/
def lineArr (b : ℕ → Bool) (o : ℕ → ℝ) : Arrangement :=
  arr (fun n => half (b n)) (fun n => half_rotation _) fun n => ![o n, 0, 0]

/-- First coordinate of a vector quantity (helper). -/
def first : (k : VK) → (k.Idx → ℝ) → ℝ
  | .scalar, x => x 0
  | .trans, x => x 0
  | .relrot, x => x 0
  | .twist, x => x (.inl 0)

/-- The quantity named by three frames (helper). -/
def namedVec (P : Arrangement) : (k : VK) → (a b c : ℕ) → k.Idx → ℝ
  | .scalar, _, _, _ => 0
  | .trans, a, b, c => P.vector a b c
  | .relrot, a, b, c => P.angularVelocity a b c
  | .twist, a, b, c => Sum.elim (P.angularVelocity a b c) (P.velocity a b c)

theorem isNamed_namedVec (P : Arrangement) (k : VK) (a b c : ℕ) : IsNamed P k a b c (namedVec P k a b c) := by
  cases k <;> first | trivial | rfl

theorem isNamed_eq {P : Arrangement} {k : VK} (hk : k ≠ .scalar) {a b c : ℕ} {x : k.Idx → ℝ}
    (h : IsNamed P k a b c x) : x = namedVec P k a b c := by
  cases k <;> first | exact absurd rfl hk | exact h

theorem express_line (b : ℕ → Bool) (o : ℕ → ℝ) (i j n : ℕ) :
    (lineArr b o).express i (![o n, 0, 0] - ![o j, 0, 0]) 0 = sgn (b i) * (o n - o j) := by
  change ((half (b i))ᵀ *ᵥ _) 0 = _
  cases b i <;> simp [half, sgn, mulVec, dotProduct, Fin.sum_univ_three]

theorem first_line {k : VK} (hk : k ≠ .scalar) (b : ℕ → Bool) (o : ℕ → ℝ) (i j n : ℕ) :
    first k (namedVec (lineArr b o) k i j n) = sgn (b i) * (o n - o j) := by
  cases k
  · exact absurd rfl hk
  all_goals exact express_line b o i j n

theorem first_add (k : VK) (x y : k.Idx → ℝ) : first k (x + y) = first k x + first k y := by
  cases k <;> rfl

theorem first_neg (k : VK) (x : k.Idx → ℝ) : first k (-x) = -first k x := by
  cases k <;> rfl

theorem sum_exact {a b c a' d e i j n : ℕ} (hbc : b ≠ c) (hde : d ≠ e)
    (H : ∀ (s : ℕ → Bool) (o : ℕ → ℝ),
      sgn (s a) * (o c - o b) + sgn (s a') * (o e - o d) = sgn (s i) * (o n - o j)) :
    a = a' ∧ (c = d ∨ b = e) := by
  have H1 : ∀ o : ℕ → ℝ, (o c - o b) + (o e - o d) = o n - o j := fun o => by
    have := H (fun _ => false) o
    simpa [sgn] using this
  refine ⟨?_, ?_⟩
  · by_contra ha
    have H2 := fun o : ℕ → ℝ => H (fun m => decide (m = a)) o
    have ha' : ¬ a' = a := fun h => ha h.symm
    by_cases hi : i = a
    · have := H1 fun m => if m = e then 1 else 0
      have h2 := H2 fun m => if m = e then 1 else 0
      simp only [sgn, decide_true, ha', decide_false, hi, if_true, hde, if_false, reduceIte,
        Bool.false_eq_true] at this h2
      linarith
    · have := H1 fun m => if m = c then 1 else 0
      have h2 := H2 fun m => if m = c then 1 else 0
      simp only [sgn, decide_true, ha', decide_false, hi, if_true, hbc, if_false, reduceIte,
        Bool.false_eq_true] at this h2
      linarith
  · by_contra hh
    have h1 : ¬ c = d := fun h => hh (.inl h)
    have h2 : ¬ b = e := fun h => hh (.inr h)
    have := H1 fun m => if m = c ∨ m = e then 1 else 0
    have hb : ¬ (b = c ∨ b = e) := fun h => h.elim hbc h2
    have hd : ¬ (d = c ∨ d = e) := fun h => h.elim (fun h => h1 h.symm) hde
    simp only [true_or, or_true, if_true, hb, hd, if_false] at this
    split_ifs at this <;> norm_num at this

/-- Quarter turn about the third axis (helper). -/
def qz : M3 := !![0, -1, 0; 1, 0, 0; 0, 0, 1]
/-- Quarter turn about the first axis (helper). -/
def qx : M3 := !![1, 0, 0; 0, 0, -1; 0, 1, 0]

theorem qz_rotation : IsRotation qz := by
  refine ⟨?_, ?_⟩
  · ext i j; fin_cases i <;> fin_cases j <;> simp [qz, Matrix.mul_apply, Fin.sum_univ_three]
  · simp [qz, det_fin_three]

theorem qx_rotation : IsRotation qx := by
  refine ⟨?_, ?_⟩
  · ext i j; fin_cases i <;> fin_cases j <;> simp [qx, Matrix.mul_apply, Fin.sum_univ_three]
  · simp [qx, det_fin_three]

theorem compose_exact {a b c d i j : ℕ} (hab : a ≠ b) (hcd : c ≠ d)
    (H : ∀ R : ℕ → M3, (∀ n, IsRotation (R n)) → (R a)ᵀ * R b * ((R c)ᵀ * R d) = (R i)ᵀ * R j) :
    b = c := by
  by_contra hbc
  by_cases had : a = d
  · subst had
    have h := H (fun n => if n = a then qx else if n = b then qz else 1) fun n => by
      split_ifs
      exacts [qx_rotation, qz_rotation, isRotation_one]
    have hba : ¬ b = a := fun h => hab h.symm
    have hcb : ¬ c = b := fun h => hbc h.symm
    have hca : ¬ c = a := hcd
    simp only [if_true, hba, hcb, hca, if_false, reduceIte] at h
    have h0 := congrFun (congrFun h 0) 0
    have h1 := congrFun (congrFun h 1) 1
    have h2 := congrFun (congrFun h 2) 2
    have h3 := congrFun (congrFun h 0) 2
    by_cases hi1 : i = a <;> by_cases hi2 : i = b <;> by_cases hj1 : j = a <;> by_cases hj2 : j = b <;>
      simp [qx, qz, Matrix.mul_apply, Fin.sum_univ_three, hi1, hi2, hj1, hj2, hba, hab] at h0 h1 h2 h3 <;>
      simp_all
  · have h := H (fun n => if n = b ∨ n = d then qz else 1) fun n => by
      split_ifs
      exacts [qz_rotation, isRotation_one]
    have ha : ¬ (a = b ∨ a = d) := fun h => h.elim hab had
    have hc : ¬ (c = b ∨ c = d) := fun h => h.elim (fun h => hbc h.symm) hcd
    simp only [true_or, or_true, if_true, ha, hc, if_false] at h
    have h0 := congrFun (congrFun h 0) 0
    split_ifs at h0 <;> simp [qz, Matrix.mul_apply, Fin.sum_univ_three] at h0 <;> norm_num at h0

theorem quarter_at {b : ℕ} (n : ℕ) : IsRotation (if n = b then qz else 1) := by
  split_ifs
  exacts [qz_rotation, isRotation_one]

theorem rotate_exact {a b c d e i j n : ℕ} (hab : a ≠ b) (hde : d ≠ e)
    (H : ∀ (R : ℕ → M3) (o : ℕ → V3), (∀ n, IsRotation (R n)) →
      ((R a)ᵀ * R b) *ᵥ ((R c)ᵀ *ᵥ (o e - o d)) = (R i)ᵀ *ᵥ (o n - o j)) : b = c := by
  by_contra hbc
  have hcb : ¬ c = b := fun h => hbc h.symm
  have h1 := H (fun _ => 1) (fun m => if m = e then ![1, 0, 0] else 0) fun _ => isRotation_one
  have h2 := H (fun m => if m = b then qz else 1) (fun m => if m = e then ![1, 0, 0] else 0) quarter_at
  simp only [if_true, hde, if_false, hab, hcb, transpose_one, Matrix.one_mul, one_mulVec] at h1 h2
  rw [← h1] at h2
  have h3 := congrFun h2 1
  split_ifs at h3 <;> simp [qz, mulVec, dotProduct, Fin.sum_univ_three] at h3 <;> norm_num at h3

theorem transform_exact {a b c d e i j n : ℕ} (hab : a ≠ b) (hde : d ≠ e)
    (H : ∀ (R : ℕ → M3) (o : ℕ → V3), (∀ n, IsRotation (R n)) →
      ((R a)ᵀ * R b) *ᵥ ((R c)ᵀ *ᵥ (o e - o d)) + (R a)ᵀ *ᵥ (o b - o a) =
        (R i)ᵀ *ᵥ (o n - o j)) : b = c := by
  by_contra hbc
  have hcb : ¬ c = b := fun h => hbc h.symm
  have key := fun o => And.intro (H (fun _ => 1) o fun _ => isRotation_one)
    (H (fun m => if m = b then qz else 1) o quarter_at)
  simp only [if_true, if_false, hab, hcb, transpose_one, Matrix.one_mul, one_mulVec] at key
  by_cases hi : i = b
  · obtain ⟨h1, h2⟩ := key fun m => if m = b then ![1, 0, 0] else 0
    simp only [if_true, if_false, hab, hi] at h1 h2
    rw [← h1] at h2
    have h3 := congrFun h2 0
    split_ifs at h3 <;> simp [qz, mulVec, dotProduct, Fin.sum_univ_three] at h3
  · obtain ⟨h1, h2⟩ := key fun m => if m = e then ![1, 0, 0] else 0
    simp only [if_true, if_false, hde, hi, transpose_one, one_mulVec] at h1 h2
    rw [← h1] at h2
    have h3 := congrFun (add_right_cancel h2) 1
    simp [qz, mulVec, dotProduct, Fin.sum_univ_three] at h3

end WG
