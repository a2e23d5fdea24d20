import Verif.Model.Fill
import Verif.Spec.Fill
import Verif.Lemmas.Compound
import Mathlib.Tactic.FinCases

namespace WG
open Matrix Spec

/-- Reading a matrix all of whose coefficients are known. -/
theorem Flat.read_of {R C : ℕ} (mem : ℕ → ℕ → Option ℝ) (N : Matrix (Fin R) (Fin C) ℝ)
    (h : ∀ (i : Fin R) (j : Fin C), mem i j = some (N i j)) : Flat.read R C ⟨R, C, mem⟩ = some N := by
  unfold Flat.read
  rw [if_pos ⟨rfl, rfl, fun i j => by
    show (mem i j).isSome = true
    rw [h]; rfl⟩]
  congr 1
  ext i j
  show (mem i j).getD 0 = _
  rw [h]; rfl

/-- The flat 6x6 matrix of four parts. -/
def flat6 (A B C D : M3) : Matrix (Fin 6) (Fin 6) ℝ := Matrix.of fun i j =>
  if hi : i.1 < 3 then if hj : j.1 < 3 then A ⟨i, hi⟩ ⟨j, hj⟩ else B ⟨i, hi⟩ ⟨j - 3, by omega⟩
  else if hj : j.1 < 3 then C ⟨i - 3, by omega⟩ ⟨j, hj⟩ else D ⟨i - 3, by omega⟩ ⟨j - 3, by omega⟩

/-- The flat 3x6 matrix of two parts. -/
def flat3 (A B : M3) : Matrix (Fin 3) (Fin 6) ℝ := Matrix.of fun i j =>
  if hj : j.1 < 3 then A i ⟨j, hj⟩ else B i ⟨j - 3, by omega⟩

theorem flat6_parts (A B C D : M3) : FourParts (flat6 A B C D) A B C D where
  tl i j := by fin_cases i <;> fin_cases j <;> rfl
  tr i j := by fin_cases i <;> fin_cases j <;> rfl
  bl i j := by fin_cases i <;> fin_cases j <;> rfl
  br i j := by fin_cases i <;> fin_cases j <;> rfl

theorem flat3_parts (A B : M3) : TwoParts (flat3 A B) A B where
  left i j := by fin_cases i <;> fin_cases j <;> rfl
  right i j := by fin_cases i <;> fin_cases j <;> rfl

theorem flat6_isFlat (A B C D : M3) : IsFlat6 (flat6 A B C D) (fromBlocks A B C D) := by
  intro i j
  rcases i with i | i <;> rcases j with j | j <;> fin_cases i <;> fin_cases j <;> rfl

theorem flat3_isFlat (A B : M3) : IsFlat3 (flat3 A B) (fromCols A B) := by
  intro i j
  rcases j with j | j <;> fin_cases i <;> fin_cases j <;> rfl

theorem composeFill_read (R : M3) (t : V3) :
    (composeFill R t).bind (Flat.read 6 6) = some (flat6 R 0 (crossMatrix t * R) R) := by
  refine Flat.read_of _ _ fun i j => ?_
  fin_cases i <;> fin_cases j <;> rfl

theorem logRigidFill_read (D B : M3) :
    (logRigidFill D B).bind (Flat.read 6 6) = some (flat6 D 0 (-D * B * D) D) := by
  refine Flat.read_of _ _ fun i j => ?_
  fin_cases i <;> fin_cases j <;> rfl

theorem expTwistFill_read (D B : M3) :
    (expTwistFill D B).bind (Flat.read 6 6) = some (flat6 D 0 B D) := by
  refine Flat.read_of _ _ fun i j => ?_
  fin_cases i <;> fin_cases j <;> rfl

theorem inverseFill_read (R : M3) (t : V3) :
    (inverseFill R t).bind (Flat.read 6 6) = some (-flat6 R 0 (crossMatrix t * R) R) := by
  refine Flat.read_of _ _ fun i j => ?_
  fin_cases i <;> fin_cases j <;> rfl

theorem getRotFill_read : getRotFill.bind (Flat.read 3 6) = some (flat3 1 0) := by
  refine Flat.read_of _ _ fun i j => ?_
  fin_cases i <;> fin_cases j <;> rfl

theorem getTransFill_read (t : V3) :
    (getTransFill t).bind (Flat.read 3 6) = some (flat3 (crossMatrix (-t)) 1) := by
  refine Flat.read_of _ _ fun i j => ?_
  fin_cases i <;> fin_cases j <;> rfl

theorem transformFill_read (v : V3) :
    (transformFill v).bind (Flat.read 3 6) = some (flat3 (crossMatrix (-v)) 1) := by
  refine Flat.read_of _ _ fun i j => ?_
  fin_cases i <;> fin_cases j <;> rfl

theorem crossFill_read (v : V3) : (crossFill v).bind (Flat.read 3 3) = some (crossMatrix v) := by
  simp only [crossFill, commaInit, commaStart, commaNext, MatObj.one, List.foldlM_cons, List.foldlM_nil,
    Option.bind_eq_bind, Option.bind_some, Option.pure_def, ne_eq, and_self, or_false,
    OfNat.ofNat_ne_zero, Nat.reduceLeDiff, Nat.reduceAdd, Nat.reduceEqDiff, if_true, if_false, one_ne_zero,
    not_false_eq_true, true_or, zero_add, and_true, le_refl]
  refine Flat.read_of _ _ fun i j => ?_
  fin_cases i <;> fin_cases j <;> rfl

/-! ## Blocks of a list of sizes -/

theorem startOf_succ {l : List ℕ} {I h : ℕ} (hI : l[I]? = some h) : startOf l (I + 1) = startOf l I + h := by
  unfold startOf
  rw [List.take_add_one, hI]; simp

theorem startOf_mono (l : List ℕ) {I K : ℕ} (h : I ≤ K) : startOf l I ≤ startOf l K := by
  unfold startOf
  rw [show l.take I = (l.take K).take I by rw [List.take_take, min_eq_left h]]
  have := List.sum_take_add_sum_drop (l.take K) I
  omega

theorem startOf_le_sum (l : List ℕ) (I : ℕ) : startOf l I ≤ l.sum := by
  have := List.sum_take_add_sum_drop l I
  unfold startOf; omega

theorem startOf_end {l : List ℕ} {I h : ℕ} (hI : l[I]? = some h) : startOf l I + h ≤ l.sum :=
  startOf_succ hI ▸ startOf_le_sum l (I + 1)

/-- A position lies in one block only. -/
theorem block_unique {l : List ℕ} {I K h k a : ℕ} (hI : l[I]? = some h) (hK : l[K]? = some k) (ha : a < h)
    (h1 : startOf l K ≤ startOf l I + a) (h2 : startOf l I + a < startOf l K + k) : K = I := by
  rcases lt_trichotomy K I with hlt | rfl | hlt
  · have := startOf_mono l (show K + 1 ≤ I from hlt)
    rw [startOf_succ hK] at this
    omega
  · rfl
  · have := startOf_mono l (show I + 1 ≤ K from hlt)
    rw [startOf_succ hI] at this
    omega

/-- The assignments of a list of blocks: each succeeds, and a coefficient of a listed block is set to the
coefficient assigned to it, any other keeps its value. -/
theorem fillBlocks_spec (ls rs : List ℕ) (A : ℕ → ℕ → MatObj)
    (hA : ∀ I J h w, ls[I]? = some h → rs[J]? = some w → (A I J).rows = h ∧ (A I J).cols = w)
    (order : List (ℕ × ℕ)) (ho : ∀ p ∈ order, p.1 < ls.length ∧ p.2 < rs.length) (M : Flat)
    (hr : M.rows = ls.sum) (hc : M.cols = rs.sum) :
    ∃ M', fillBlocks ls rs A M order = some M' ∧ M'.rows = ls.sum ∧ M'.cols = rs.sum ∧
      ∀ I J h w a b, ls[I]? = some h → rs[J]? = some w → a < h → b < w →
        M'.mem (startOf ls I + a) (startOf rs J + b) =
          if (I, J) ∈ order then some ((A I J).coeff a b)
          else M.mem (startOf ls I + a) (startOf rs J + b) := by
  induction order generalizing M with
  | nil => exact ⟨M, rfl, hr, hc, fun I J h w a b _ _ _ _ => by simp⟩
  | cons p order ih =>
    obtain ⟨K, N⟩ := p
    obtain ⟨hK, hN⟩ := ho (K, N) (by simp)
    obtain ⟨k, hk⟩ : ∃ k, ls[K]? = some k := ⟨_, List.getElem?_eq_getElem hK⟩
    obtain ⟨n, hn⟩ : ∃ n, rs[N]? = some n := ⟨_, List.getElem?_eq_getElem hN⟩
    have hstep : M.assign (M.blockWrt ls rs K N) (A K N) =
        some { M with mem := putBlock (startOf ls K) (startOf rs N) (A K N) M.mem } := by
      have e : M.blockWrt ls rs K N = some ⟨startOf ls K, startOf rs N, k, n⟩ := by
        unfold Flat.blockWrt
        rw [blockRange_eq, blockRange_eq, hk, hn]
        show M.block (startOf ls K) (startOf rs N) k n = _
        unfold Flat.block
        rw [if_pos ⟨hr ▸ startOf_end hk, hc ▸ startOf_end hn⟩]
      unfold Flat.assign
      rw [e]
      exact if_pos (hA K N k n hk hn)
    obtain ⟨M', h1, h2, h3, h4⟩ := ih (fun p hp => ho p (List.mem_cons_of_mem _ hp))
      { M with mem := putBlock (startOf ls K) (startOf rs N) (A K N) M.mem } hr hc
    refine ⟨M', ?_, h2, h3, ?_⟩
    · show (M.assign (M.blockWrt ls rs K N) (A K N)).bind _ = _
      rw [hstep]
      exact h1
    · intro I J h w a b hI hJ ha hb
      rw [h4 I J h w a b hI hJ ha hb]
      by_cases hin : (I, J) ∈ order
      · rw [if_pos hin, if_pos (List.mem_cons_of_mem _ hin)]
      rw [if_neg hin]
      show putBlock (startOf ls K) (startOf rs N) (A K N) M.mem _ _ = _
      unfold putBlock
      rw [(hA K N k n hk hn).1, (hA K N k n hk hn).2]
      by_cases e : (I, J) = (K, N)
      · obtain ⟨rfl, rfl⟩ := Prod.mk.inj e
        rw [hI] at hk; rw [hJ] at hn
        cases hk; cases hn
        rw [if_pos ⟨by omega, by omega, by omega, by omega⟩, if_pos (by simp)]
        rw [Nat.add_sub_cancel_left, Nat.add_sub_cancel_left]
      · rw [if_neg, if_neg]
        · simp only [List.mem_cons, e, hin, or_self, not_false_eq_true]
        · rintro ⟨q1, q2, q3, q4⟩
          exact e (by rw [block_unique hI hk ha q1 q2, block_unique hJ hn hb q3 q4])

end WG
