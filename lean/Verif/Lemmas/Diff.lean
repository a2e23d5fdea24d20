import Verif.Spec.Derivative
import Verif.Lemmas.Sound
import Mathlib.Analysis.Calculus.FDeriv.Add
import Mathlib.Analysis.Calculus.FDeriv.Mul
import Mathlib.Analysis.Calculus.FDeriv.Comp
import Mathlib.Analysis.Calculus.FDeriv.Pi
import Mathlib.Analysis.Calculus.Deriv.Comp
import Mathlib.Analysis.Calculus.Deriv.Inv
import Mathlib.Analysis.SpecialFunctions.Trigonometric.Deriv
import Mathlib.Analysis.SpecialFunctions.Trigonometric.InverseDeriv
import Mathlib.Analysis.SpecialFunctions.Sqrt

/-! Rules for differentials of real, vector and matrix families. -/

namespace WG
open Matrix Spec Filter Topology

variable {E : Type} [NormedAddCommGroup E] [NormedSpace ℝ E] {x : E}

namespace Spec.Diff

variable {f g : E → ℝ} {F G : E → ℝ}

theorem congr_left (h : Diff f x F) (e : ∀ᶠ y in 𝓝 x, g y = f y) : Diff g x F := by
  obtain ⟨L, h1, h2⟩ := h
  exact ⟨L, h1, h2.congr_of_eventuallyEq e⟩

theorem congr_right (h : Diff f x F) (e : ∀ y, G y = F y) : Diff f x G := by
  obtain ⟨L, h1, h2⟩ := h
  exact ⟨L, fun y => (h1 y).trans (e y).symm, h2⟩

theorem const (a : ℝ) : Diff (fun _ : E => a) x fun _ => 0 :=
  ⟨0, fun _ => rfl, hasFDerivAt_const a x⟩

theorem add (hf : Diff f x F) (hg : Diff g x G) :
    Diff (fun e => f e + g e) x fun h => F h + G h := by
  obtain ⟨L, h1, h2⟩ := hf
  obtain ⟨M, k1, k2⟩ := hg
  exact ⟨L + M, fun h => by simp [h1, k1], h2.add k2⟩

theorem neg (hf : Diff f x F) : Diff (fun e => -f e) x fun h => -F h := by
  obtain ⟨L, h1, h2⟩ := hf
  exact ⟨-L, fun h => by simp [h1], h2.neg⟩

theorem sub (hf : Diff f x F) (hg : Diff g x G) :
    Diff (fun e => f e - g e) x fun h => F h - G h := by
  simpa only [sub_eq_add_neg] using hf.add hg.neg

theorem mul (hf : Diff f x F) (hg : Diff g x G) :
    Diff (fun e => f e * g e) x fun h => F h * g x + f x * G h := by
  obtain ⟨L, h1, h2⟩ := hf
  obtain ⟨M, k1, k2⟩ := hg
  exact ⟨_, fun h => by simp [h1, k1]; ring, h2.mul k2⟩

theorem const_mul (a : ℝ) (hf : Diff f x F) : Diff (fun e => a * f e) x fun h => a * F h :=
  ((const a).mul hf).congr_right fun h => by ring

theorem comp {φ : ℝ → ℝ} {φ' : ℝ} (hφ : HasDerivAt φ φ' (f x)) (hf : Diff f x F) :
    Diff (fun e => φ (f e)) x fun h => φ' * F h := by
  obtain ⟨L, h1, h2⟩ := hf
  exact ⟨φ' • L, fun h => by simp [h1], hφ.comp_hasFDerivAt x h2⟩

theorem continuousAt (hf : Diff f x F) : ContinuousAt f x := by
  obtain ⟨L, -, h2⟩ := hf
  exact h2.continuousAt

theorem unique (hf : Diff f x F) (hg : Diff f x G) : F = G := by
  obtain ⟨L, h1, h2⟩ := hf
  obtain ⟨M, k1, k2⟩ := hg
  have := h2.unique k2
  subst this
  funext h
  rw [← h1, k1]

theorem sum {ι : Type} (s : Finset ι) {f F : ι → E → ℝ} (h : ∀ i ∈ s, Diff (f i) x (F i)) :
    Diff (fun e => ∑ i ∈ s, f i e) x fun h => ∑ i ∈ s, F i h := by
  classical
  induction s using Finset.induction_on with
  | empty => simpa using const 0
  | insert i s hi ih =>
    simp only [Finset.sum_insert hi]
    exact (h i (by simp)).add (ih fun j hj => h j (by simp [hj]))

theorem inv (hf : Diff f x F) (h0 : f x ≠ 0) :
    Diff (fun e => (f e)⁻¹) x fun h => -F h / f x ^ 2 :=
  ((comp (hasDerivAt_inv h0) hf)).congr_right fun h => by ring

theorem div (hf : Diff f x F) (hg : Diff g x G) (h0 : g x ≠ 0) :
    Diff (fun e => f e / g e) x fun h => (F h * g x - f x * G h) / g x ^ 2 := by
  have := hf.mul (hg.inv h0)
  simp only [div_eq_mul_inv]
  refine this.congr_right fun h => ?_
  field_simp
  ring

theorem sqrt (hf : Diff f x F) (h0 : f x ≠ 0) :
    Diff (fun e => √(f e)) x fun h => F h / (2 * √(f x)) :=
  (comp (Real.hasDerivAt_sqrt h0) hf).congr_right fun h => by ring

/-- A function that near `x` agrees at every point with one of finitely many functions, all with
the same value and the same differential at `x`, has that differential. -/
theorem select {ι : Type} [Finite ι] {g : ι → E → ℝ} (hg : ∀ i, Diff (g i) x F)
    (hx : ∀ i, g i x = f x) (hs : ∀ᶠ e in 𝓝 x, ∃ i, f e = g i e) (i0 : ι) : Diff f x F := by
  obtain ⟨L, h1, -⟩ := hg i0
  refine ⟨L, h1, ?_⟩
  have hL : ∀ i, HasFDerivAt (g i) L x := by
    intro i
    obtain ⟨M, k1, k2⟩ := hg i
    have : M = L := ContinuousLinearMap.ext fun h => by rw [k1, h1]
    rwa [this] at k2
  rw [hasFDerivAt_iff_isLittleO, Asymptotics.isLittleO_iff]
  intro c hc
  have hall : ∀ᶠ e in 𝓝 x, ∀ i, ‖g i e - g i x - L (e - x)‖ ≤ c * ‖e - x‖ := by
    rw [eventually_all]
    intro i
    have := hL i
    rw [hasFDerivAt_iff_isLittleO, Asymptotics.isLittleO_iff] at this
    exact this hc
  filter_upwards [hall, hs] with e he ⟨i, hi⟩
  rw [hi, ← hx i]
  exact he i

end Spec.Diff

namespace Spec.DiffM

variable {l m n : Type} [Fintype m] {A A' : E → Matrix l m ℝ} {B B' : E → Matrix m n ℝ}

theorem congr_left {f g F : E → Matrix l m ℝ} (h : DiffM f x F)
    (e : ∀ᶠ y in 𝓝 x, g y = f y) : DiffM g x F := fun i j =>
  (h i j).congr_left (e.mono fun y hy => by rw [hy])

theorem congr_right {f F G : E → Matrix l m ℝ} (h : DiffM f x F) (e : ∀ y, G y = F y) :
    DiffM f x G := fun i j => (h i j).congr_right fun y => by rw [e]

theorem const (M : Matrix l m ℝ) : DiffM (fun _ : E => M) x fun _ => 0 := fun _ _ => Diff.const _

theorem mul (hA : DiffM A x A') (hB : DiffM B x B') :
    DiffM (fun e => A e * B e) x fun h => A' h * B x + A x * B' h := by
  intro i j
  simp only [Matrix.mul_apply, Matrix.add_apply]
  have := Diff.sum (x := x) Finset.univ fun k (_ : k ∈ Finset.univ) => (hA i k).mul (hB k j)
  exact this.congr_right fun h => by rw [Finset.sum_add_distrib]

theorem transpose (hA : DiffM A x A') : DiffM (fun e => (A e)ᵀ) x fun h => (A' h)ᵀ :=
  fun i j => hA j i

theorem mulVec {v v' : E → m → ℝ} (hA : DiffM A x A') (hv : DiffV v x v') :
    DiffV (fun e => A e *ᵥ v e) x fun h => A' h *ᵥ v x + A x *ᵥ v' h := by
  intro i
  simp only [Matrix.mulVec, dotProduct, Pi.add_apply]
  have := Diff.sum (x := x) Finset.univ fun k (_ : k ∈ Finset.univ) => (hA i k).mul (hv k)
  exact this.congr_right fun h => by rw [Finset.sum_add_distrib]

end Spec.DiffM

namespace Spec.DiffV

variable {n : Type} {f g F G : E → n → ℝ}

theorem congr_left (h : DiffV f x F) (e : ∀ᶠ y in 𝓝 x, g y = f y) : DiffV g x F := fun i =>
  (h i).congr_left (e.mono fun y hy => by rw [hy])

theorem congr_right (h : DiffV f x F) (e : ∀ y, G y = F y) : DiffV f x G := fun i =>
  (h i).congr_right fun y => by rw [e]

theorem const (v : n → ℝ) : DiffV (fun _ : E => v) x fun _ => 0 := fun _ => Diff.const _

theorem add (hf : DiffV f x F) (hg : DiffV g x G) :
    DiffV (fun e => f e + g e) x fun h => F h + G h := fun i => (hf i).add (hg i)

theorem neg (hf : DiffV f x F) : DiffV (fun e => -f e) x fun h => -F h := fun i => (hf i).neg

theorem sub (hf : DiffV f x F) (hg : DiffV g x G) :
    DiffV (fun e => f e - g e) x fun h => F h - G h := fun i => (hf i).sub (hg i)

theorem dot [Fintype n] (hf : DiffV f x F) (hg : DiffV g x G) :
    Diff (fun e => f e ⬝ᵥ g e) x fun h => F h ⬝ᵥ g x + f x ⬝ᵥ G h := by
  simp only [dotProduct]
  have := Diff.sum (x := x) Finset.univ fun k (_ : k ∈ Finset.univ) => (hf k).mul (hg k)
  exact this.congr_right fun h => by rw [Finset.sum_add_distrib]

theorem normSq {f F : E → V3} (hf : DiffV f x F) :
    Diff (fun e => normSq (f e)) x fun h => 2 * WG.dot (f x) (F h) :=
  ((((hf 0).mul (hf 0)).add ((hf 1).mul (hf 1))).add ((hf 2).mul (hf 2))).congr_right fun h => by
    unfold WG.dot; ring

end Spec.DiffV

theorem diffM_cross {f F : E → V3} (hf : DiffV f x F) :
    DiffM (fun e => crossMatrix (f e)) x fun h => crossMatrix (F h) := by
  intro i j
  fin_cases i <;> fin_cases j
  · exact Diff.const 0
  · exact (hf 2).neg
  · exact hf 1
  · exact hf 2
  · exact Diff.const 0
  · exact (hf 0).neg
  · exact (hf 1).neg
  · exact hf 0
  · exact Diff.const 0

theorem diffM_smul {m n : Type} {s S : E → ℝ} {A A' : E → Matrix m n ℝ} (hs : Diff s x S)
    (hA : DiffM A x A') : DiffM (fun e => s e • A e) x fun h => S h • A x + s x • A' h :=
  fun i j => hs.mul (hA i j)

theorem diffM_add {m n : Type} {A B A' B' : E → Matrix m n ℝ} (hA : DiffM A x A')
    (hB : DiffM B x B') : DiffM (fun e => A e + B e) x fun h => A' h + B' h :=
  fun i j => (hA i j).add (hB i j)

theorem diffM_sub {m n : Type} {A B A' B' : E → Matrix m n ℝ} (hA : DiffM A x A')
    (hB : DiffM B x B') : DiffM (fun e => A e - B e) x fun h => A' h - B' h :=
  fun i j => (hA i j).sub (hB i j)

end WG
