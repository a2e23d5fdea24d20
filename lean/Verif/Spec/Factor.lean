import Verif.Model.Factor
import Verif.Spec.Occurrence

/-!
# Specification: measurement channels
-/

namespace WG.Spec
open Matrix

variable {ε : ℝ}

/-- One vector- or point-valued expression together with the value measured for it. -/
structure Channel (ε : ℝ) where
  ty : Ty
  flat : (∃ k, ty = .vec k) ∨ ty = .point
  e : Expr (geoLib ε) ty
  z : ty.Val

/-- Dimension of a channel. -/
def Channel.dim (x : Channel ε) : ℕ := x.ty.dim

/-- The coordinates of a vector or a point. -/
def coords : (τ : Ty) → τ.Val → τ.Idx → ℝ
  | .vec _, v => v
  | .point, p => p
  | _, _ => 0

/-- The factor `F` at the parameters `ts` compares, in this order, these expressions with these
measured values: a single one, or a compound. -/
def Observes (F : Factor ε) (ts : List (Target (geoLib ε))) (p : List (Channel ε)) : Prop :=
  (∃ x, p = [x] ∧ F.functor ts = .single x.ty x.e ∧ F.value = .single x.ty x.z) ∨
  (p ≠ [] ∧ F.functor ts = .compound (p.map fun x => ⟨x.ty, x.e⟩) ∧
    F.value = .compound (p.map fun x => ⟨x.ty, x.z⟩))

/-- `r` is the stack of the differences `f(x) - z` of the channels, in the memory `s`. -/
def IsStackedDifference (s : Store (geoLib ε)) (p : List (Channel ε)) {n : ℕ} (r : Fin n → ℝ) : Prop :=
  n = (p.map Channel.dim).sum ∧
  ∀ (above : List (Channel ε)) (x : Channel ε) (below : List (Channel ε)), p = above ++ x :: below →
    ∀ v : x.ty.Val, value s x.e = some v →
    ∀ (j : x.ty.Idx) (i : Fin n), (i : ℕ) = (above.map Channel.dim).sum + x.ty.enum j →
      r i = coords x.ty v j - coords x.ty x.z j

end WG.Spec
