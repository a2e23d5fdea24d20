import Verif.Model.MapLeaf

/-!
# Specification: storage cells of leaf objects
-/

namespace WG.Spec

/-- The cell that holds coefficient `c` of object `x`, read as class `τ`. -/
def cellOf (Γ : Objects) (x : ℕ) (τ : Ty) (c : τ.Coef) : ℕ := (Γ x).base + τ.ofs c

/-- No cell belongs to both objects. -/
def NoSharedCell (Γ : Objects) (x : ℕ) (τ : Ty) (y : ℕ) (σ : Ty) : Prop :=
  ∀ c d, cellOf Γ x τ c ≠ cellOf Γ y σ d

/-- Memory in which the storage of `x` holds the value `v`, and every other cell is as in `h`. -/
structure CellsHold (Γ : Objects) (x : ℕ) (τ : Ty) (v : τ.Val) (h h' : Heap) : Prop where
  held : ∀ c, h' (cellOf Γ x τ c) = τ.get v c
  kept : ∀ k, (∀ c, cellOf Γ x τ c ≠ k) → h' k = h k

end WG.Spec
