import Verif.Spec.Occurrence
import Verif.Model.Compound

/-!
# Specification: stacking of blocks
-/

namespace WG.Spec
open Matrix

variable {L : Lib}

/-- `range i = some (first row, number of rows)` lays out blocks of the given sizes one after the
other, from row 0 to `total`. -/
structure Consecutive (sizes : List ℕ) (range : ℕ → Option (ℕ × ℕ)) (total : ℕ) : Prop where
  /-- there is a block for every element and no other -/
  defined : ∀ i, range i ≠ none ↔ i < sizes.length
  /-- with the size of that element -/
  size : ∀ i off n, range i = some (off, n) → sizes[i]? = some n
  /-- the first one starts at row 0 -/
  first : ∀ off n, range 0 = some (off, n) → off = 0
  /-- each other starts where the previous one ends -/
  next : ∀ i off n off' n', range i = some (off, n) → range (i + 1) = some (off', n') → off' = off + n
  /-- the last one ends at the last row -/
  last : ∀ i off n, i + 1 = sizes.length → range i = some (off, n) → off + n = total
  /-- without elements there are no rows -/
  empty : sizes = [] → total = 0

/-- Number of rows of a list of elements. -/
def height (c : Compound L) : ℕ := (c.map fun e => L.dim e.1).sum

/-- `m` is the block matrix obtained by writing, for every element of the compound from top to bottom,
the sum over the occurrences of `t` in that element of the products of local derivatives (zero
rows where it does not occur); every row is written. -/
def IsStacked (s : Store L) (t : Target L) (c : Compound L) (m : ℕ → Option (Option (L.Idx t.ty → ℝ))) :
    Prop :=
  ∀ (above : Compound L) (e : Elem L) (below : Compound L), c = above ++ e :: below →
    ∀ j : L.Idx e.1, m (height above + L.enum e.1 j) =
      some (Option.map (fun A : Matrix (L.Idx e.1) (L.Idx t.ty) ℝ => A j)
        (total (occurrences s t e.2)))

/-- The elements in which the type of `t` occurs all come before the others. -/
def TypeFirst (t : Target L) (c : Compound L) : Prop :=
  ∃ c₁ c₂ : Compound L, c = c₁ ++ c₂ ∧ (∀ e ∈ c₁, (t.ty, t.cls) ∈ types e.2) ∧
    ∀ e ∈ c₂, (t.ty, t.cls) ∉ types e.2

end WG.Spec
