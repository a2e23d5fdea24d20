import Verif.Model.Compound

/-!
# Numerical Jacobians of compounds

Transcribes the n-ary specialisation of `EvaluatorWithDelta` and `evaluateNumericalJacobianImpl` for
a compound (core/functions/NumericalJacobian.hpp:44-83, 174-248).  A compound is an object with an
address of its own, `a` below: it is compared, as every node is, with the address of the target, and
nothing but the address is compared (`isSame(expr, const void *)`, IsSame.hpp).

Simplifications: conversions of the elements are already inserted in the expressions (Surface);
output functors (frame wrappers) do not change values.
-/

namespace WG

variable {L : Lib}

/-- `makeTangent` of a compound: the vector which is `δ` in coefficient `k` and zero elsewhere, cut
into the blocks of the elements, the first of which starts at coefficient `off`
(NumericalJacobian.hpp:44-60, 74-76). -/
def deltaBlocks (k : ℕ) (δ : ℝ) : ℕ → List L.Ty → TVal L
  | _, [] => []
  | off, τ :: τs =>
    ⟨τ, some fun i => if off + (L.enum τ i : ℕ) = k then δ else 0⟩ ::
      deltaBlocks k δ (off + L.dim τ) τs

/-- `EvaluatorWithDelta` of a compound at address `a` (NumericalJacobian.hpp:174-218): every element
is evaluated with the offset; then, if the compound itself has the address of the target, the offset
is added to coefficient `j` of the whole compound.  `none`: that coefficient does not exist (an Eigen
assertion) or the addition is rejected. -/
noncomputable def Compound.evalDelta (s : Store L) (a t : ℕ) (σ : L.Ty) (δ : ℝ) (j : L.Idx σ)
    (c : Compound L) : Option (CVal L) :=
  let v : CVal L := c.map fun e => ⟨e.1, e.2.evalDelta s t σ (coordStep j δ)⟩
  if a = t then
    if (L.enum σ j : ℕ) < compoundSize (c.map fun e => L.dim e.1) then
      compoundPlus v (deltaBlocks (L.enum σ j) δ 0 (c.map fun e => e.1))
    else none
  else some v

/-- Division of a vector of rows by the step. -/
noncomputable def divRow (δ : ℝ) (x : Option (Option ℝ)) : Option (Option ℝ) :=
  x.map fun y => y.bind fun z => if δ = 0 then none else some (z / δ)

/-- One column of `evaluateNumericalJacobian` of a compound: NumericalJacobian.hpp:238-248. -/
noncomputable def Compound.numColumn (s : Store L) (a t : ℕ) (σ : L.Ty) (δ : ℝ) (c : Compound L)
    (j : L.Idx σ) : Option (ℕ → Option (Option ℝ)) :=
  (c.evalDelta s a t σ δ j).bind fun fwd => (compoundMinus fwd (c.eval s)).bind fun diff =>
    (valueAsVector diff).map fun v r => divRow δ (v r)

end WG
