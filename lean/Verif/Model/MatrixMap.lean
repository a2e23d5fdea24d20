import Verif.Model.Expr
import Mathlib.Data.List.Basic

/-!
# `MatrixMap` and the dynamic reverse sweep through it
-/

namespace WG
open Matrix

/-- A possibly non-finite number. -/
abbrev Num? := Option ℝ

/-- Sum of possibly non-finite numbers. -/
def Num?.add (x y : Num?) : Num? := x.bind fun a => y.map fun b => a + b

/-- `MatrixMap` (util/math/MatrixMap.hpp:28-102): `index` is the flat map key -> (first column,
width), `cols` the number of columns of the storage matrix, `storage` its columns.  Rows are
indexed by `ρ`. -/
structure MatrixMap (K ρ : Type) where
  index : K → Option (ℕ × ℕ)
  cols : ℕ
  storage : ℕ → ρ → Num?

namespace MatrixMap
variable {K ρ : Type} [DecidableEq K]

/-- One round of the constructor's loop (MatrixMap.hpp:51-56): `emplace_hint` keeps the first entry
of a duplicate key; the column counter advances in any case. -/
def register (m : MatrixMap K ρ) (kw : K × ℕ) : MatrixMap K ρ where
  index k := if k = kw.1 then (m.index k).orElse fun _ => some (m.cols, kw.2) else m.index k
  cols := m.cols + kw.2
  storage := m.storage

/-- The constructor: MatrixMap.hpp:47-58; the storage holds garbage. -/
def mk' (garbage : ℕ → ρ → Num?) (kws : List (K × ℕ)) : MatrixMap K ρ :=
  kws.foldl register ⟨fun _ => none, 0, garbage⟩

/-- `setZero`: MatrixMap.hpp:94-96. -/
def setZero (m : MatrixMap K ρ) : MatrixMap K ρ := { m with storage := fun _ _ => some 0 }

/-- `count`: MatrixMap.hpp:89-91. -/
def count (m : MatrixMap K ρ) (k : K) : ℕ := if (m.index k).isSome then 1 else 0

/-- `at`: MatrixMap.hpp:75-86; `none` is the `out_of_range` exception. -/
def at' (m : MatrixMap K ρ) (k : K) : Option ((w : ℕ) × (ρ → Fin w → Num?)) :=
  (m.index k).map fun p => ⟨p.2, fun r j => m.storage (p.1 + j) r⟩

/-- `operator[]`: MatrixMap.hpp:61-64: a missing key is inserted with an empty block. -/
def touch (m : MatrixMap K ρ) (k : K) : MatrixMap K ρ where
  index k' := if k' = k then (m.index k).orElse fun _ => some (0, 0) else m.index k'
  cols := m.cols
  storage := m.storage

/-- `m[key] += block` (DynamicReverseJacobianEvaluator.hpp:65-70); `none` is the size mismatch on
which Eigen asserts (undefined behaviour in release builds). -/
def accumulate (m : MatrixMap K ρ) (k : K) (w : ℕ) (b : ρ → Fin w → Num?) :
    Option (MatrixMap K ρ) :=
  let m := m.touch k
  (m.index k).bind fun p =>
    if h : p.2 = w then
      some { m with storage := fun c r =>
        if hc : p.1 ≤ c ∧ c < p.1 + p.2 then Num?.add (m.storage c r) (b r ⟨c - p.1, by omega⟩)
        else m.storage c r }
    else none

/-- A sequence of accumulations. -/
def accumulateAll (m : MatrixMap K ρ) :
    List (K × (w : ℕ) × (ρ → Fin w → Num?)) → Option (MatrixMap K ρ)
  | [] => some m
  | ⟨k, w, b⟩ :: ops => (m.accumulate k w b).bind fun m' => accumulateAll m' ops

end MatrixMap

variable {L : Lib}

/-- The dense form of a Jacobian block, columns in storage order. -/
def dense {ρ σ : L.Ty} (A : OMat (L.Idx ρ) (L.Idx σ)) : L.Idx ρ → Fin (L.dim σ) → Num? :=
  fun r j => match A with
    | some A => some (A r ((L.enum σ).symm j))
    | none => none

/-- `evaluateDynamicReverseJacobians` (DynamicReverseJacobianEvaluator.hpp:226-239): register the
leaves of the expression (`getLeavesMap` 47-61; `order` is the result of sorting them by address),
clear, run the reverse sweep from the identity. -/
def Expr.dynReverse (s : Store L) (garbage : ∀ τ : L.Ty, ℕ → L.Idx τ → Num?) {τ : L.Ty}
    (e : Expr L τ) (order : List (Target L)) : Option (MatrixMap ℕ (L.Idx τ)) :=
  ((MatrixMap.mk' (garbage τ) (order.map fun t => (t.addr, L.dim t.ty))).setZero).accumulateAll
    (((ETree.mk s e).dynRev (idBlock rfl)).map fun u => ⟨u.1, L.dim u.2.1, dense u.2.2⟩)

end WG
