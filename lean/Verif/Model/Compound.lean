import Verif.Model.Expr

/-!
# Compounds: index sequences, block matrices, n-ary storage, n-ary evaluators, box operators
-/

namespace WG
open Matrix

/-! ## Index sequences (util/meta/type_list.hpp, util/meta/index_sequence.hpp) -/

/-- `cumulative_index_sequence_impl` (type_list.hpp:282-301): the output so far, the remaining input
and `PrevI`.  `none`: no specialisation matches an empty input. -/
def cumulativeImpl : List ℕ → List ℕ → ℕ → Option (List ℕ)
  | _, [], _ => none
  | out, [_], _ => some out
  | out, next :: size :: sizes, prev =>
    cumulativeImpl (out ++ [prev + next]) (size :: sizes) (prev + next)

/-- `accumulate_index_sequence` / `cumulative_index_sequence` (type_list.hpp:308-330). -/
def accumulateSeq (sizes : List ℕ) : Option (List ℕ) := cumulativeImpl [] (0 :: sizes) 0

/-- `integer_sequence_element` (type_list.hpp:334-343); `none`: no specialisation matches. -/
def seqElem : ℕ → List ℕ → Option ℕ
  | 0, x :: _ => some x
  | i + 1, _ :: xs => seqElem i xs
  | _, [] => none

/-- `sum_sequence` (index_sequence.hpp:131-142). -/
def sumSequence : List ℕ → ℕ
  | [] => 0
  | [a] => a
  | a :: b :: tail => sumSequence ((a + b) :: tail)
termination_by l => l.length

/-- `filter_integer_sequence` (index_sequence.hpp:105-128). -/
def filterSeq (p : ℕ → Bool) (is : List ℕ) : List ℕ :=
  (is.map fun i => if p i then [i] else []).flatten

/-- `tmp::filter` on a type list (type_list.hpp:352-368). -/
def filterTypes {T : Type} (p : T → Bool) (ts : List T) : List T :=
  (ts.map fun t => if p t then [t] else []).flatten

/-- First row and number of rows of `rowsWrt<I>()` in a `BlockMatrix` whose element tangent sizes are
`sizes` (BlockMatrix.hpp:26-44, 86-97; the same computation serves `colsWrt` 72-83 and `blockWrt`
52-69).  `none`: rejected by the compiler (static_assert line 88 or a missing element). -/
def blockRange (sizes : List ℕ) (i : ℕ) : Option (ℕ × ℕ) :=
  match accumulateSeq sizes with
  | none => none
  | some indices =>
    if i < indices.length then
      match seqElem i indices, seqElem i sizes with
      | some off, some n => some (off, n)
      | _, _ => none
    else none

/-- `TangentSize` of a compound (NaryStorage.hpp:131-137, traits_bases.hpp:81-84): the number of rows
of the block matrix. -/
def compoundSize (sizes : List ℕ) : ℕ := sumSequence sizes

variable {L : Lib}

/-! ## Compound expressions (core/storage/NaryStorage.hpp) -/

/-- One element of a compound expression.  Elements are unary, binary, leaf or proxy expressions;
`contains_same_type` is not defined for nested compounds (IsSameType.hpp:44-59). -/
abbrev Elem (L : Lib) := (τ : L.Ty) × Expr L τ

/-- A compound expression `makeCompound<Tmpl>(e...)` (NaryStorage.hpp:156-159). -/
abbrev Compound (L : Lib) := List (Elem L)

/-- The tangent sizes of the elements (NaryStorage.hpp:113, traits_bases.hpp:275-278). -/
def Compound.sizes (c : Compound L) : List ℕ := c.map fun e => L.dim e.1

/-- The value of a compound: one value per element, `none` when it is not finite. -/
abbrev CVal (L : Lib) := List ((τ : L.Ty) × Option (L.Val τ))

/-- A compound of tangent vectors, each labelled with the class it is a tangent of. -/
abbrev TVal (L : Lib) := List ((τ : L.Ty) × Option (L.Idx τ → ℝ))

/-- `Evaluator` of an n-ary expression: one child evaluator per element, in order; the result is the
compound of the child results (Evaluator.hpp:107-143, NaryStorage.hpp:151-154). -/
def Compound.evaluators (s : Store L) (c : Compound L) : List ((τ : L.Ty) × ETree L τ) :=
  c.map fun e => ⟨e.1, ETree.mk s e.2⟩

/-- `eval()` of a compound: Evaluator.hpp:125-137. -/
def Compound.eval (s : Store L) (c : Compound L) : CVal L :=
  (c.evaluators s).map fun v => ⟨v.1, v.2.val⟩

/-! ## Jacobians of compounds -/

/-- A matrix under construction: for every row number, either never written (outer `none`, the
memory is uninitialised) or a row, which may have non-finite entries (inner `none`). -/
abbrev Rows (L : Lib) (σ : L.Ty) := ℕ → Option (Option (L.Idx σ → ℝ))

/-- `m.middleRows(off, dim τ) = J`. -/
def Rows.write {σ : L.Ty} (m : Rows L σ) (off : ℕ) {τ : L.Ty} (J : OMat (L.Idx τ) (L.Idx σ)) :
    Rows L σ := fun r =>
  if h : off ≤ r ∧ r - off < L.dim τ then
    some (Option.map (fun A : Matrix (L.Idx τ) (L.Idx σ) ℝ => A ((L.enum τ).symm ⟨r - off, h.2⟩)) J)
  else m r

/-- `J ? (m.middleRows(off, dim τ) = *J, 0) : 0`. -/
def Rows.writeIf {σ : L.Ty} (m : Rows L σ) (off : ℕ) {τ : L.Ty} :
    Option (OMat (L.Idx τ) (L.Idx σ)) → Rows L σ
  | some J => m.write off J
  | none => m

/-- `m.middleRows(off, n).setZero()` (also `topRows(n)` with `off = 0`). -/
def Rows.setZero {σ : L.Ty} (m : Rows L σ) (off n : ℕ) : Rows L σ := fun r =>
  if off ≤ r ∧ r < off + n then some (some 0) else m r

/-- A fresh fixed-size or resized matrix: nothing written. -/
def Rows.fresh {σ : L.Ty} : Rows L σ := fun _ => none

/-- The body of `combineChildJacobians` in the static evaluator (JacobianEvaluator.hpp:291-302): `k`
is the position *in the filtered list of children*, which is also used as the row-block number.
`none`: the compiler rejects `rowsWrt<k>() = ...` because the sizes differ or `k` is out of range. -/
def combineStatic (sizes : List ℕ) (t : Target L) :
    ℕ → List ((τ : L.Ty) × ETree L τ) → Rows L t.ty → Option (Rows L t.ty)
  | _, [], m => some m
  | k, v :: vs, m =>
    match blockRange sizes k with
    | none => none
    | some (off, n) =>
      if n = L.dim v.1 then
        combineStatic sizes t (k + 1) vs
          (m.writeIf off (v.2.fwd t))
      else none

/-- `JacobianEvaluator` of an n-ary expression (JacobianEvaluator.hpp:251-329) followed by
`evaluateOneJacobian` (333-343).  Children are created only for the elements in which the target's
type occurs.  Outer `none` is a compile error: `contains_same_type` must be defined for every
element (it is not for proxies), each child evaluator must exist.  With no children the result is
`boost::none`, returned as the zero matrix (`N == 0` still instantiates an empty array, accepted as
a compiler extension). -/
def Compound.jacobianStatic (s : Store L) (t : Target L) (c : Compound L) :
    Option (Rows L t.ty) :=
  if c.all fun e => e.2.noProxy then
    let kids := filterTypes (fun e : Elem L => e.2.hasType t) c
    if kids.all fun e => e.2.fwdCompiles t then
      if kids.isEmpty then some (Rows.fresh.setZero 0 (compoundSize c.sizes))
      else combineStatic c.sizes t 0 (Compound.evaluators s kids)
        (Rows.fresh.setZero 0 (compoundSize c.sizes))
    else none
  else none

/-- `UniqueLeaves` of a compound (NaryStorage.hpp:125-126); `none` is a compile error. -/
def Compound.uniqueList : Compound L → Option (Option (List (L.Ty × ℕ)))
  | [] => none
  | e :: es => concatMany e.2.uniqueList (es.map fun e => e.2.uniqueList)

/-- `compound.jacobian(x)` (ExpressionBase.hpp:55-60 → TypedJacobianEvaluator.hpp:310-328).  With
unique leaf types the type-based evaluator is selected, which has no n-ary version and asks for
`contains_same_type` of a compound, which is not defined: a compile error. -/
def Compound.jacobianAuto (s : Store L) (t : Target L) (c : Compound L) :
    Option (Rows L t.ty) :=
  match c.uniqueList with
  | none => none
  | some (some _) => none
  | some none => c.jacobianStatic s t

/-- `compound.evalWithJacobians(x...)` (ExpressionBase.hpp:74-78 → TypedJacobianEvaluator.hpp:333-352):
for a compound only the address-based version (JacobianEvaluator.hpp:365-374) can compile. -/
def Compound.evalWithJacobians (s : Store L) (c : Compound L) (ts : List (Target L)) :
    Option (CVal L × List ((σ : L.Ty) × Rows L σ)) :=
  match c.uniqueList with
  | some none =>
    match ts.mapM fun t => (c.jacobianStatic s t).map fun J => (⟨t.ty, J⟩ : (σ : L.Ty) × Rows L σ)
    with
    | some Js => some (c.eval s, Js)
    | none => none
  | _ => none

/-- State of the loop in the dynamic `combineChildJacobians`: `jac` (`none` is the size-0 matrix)
and `row_reached`. -/
structure DynRows (L : Lib) (σ : L.Ty) where
  jac : Option (Rows L σ)
  rowReached : ℕ

/-- One iteration of the loop (DynamicJacobianEvaluator.hpp:207-224) on a matrix that has, or will be
given, `total` rows.  `none`: a block outside the matrix (Eigen's assertion). -/
def DynRows.step (total t : ℕ) (σ : L.Ty) (st : DynRows L σ) (v : (τ : L.Ty) × ETree L τ) :
    Option (DynRows L σ) :=
  match v.2.dyn t σ, st.jac with
  | some J, none =>
    -- resize to (total, cols), zero the rows above, then write
    if st.rowReached + L.dim v.1 ≤ total then
      some ⟨some ((Rows.fresh.setZero 0 st.rowReached).write st.rowReached J),
        st.rowReached + L.dim v.1⟩
    else none
  | some J, some m =>
    if st.rowReached + L.dim v.1 ≤ total then
      some ⟨some (m.write st.rowReached J), st.rowReached + L.dim v.1⟩
    else none
  | none, some m =>
    if st.rowReached + L.dim v.1 ≤ total then
      some ⟨some (m.setZero st.rowReached (L.dim v.1)), st.rowReached + L.dim v.1⟩
    else none
  | none, none => some ⟨none, st.rowReached + L.dim v.1⟩

/-- `evaluateDynamicJacobian` of a compound (DynamicJacobianEvaluator.hpp:173-248, 262-290); the
size-0 result becomes the zero matrix.  `none`: a failed assertion. -/
def Compound.dynJacobian (s : Store L) (t : ℕ) (σ : L.Ty) (c : Compound L) : Option (Rows L σ) :=
  let total := compoundSize c.sizes
  match (c.evaluators s).foldlM (DynRows.step total t σ) ⟨none, 0⟩ with
  | none => none
  | some ⟨some m, _⟩ => some m
  | some ⟨none, _⟩ => some (Rows.fresh.setZero 0 total)

/-! ## `valueAsVector` of a compound (NaryStorage.hpp:167-199) -/

/-- `Eigen::CommaInitializer` on a column vector of `n` rows: the coefficients written so far, the
row at which the current block starts and its height.  (The column position is always at the end,
so every item starts a new block.) -/
structure CommaInit where
  n : ℕ
  buf : ℕ → Option (Option ℝ)
  row : ℕ
  height : ℕ

/-- `vec << EmptyVec{}`: NaryStorage.hpp:179. -/
def CommaInit.start (n : ℕ) : CommaInit := ⟨n, fun _ => none, 0, 0⟩

/-- `comma_init, item`: move below the current block, check the bounds, copy.  `none`: Eigen's
assertion fails. -/
def CommaInit.push (ci : CommaInit) (h : ℕ) (item : ℕ → Option ℝ) : Option CommaInit :=
  if ci.row + ci.height + h ≤ ci.n then
    some ⟨ci.n, fun r =>
      if ci.row + ci.height ≤ r ∧ r < ci.row + ci.height + h then
        some (item (r - (ci.row + ci.height))) else ci.buf r, ci.row + ci.height, h⟩
  else none

/-- `comma_init.finished()`: `none` if the vector was not filled completely (Eigen's assertion). -/
def CommaInit.finished (ci : CommaInit) : Option (ℕ → Option (Option ℝ)) :=
  if ci.row + ci.height = ci.n then some ci.buf else none

/-- Coefficients of the value of one tangent element, by position. -/
def itemOf {τ : L.Ty} (v : Option (L.Idx τ → ℝ)) (k : ℕ) : Option ℝ :=
  if h : k < L.dim τ then v.map fun f => f ((L.enum τ).symm ⟨k, h⟩) else none

/-- `naryValueAsVectorExpand`: NaryStorage.hpp:168-187. -/
def valueAsVector (d : TVal L) : Option (ℕ → Option (Option ℝ)) :=
  (d.foldlM (fun ci x => CommaInit.push ci (L.dim x.1) (itemOf x.2))
    (CommaInit.start (compoundSize (d.map fun x => L.dim x.1)))).bind CommaInit.finished

/-! ## Box operators on compounds (geometry/base/CompoundBase.hpp) -/

/-- `eval(lhs.get<I>() - rhs.get<I>())` for one element; the outer `none`: the element types do not
match (rejected).  Simplification: operands of different classes with a common tangent (e.g. matrix
minus quaternion rotation) are also rejected here. -/
def elemMinus (x y : (τ : L.Ty) × Option (L.Val τ)) :
    Option ((τ : L.Ty) × Option (L.Idx τ → ℝ)) :=
  if h : y.1 = x.1 then
    some ⟨x.1, x.2.bind fun a => (h ▸ y.2 : Option (L.Val x.1)).bind fun b => L.boxMinus x.1 a b⟩
  else none

/-- `eval(lhs.get<I>() + rhs.get<I>())` for one element. -/
def elemPlus (x : (τ : L.Ty) × Option (L.Val τ)) (d : (τ : L.Ty) × Option (L.Idx τ → ℝ)) :
    Option ((τ : L.Ty) × Option (L.Val τ)) :=
  if h : d.1 = x.1 then
    some ⟨x.1, x.2.bind fun a =>
      (h ▸ d.2 : Option (L.Idx x.1 → ℝ)).bind fun b => L.boxPlus x.1 a b⟩
  else none

/-- `f(lhs.get<Is>(), rhs.get<Is>())...` with `Is` running over the elements of `lhs`
(CompoundBase.hpp:78-108): `none` when `rhs` has too few elements; extra elements of `rhs` are
ignored. -/
def expandBin {α β γ : Type} (f : α → β → Option γ) : List α → List β → Option (List γ)
  | [], _ => some []
  | _ :: _, [] => none
  | x :: xs, y :: ys =>
    match f x y, expandBin f xs ys with
    | some z, some zs => some (z :: zs)
    | _, _ => none

/-- `a - b` on compounds: CompoundBase.hpp:51-55, 78-92. -/
def compoundMinus (a b : CVal L) : Option (TVal L) := expandBin elemMinus a b

/-- `c + d` on compounds: CompoundBase.hpp:64-68, 94-108. -/
def compoundPlus (c : CVal L) (d : TVal L) : Option (CVal L) := expandBin elemPlus c d

end WG
