import Verif.Model.Ops

/-!
# Constructing leaves from Eigen objects

Which constructor of a leaf class an expression `Leaf{a, b, ...}` with Eigen arguments selects, and
what that constructor does.  Overload resolution is modelled as far as these constructors need it:
implicit conversions of an argument to a parameter are either exact or derived-to-base, and on equal
conversions a constructor template with `const Base<T> &` parameters is more specialised than a
forwarding one.

Simplified: the argument's class is represented by its size and its coefficients (dynamic sizes and
other scalar types are left out); Eigen's copies, quaternion and angle-axis conversions are those of
`Model/Quat.lean`; the copy and move constructors are not listed, since an Eigen object reaches them
only through a user-defined conversion, which is worse than any constructor below; the constructors
taking other expressions of the library are in `Model/Assign.lean` and `Model/Ops.lean`.
-/

namespace WG
open Matrix

/-- How the argument is written: as an object of its own class (`Eigen::Quaterniond`,
`Eigen::Matrix3d`, a product, ...) or as a `const` reference to its Eigen base class
(`Eigen::RotationBase<D, 3>`, `Eigen::MatrixBase<D>`). -/
inductive Through | cls | base
  deriving DecidableEq

/-- The Eigen rotation objects, classes derived from `Eigen::RotationBase<D, 3>`. -/
inductive RotObj
  | quat (q : Quat)
  | aa (a : AngleAxis)

/-- An Eigen matrix object or expression of fixed size; `coeff` is read inside the size only. -/
structure MatObj where
  rows : ℕ
  cols : ℕ
  coeff : ℕ → ℕ → ℝ

/-- Arguments of the constructors. -/
inductive EArg
  | rot (s : Through) (r : RotObj)
  | mat (s : Through) (A : MatObj)
  | num (x : ℝ)

/-- The leaf classes with constructors from Eigen objects (geometry/leaf/*.hpp). -/
inductive LCls
  | rot (k : RotK) | relrot | trans | point | twist | rigid (k : RigK)
  deriving DecidableEq

/-- The class as an evaluated type. -/
@[reducible] def LCls.ty : LCls → Ty
  | .rot k => .rot k
  | .relrot => .vec .relrot
  | .trans => .vec .trans
  | .point => .point
  | .twist => .vec .twist
  | .rigid k => .rigid k

/-- Parameter types: `const Eigen::RotationBase<D, 3> &`, `const Eigen::MatrixBase<D> &`, `Scalar`
and `Args &&`. -/
inductive Param | rotBase | matBase | scalar | forward
  deriving DecidableEq

/-- The conversion of an argument to a parameter: 0 identity, 1 derived-to-base, none impossible
([over.best.ics]). -/
def Param.rank : Param → EArg → Option ℕ
  | .rotBase, .rot .cls _ => some 1
  | .rotBase, .rot .base _ => some 0
  | .matBase, .mat .cls _ => some 1
  | .matBase, .mat .base _ => some 0
  | .scalar, .num _ => some 0
  | .forward, _ => some 0
  | _, _ => none

/-- The constructors by their parameter lists. -/
inductive Ctor | ofMat | ofRot | ofXYZ | ofMatMat | ofRotMat | inherited
  deriving DecidableEq

/-- Parameter lists: QuaternionRotation.hpp:38-47, MatrixRotation.hpp:37-46,
AngleAxisRotation.hpp:38-47, RelativeRotation.hpp:52-59, Translation.hpp:35-42, Point.hpp:35-42,
Twist.hpp:45-58, MatrixRigidTransform.hpp:55-77, CompactRigidTransform.hpp:48-63; `inherited` is the
variadic CompoundLeafStorage.hpp:38-46 with two arguments. -/
def Ctor.params : Ctor → List Param
  | .ofMat => [.matBase]
  | .ofRot => [.rotBase]
  | .ofXYZ => [.scalar, .scalar, .scalar]
  | .ofMatMat => [.matBase, .matBase]
  | .ofRotMat => [.rotBase, .matBase]
  | .inherited => [.forward, .forward]

/-- The constructors of each class that take Eigen objects or numbers (same places). -/
def LCls.ctors : LCls → List Ctor
  | .rot _ => [.ofMat, .ofRot]
  | .relrot => [.ofMat, .ofXYZ]
  | .trans => [.ofMat, .ofXYZ]
  | .point => [.ofMat, .ofXYZ]
  | .twist => [.ofMat, .ofMatMat]
  | .rigid .mat => [.ofMatMat, .ofRotMat, .ofMat]
  | .rigid .compact => [.inherited, .ofMatMat, .ofRotMat]

/-- Conversions of all arguments; none if their number or one of them does not fit. -/
def ranks : List Param → List EArg → Option (List ℕ)
  | [], [] => some []
  | p :: ps, a :: as => do
    let r ← p.rank a
    let rs ← ranks ps as
    some (r :: rs)
  | _, _ => none

/-- `TICK_REQUIRES(is_eigen_matrix<N, M>{})` of the constructors from one matrix:
QuaternionRotation.hpp:39, MatrixRotation.hpp:38, AngleAxisRotation.hpp:39 (`N = 3`),
MatrixRigidTransform.hpp:72 (`N = 4`); type_traits.hpp:28-31. -/
def Ctor.requires1 : LCls → Ctor → List EArg → Bool
  | .rot _, .ofMat, [.mat _ A] => A.rows == 3 && A.cols == 3
  | .rigid .mat, .ofMat, [.mat _ A] => A.rows == 4 && A.cols == 4
  | _, _, _ => true

/-- `std::is_constructible<Leaf, Arg>` for a class without forwarding constructors. -/
def constructible (τ : LCls) (a : EArg) : Bool :=
  τ.ctors.any fun c => (ranks c.params [a]).isSome && c.requires1 τ [a]

/-- All requirements, with `is_constructible<Primitives, Args>...` of CompoundLeafStorage.hpp:39-44
for the primitives of CompactRigidTransform.hpp:22-24. -/
def Ctor.requires (τ : LCls) (c : Ctor) (args : List EArg) : Bool :=
  match c, args with
  | .inherited, [a, b] => constructible (.rot .quat) a && constructible .trans b
  | _, _ => c.requires1 τ args

/-- The viable constructors. -/
def viable (τ : LCls) (args : List EArg) : List Ctor :=
  τ.ctors.filter fun c => (ranks c.params args).isSome && c.requires τ args

/-- A template with `const Base<T> &` parameters is more specialised than a forwarding one
([temp.func.order]). -/
def Ctor.moreSpecial (c d : Ctor) : Bool :=
  d.params.all (· == .forward) && !c.params.all (· == .forward)

/-- `c` is a better match than `d`: no conversion worse, and one better or `c` more specialised
([over.match.best]). -/
def Ctor.better (args : List EArg) (c d : Ctor) : Bool :=
  match ranks c.params args, ranks d.params args with
  | some r, some s =>
    (List.zipWith (fun x y : ℕ => decide (x ≤ y)) r s).all id &&
      ((List.zipWith (fun x y : ℕ => decide (x < y)) r s).any id || c.moreSpecial d)
  | _, _ => false

/-- Result of overload resolution. -/
inductive Choice | none | many | one (c : Ctor)

/-- Overload resolution: the viable constructor better than every other one. -/
def choose (τ : LCls) (args : List EArg) : Choice :=
  match viable τ args with
  | [] => .none
  | v :: vs =>
    match (v :: vs).filter fun c => (v :: vs).all fun d => d == c || c.better args d with
    | [c] => .one c
    | _ => .many

/-! ## Eigen's comma initialiser -/

/-- State of `Eigen::CommaInitializer`: position, rows of the current band, coefficients written. -/
structure Comma where
  row : ℕ
  col : ℕ
  band : ℕ
  mem : ℕ → ℕ → Option ℝ

/-- Assignment to `block(r, c, A.rows(), A.cols())`. -/
def putBlock (r c : ℕ) (A : MatObj) (mem : ℕ → ℕ → Option ℝ) : ℕ → ℕ → Option ℝ := fun i j =>
  if r ≤ i ∧ i < r + A.rows ∧ c ≤ j ∧ j < c + A.cols then some (A.coeff (i - r) (j - c)) else mem i j

/-- `xpr << A` for an `R x C` destination: `block(0, 0, A.rows(), A.cols())` asserts its range. -/
def commaStart (R C : ℕ) (A : MatObj) : Option Comma :=
  if A.rows ≤ R ∧ A.cols ≤ C then some ⟨0, A.cols, A.rows, putBlock 0 0 A fun _ _ => none⟩ else none

/-- `, A`: goes to the next band when the current one is full; asserts ranges and band height. -/
def commaNext (R C : ℕ) (s : Comma) (A : MatObj) : Option Comma :=
  let s : Comma := if s.col = C ∧ (A.cols ≠ 0 ∨ A.rows ≠ s.band) then
    ⟨s.row + s.band, 0, A.rows, s.mem⟩ else s
  if s.row + s.band ≤ R ∧ s.col + A.cols ≤ C ∧ s.band = A.rows then
    some ⟨s.row, s.col + A.cols, s.band, putBlock s.row s.col A s.mem⟩
  else none

/-- `xpr << A, B, ...;` with the destructor's assertion that the destination is full; none is a
failed assertion, i.e. undefined behaviour when assertions are off. -/
def commaInit (R C : ℕ) : List MatObj → Option (ℕ → ℕ → Option ℝ)
  | [] => none
  | A :: l => do
    let s ← commaStart R C A
    let s ← l.foldlM (commaNext R C) s
    if (s.row + s.band = R ∨ C = 0) ∧ s.col = C then some s.mem else none

/-- Writes made to an `R x C` block at `(r, c)` of a larger matrix. -/
def pasteAt (r c R C : ℕ) (w mem : ℕ → ℕ → Option ℝ) : ℕ → ℕ → Option ℝ := fun i j =>
  if r ≤ i ∧ i < r + R ∧ c ≤ j ∧ j < c + C then (w (i - r) (j - c)).orElse fun _ => mem i j
  else mem i j

/-! ## The constructors' bodies -/

/-- Outcome of constructing a leaf: a value; no viable constructor; an ambiguous call; a failed
static assertion; undefined behaviour (failed run-time assertion); a value that is not a number. -/
inductive Made (α : Type)
  | made (v : α) | noMatch | ambiguous | rejected | undefined | nan

/-- One constructor: an outcome, or a delegation to the constructor selected by other arguments. -/
inductive CtorStep (α : Type)
  | done (o : Made α)
  | delegate (args : List EArg)

/-- A number or NaN. -/
def Made.ofOption {α : Type} : Option α → Made α
  | some v => .made v
  | none => .nan

/-- A number as a 1x1 block. -/
def MatObj.one (x : ℝ) : MatObj := ⟨1, 1, fun _ _ => x⟩

/-- A 3x3 matrix object as a matrix. -/
def MatObj.m3 (A : MatObj) : M3 := Matrix.of fun i j => A.coeff i j
/-- A matrix as a concrete object. -/
def MatObj.ofM3 (R : M3) : MatObj :=
  ⟨3, 3, fun i j => if h : i < 3 ∧ j < 3 then R ⟨i, h.1⟩ ⟨j, h.2⟩ else 0⟩

/-- `EIGEN_STATIC_ASSERT_VECTOR_SPECIFIC_SIZE`: a row or a column of `n` coefficients. -/
def MatObj.isVector (n : ℕ) (A : MatObj) : Prop := (A.rows = 1 ∨ A.cols = 1) ∧ A.rows * A.cols = n

instance (n : ℕ) (A : MatObj) : Decidable (A.isVector n) := by unfold MatObj.isVector; infer_instance

/-- Initialising an Eigen column vector from a matrix object: a row is transposed, any other size is
rejected by Eigen's static assertions. -/
def MatObj.column (n : ℕ) (A : MatObj) : Option (Fin n → ℝ) :=
  if A.rows = n ∧ A.cols = 1 then some fun i => A.coeff i 0
  else if A.rows = 1 ∧ A.cols = n then some fun i => A.coeff 0 i
  else none

/-- `Eigen::RotationBase::toRotationMatrix`. -/
noncomputable def RotObj.matrix : RotObj → M3
  | .quat q => q.toMatrix
  | .aa a => a.toMatrix

/-- `Eigen::Quaternion(const AngleAxis &)`. -/
noncomputable def Quat.ofAngleAxis (a : AngleAxis) : Quat :=
  Quat.ofVec (Real.cos (a.angle / 2)) (Real.sin (a.angle / 2) • a.axis)

/-- The storage of a rotation leaf from a 3x3 matrix: QuaternionRotation.hpp:41,
MatrixRotation.hpp:40, AngleAxisRotation.hpp:41. -/
noncomputable def RotK.ofMat : (k : RotK) → M3 → Option k.Val
  | .quat, m => Quat.ofMatrix m
  | .mat, m => some m
  | .aa, m => AngleAxis.ofMatrix m

/-- The storage of a rotation leaf from an Eigen rotation: QuaternionRotation.hpp:46-47,
MatrixRotation.hpp:45-46, AngleAxisRotation.hpp:46-47. -/
noncomputable def RotK.ofRot : (k : RotK) → RotObj → k.Val
  | .quat, .quat q => q
  | .quat, .aa a => Quat.ofAngleAxis a
  | .mat, r => r.matrix
  | .aa, .quat q => AngleAxis.ofQuat q
  | .aa, .aa a => a

/-- The body of a constructor of a three-vector leaf: RelativeRotation.hpp:52-59,
Translation.hpp:35-42, Point.hpp:35-42. -/
def vec3Body : Ctor → List EArg → Made V3
  | .ofMat, [.mat _ A] =>
    match A.column 3 with
    | some v => .made v
    | none => .rejected
  | .ofXYZ, [.num x, .num y, .num z] => .made ![x, y, z]
  | _, _ => .noMatch

/-- The first three and the last three coefficients of a 6-vector. -/
def splitSix {α : Type} (f : ℕ → α) : Fin 3 ⊕ Fin 3 → α
  | .inl i => f i
  | .inr i => f (3 + i)

/-- The body of a constructor of `Twist`: Twist.hpp:45-58. -/
def twistBody : Ctor → List EArg → Made (Fin 3 ⊕ Fin 3 → ℝ)
  | .ofMat, [.mat _ A] =>
    match A.column 6 with
    | some v => .made (splitSix fun i => if h : i < 6 then v ⟨i, h⟩ else 0)
    | none => .rejected
  | .ofMatMat, [.mat _ A, .mat _ B] =>
    if A.isVector 3 ∧ B.isVector 3 then
      match commaInit 6 1 [A, B] with
      | some w =>
        if ∀ i, (splitSix (fun i => w i 0) i).isSome then
          .made fun i => (splitSix (fun i => w i 0) i).getD 0
        else .undefined
      | none => .undefined
    else .rejected
  | _, _ => .noMatch

/-- Constructing the rotation of a compact transform from one argument. -/
noncomputable def quatFrom : EArg → Made Quat
  | .mat _ A => if A.rows = 3 ∧ A.cols = 3 then .ofOption (RotK.ofMat .quat A.m3) else .noMatch
  | .rot _ r => .made (RotK.ofRot .quat r)
  | .num _ => .noMatch

/-- `storage_{storage_t<Primitives>{std::forward<Args>(args)}...}`: CompoundLeafStorage.hpp:46, with
the primitives `QuaternionRotation` and `Translation`. -/
noncomputable def compactStorage (a b : EArg) : Made QuatTrans :=
  match vec3Body .ofMat [b] with
  | .made t =>
    match quatFrom a with
    | .made q => .made ⟨q, t⟩
    | .nan => .nan
    | _ => .noMatch
  | .rejected => .rejected
  | _ => .noMatch

/-- Reading a 4x4 matrix; none if a coefficient was never written. -/
def readM4 (mem : ℕ → ℕ → Option ℝ) : Option M4 :=
  if ∀ i j : Fin 4, (mem i j).isSome then some (Matrix.of fun i j => (mem i j).getD 0) else none

/-- `MatrixRigidTransform()` fills the last row (MatrixRigidTransform.hpp:38-41); then
`rotationBlock().value() << R; translationBlock().value() << t;` (same file, lines 61-62). -/
def matrixRigidBody (R t : MatObj) : Option M4 := do
  let w0 ← commaInit 1 4 [MatObj.one 0, MatObj.one 0, MatObj.one 0, MatObj.one 1]
  let w1 ← commaInit 3 3 [R]
  let w2 ← commaInit 3 1 [t]
  readM4 (pasteAt 0 3 3 1 w2 (pasteAt 0 0 3 3 w1 (pasteAt 3 0 1 4 w0 fun _ _ => none)))

/-- The body of a constructor. -/
noncomputable def Ctor.body : (τ : LCls) → Ctor → List EArg → CtorStep τ.ty.Val
  | .rot k, .ofMat, [.mat _ A] => .done (.ofOption (k.ofMat A.m3))
  | .rot k, .ofRot, [.rot _ r] => .done (.made (k.ofRot r))
  | .relrot, c, args => .done (vec3Body c args)
  | .trans, c, args => .done (vec3Body c args)
  | .point, c, args => .done (vec3Body c args)
  | .twist, c, args => .done (twistBody c args)
  -- MatrixRigidTransform.hpp:71-76
  | .rigid .mat, .ofMat, [.mat _ A] => .done (.made (Matrix.of fun i j : Fin 4 => A.coeff i j))
  -- MatrixRigidTransform.hpp:55-64
  | .rigid .mat, .ofMatMat, [.mat _ A, .mat _ B] => .done <|
    if (A.rows = 3 ∧ A.cols = 3) ∧ B.isVector 3 then
      match matrixRigidBody A B with
      | some m => .made m
      | none => .undefined
    else .rejected
  -- MatrixRigidTransform.hpp:67-70: `MatrixRigidTransform{q.toRotationMatrix(), t}`
  | .rigid .mat, .ofRotMat, [.rot _ r, .mat _ B] =>
    .delegate [.mat .cls (.ofM3 r.matrix), .mat .base B]
  -- CompoundLeafStorage.hpp:45-46
  | .rigid .compact, .inherited, [a, b] => .done (compactStorage a b)
  -- CompactRigidTransform.hpp:48-55: `Storage{QuatType{R.derived()}, t.derived()}`
  | .rigid .compact, .ofMatMat, [.mat _ A, .mat _ B] => .done <|
    if (A.rows = 3 ∧ A.cols = 3) ∧ B.isVector 3 then
      match Quat.ofMatrix A.m3 with
      | some q => compactStorage (.rot .cls (.quat q)) (.mat .cls B)
      | none => .nan
    else .rejected
  -- CompactRigidTransform.hpp:57-63: `CompactRigidTransform{q, t}`, where `q` and `t` are the
  -- `const` references to base classes the constructor received
  | .rigid .compact, .ofRotMat, [.rot _ r, .mat _ B] =>
    if B.isVector 3 then .delegate [.rot .base r, .mat .base B] else .done .rejected
  | _, _, _ => .done .noMatch

/-- `Leaf{args...}`, following at most `n` constructors; none if that is not enough. -/
noncomputable def constructLeaf (τ : LCls) : ℕ → List EArg → Option (Made τ.ty.Val)
  | 0, _ => none
  | n + 1, args =>
    match choose τ args with
    | .none => some .noMatch
    | .many => some .ambiguous
    | .one c =>
      match c.body τ args with
      | .done o => some o
      | .delegate args' => constructLeaf τ n args'

/-- The outcome of `Leaf{args...}`. -/
def Builds (τ : LCls) (args : List EArg) (o : Made τ.ty.Val) : Prop := ∃ n, constructLeaf τ n args = some o

/-- The constructors delegate to each other without end. -/
def Endless (τ : LCls) (args : List EArg) : Prop := ∀ n, constructLeaf τ n args = none

/-- `RelativeRotation::FromAngleAndAxis(angle, axis)`: RelativeRotation.hpp:61-82, for a column. -/
noncomputable def fromAngleAndAxis (angle : ℝ) (axis : V3) : V3 := angle • vNormalize axis

end WG
