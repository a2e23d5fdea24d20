import Verif.Model.Surface

/-!
# Construction of and assignment to leaf objects, one coefficient at a time

`core/storage/LeafStorage.hpp:35-53`, `core/op/MemberAccess.hpp:52-101`,
`geometry/leaf/MatrixRigidTransform.hpp:34-106`, `geometry/leaf/CompactRigidTransform.hpp:34-88`.

Memory is written one coefficient at a time, as Eigen's assignment loops do, so that an assignment
that read its operand while writing would be visible.  Simplifications: real arithmetic, and an
operation whose value is not finite stops the history (`none`) instead of storing NaN.
-/

namespace WG
open Matrix

/-- Positions of the coefficients of a stored object (Eigen `coeffRef`): quaternion, matrix,
angle and axis, 4x4 matrix, quaternion and translation. -/
@[reducible] def Ty.Coef : Ty → Type
  | .vec k => k.Idx
  | .point => Fin 3
  | .rot .quat => Fin 4
  | .rot .mat => Fin 3 × Fin 3
  | .rot .aa => Option (Fin 3)
  | .rigid .mat => Fin 4 × Fin 4
  | .rigid .compact => Fin 4 ⊕ Fin 3

instance Ty.Coef.instDecidableEq : (τ : Ty) → DecidableEq τ.Coef
  | .vec k => inferInstanceAs (DecidableEq k.Idx)
  | .point => inferInstanceAs (DecidableEq (Fin 3))
  | .rot .quat => inferInstanceAs (DecidableEq (Fin 4))
  | .rot .mat => inferInstanceAs (DecidableEq (Fin 3 × Fin 3))
  | .rot .aa => inferInstanceAs (DecidableEq (Option (Fin 3)))
  | .rigid .mat => inferInstanceAs (DecidableEq (Fin 4 × Fin 4))
  | .rigid .compact => inferInstanceAs (DecidableEq (Fin 4 ⊕ Fin 3))

/-- Coefficients of a quaternion, by position. -/
def Quat.get (q : Quat) : Fin 4 → ℝ := ![q.w, q.x, q.y, q.z]
/-- Quaternion with the given coefficients. -/
def Quat.ofFun (f : Fin 4 → ℝ) : Quat := ⟨f 0, f 1, f 2, f 3⟩

/-- Read one coefficient of a stored object. -/
def Ty.get : (τ : Ty) → τ.Val → τ.Coef → ℝ
  | .vec _, v => v
  | .point, v => v
  | .rot .quat, q => Quat.get q
  | .rot .mat, m => fun p => m p.1 p.2
  | .rot .aa, a => fun o => o.elim a.angle a.axis
  | .rigid .mat, m => fun p => m p.1 p.2
  | .rigid .compact, x => Sum.elim (Quat.get x.q) x.t

/-- The object with the given coefficients. -/
def Ty.ofFun : (τ : Ty) → (τ.Coef → ℝ) → τ.Val
  | .vec _, f => f
  | .point, f => f
  | .rot .quat, f => Quat.ofFun f
  | .rot .mat, f => Matrix.of fun i j => f (i, j)
  | .rot .aa, f => ⟨f none, fun i => f (some i)⟩
  | .rigid .mat, f => Matrix.of fun i j => f (i, j)
  | .rigid .compact, f => ⟨Quat.ofFun fun i => f (.inl i), fun i => f (.inr i)⟩

/-- Positions of a 3x3 block, column by column (Eigen's default storage order). -/
def pos33 : List (Fin 3 × Fin 3) :=
  (List.finRange 3).flatMap fun j => (List.finRange 3).map fun i => (i, j)

/-- All positions of an object, in the order in which they are written. -/
def Ty.coefs : (τ : Ty) → List τ.Coef
  | .vec .scalar => List.finRange 1
  | .vec .trans => List.finRange 3
  | .vec .relrot => List.finRange 3
  | .vec .twist => (List.finRange 3).map .inl ++ (List.finRange 3).map .inr
  | .point => List.finRange 3
  | .rot .quat => List.finRange 4
  | .rot .mat => pos33
  | .rot .aa => none :: (List.finRange 3).map some
  | .rigid .mat => (List.finRange 4).flatMap fun j => (List.finRange 4).map fun i => (i, j)
  | .rigid .compact => (List.finRange 4).map .inl ++ (List.finRange 3).map .inr

/-- Positions of `topLeftCorner<3, 3>()` in the 4x4 matrix (MatrixRigidTransform.hpp:84-93) or of the
quaternion in the tuple (CompactRigidTransform.hpp:71-78), paired with the positions of the source. -/
def RigK.rotCoefs : (k : RigK) → List ((Ty.rigid k).Coef × (Ty.rot k.rotK).Coef)
  | .mat => pos33.map fun p => ((p.1.castLE (by decide), p.2.castLE (by decide)), p)
  | .compact => (List.finRange 4).map fun i => (.inl i, i)

/-- Positions of `topRightCorner<3, 1>()` (MatrixRigidTransform.hpp:97-106) or of the translation in
the tuple (CompactRigidTransform.hpp:81-88), paired with the positions of the source. -/
def RigK.transCoefs : (k : RigK) → List ((Ty.rigid k).Coef × (Ty.vec .trans).Coef)
  | .mat => (List.finRange 3).map fun i => ((i.castLE (by decide), 3), i)
  | .compact => (List.finRange 3).map fun i => (.inr i, i)

variable {ε : ℝ}

/-- Memory, as read by `SExpr.value`. -/
abbrev Mem := ℕ → (τ : Ty) → τ.Val

/-- Write one coefficient of the object of class `τ` at address `a`. -/
def Mem.put (s : Mem) (a : ℕ) (τ : Ty) (c : τ.Coef) (x : ℝ) : Mem := fun b σ =>
  if h : b = a ∧ τ = σ then h.2 ▸ τ.ofFun (Function.update (τ.get (s a τ)) c x) else s b σ

/-- Coefficient-wise assignment: for each pair (position written, position read) in turn, read the
source in the memory as it is at that moment, and write. -/
def copyLoop {κ : Type} (a : ℕ) (τ : Ty) (src : Mem → κ → ℝ) :
    List (τ.Coef × κ) → Mem → Mem
  | [], s => s
  | p :: ps, s => copyLoop a τ src ps (s.put a τ p.1 (src s p.2))

/-- `evaluateTo<T>(e)`: PrepareOutput.hpp:92-99; the result is an object of its own, and returned by
value. -/
noncomputable def evaluateTo (ε : ℝ) (s : Mem) (τ : Ty) (e : SExpr) : Option τ.Val :=
  ((SExpr.un (.to τ) e).value ε s).bind fun r => if h : r.1 = τ then some (h ▸ r.2) else none

/-- Is the operand a leaf object of exactly class `τ`?  Then the defaulted copy assignment is chosen
by overload resolution (LeafStorage.hpp:32, CompoundLeafStorage.hpp:35) instead of the template. -/
def SExpr.isLeafOf (τ : Ty) : SExpr → Option ℕ
  | .leaf b _ σ => if σ = τ then some b else none
  | _ => none

/-- `x = e` for a leaf object `x` of class `τ` at address `a`.  From a leaf of the same class:
defaulted copy assignment, reading the source object in place.  Otherwise LeafStorage.hpp:46-53:
`storage = evaluateTo<plain_output_t<Derived>>(rhs).value()`.  A compact rigid transform has no
usable assignment from an expression (the template of CompoundLeafStorage.hpp:63-70 has a parameter
that cannot be deduced): a compile error. -/
noncomputable def assignLeaf (ε : ℝ) (a : ℕ) (τ : Ty) (e : SExpr) (s : Mem) : Option Mem :=
  match e.isLeafOf τ with
  | some b => some (copyLoop a τ (fun s c => τ.get (s b τ) c) (τ.coefs.map fun c => (c, c)) s)
  | none =>
    if τ = .rigid .compact then none else
    (evaluateTo ε s τ e).map fun tmp =>
      copyLoop a τ (fun _ c => τ.get tmp c) (τ.coefs.map fun c => (c, c)) s

/-- Assignment to a block of a rigid transform, `Aux{}.get(leaf) = other`: the block is itself a
leaf object, LeafStorage.hpp:46-53.  For a compact transform the block is a `QuaternionRotation` or
`Translation` and a leaf of that class is copied directly. -/
noncomputable def assignBlock (ε : ℝ) (a : ℕ) (k : RigK) (σ : Ty)
    (pos : List ((Ty.rigid k).Coef × σ.Coef)) (e : SExpr) (s : Mem) : Option Mem :=
  match if k = .compact then e.isLeafOf σ else none with
  | some b => some (copyLoop a (.rigid k) (fun s c => σ.get (s b σ) c) pos s)
  | none => (evaluateTo ε s σ e).map fun tmp => copyLoop a (.rigid k) (fun _ c => σ.get tmp c) pos s

/-- `T.rotation() = e` / `T.translation() = e` through MemberAccess.hpp:52-101.  Unframed (52-76):
assign the operand to the block.  Framed (79-101): evaluate it first to `PlainEvalType`, then assign
the result. -/
noncomputable def assignMember (ε : ℝ) (framed : Bool) (a : ℕ) (k : RigK) (σ : Ty)
    (pos : List ((Ty.rigid k).Coef × σ.Coef)) (e : SExpr) (s : Mem) : Option Mem :=
  if framed then
    (evaluateTo ε s σ e).map fun tmp => copyLoop a (.rigid k) (fun _ c => σ.get tmp c) pos s
  else assignBlock ε a k σ pos e s

/-- The coefficients of the constant last row, in the order of the comma initialiser. -/
def lastRow : List ((Fin 4 × Fin 4) × ℝ) := [((3, 0), 0), ((3, 1), 0), ((3, 2), 0), ((3, 3), 1)]

/-- Default constructor of `MatrixRigidTransform` (MatrixRigidTransform.hpp:38-41): the storage holds
whatever was there (`garbage`), then the last row is filled. -/
def defaultRT (a : ℕ) (garbage : M4) (s : Mem) : Mem :=
  copyLoop a (.rigid .mat) (fun _ x => x) lastRow
    (copyLoop a (.rigid .mat) (fun _ c => (Ty.rigid .mat).get garbage c)
      ((Ty.rigid .mat).coefs.map fun c => (c, c)) s)

/-- A step of a history of leaf objects. -/
inductive Step
  /-- `T a;` for a class other than the matrix rigid transform, or with a value from Eigen -/
  | init (a : ℕ) (τ : Ty) (v : τ.Val)
  /-- `MatrixRigidTransform T;` MatrixRigidTransform.hpp:38-41 -/
  | ctorDefault (a : ℕ) (garbage : M4)
  /-- `MatrixRigidTransform T{R, t};` from expressions, 46-52 -/
  | ctorParts (a : ℕ) (garbage : M4) (R t : SExpr)
  /-- `MatrixRigidTransform T{R, t};` from Eigen matrices, 55-63 -/
  | ctorEigen (a : ℕ) (garbage : M4) (R : M3) (t : V3)
  /-- `MatrixRigidTransform T{q, t};` from an Eigen rotation, 66-69 -/
  | ctorRotation (a : ℕ) (garbage : M4) (q : Quat) (t : V3)
  /-- `MatrixRigidTransform T{m};` from an Eigen 4x4 matrix, 72-76 -/
  | ctorMatrix (a : ℕ) (m : M4)
  /-- construction of any leaf from an expression: LeafStorage.hpp:40-43,
  CompoundLeafStorage.hpp:58-61 -/
  | ctorExpr (a : ℕ) (τ : Ty) (e : SExpr)
  /-- `x = e` -/
  | assign (a : ℕ) (τ : Ty) (e : SExpr)
  /-- `T.rotation() = e` -/
  | assignRot (framed : Bool) (a : ℕ) (k : RigK) (e : SExpr)
  /-- `T.translation() = e` -/
  | assignTrans (framed : Bool) (a : ℕ) (k : RigK) (e : SExpr)

/-- Memory together with the objects constructed so far. -/
structure World where
  mem : Mem
  live : List (ℕ × Ty)

/-- The objects an expression reads. -/
def SExpr.reads : SExpr → List (ℕ × Ty)
  | .leaf a _ τ => [(a, τ)]
  | .un _ e => e.reads
  | .bin _ l r => l.reads ++ r.reads
  | .dynamic _ e => e.reads

/-- Every object read by `e` has been constructed; reading any other object is undefined. -/
def World.ok (w : World) (e : SExpr) : Prop := ∀ o ∈ e.reads, o ∈ w.live

instance (w : World) (e : SExpr) : Decidable (w.ok e) :=
  inferInstanceAs (Decidable (∀ o ∈ e.reads, o ∈ w.live))

/-- Construct a new object. -/
def World.new (w : World) (a : ℕ) (τ : Ty) (m : Option Mem) : Option World :=
  if (a, τ) ∈ w.live then none else m.map fun m => ⟨m, (a, τ) :: w.live⟩

/-- Modify an existing object. -/
def World.modify (w : World) (a : ℕ) (τ : Ty) (m : Option Mem) : Option World :=
  if (a, τ) ∈ w.live then m.map fun m => ⟨m, w.live⟩ else none

/-- Write all coefficients of an object from a value. -/
def storeAll (a : ℕ) (τ : Ty) (v : τ.Val) (s : Mem) : Mem :=
  copyLoop a τ (fun _ c => τ.get v c) (τ.coefs.map fun c => (c, c)) s

/-- Run one step.  `none`: compile error, undefined behaviour, or a value that is not finite. -/
noncomputable def Step.run (ε : ℝ) : Step → World → Option World
  | .init a τ v, w => if τ = .rigid .mat then none else w.new a τ (some (storeAll a τ v w.mem))
  | .ctorDefault a g, w => w.new a (.rigid .mat) (some (defaultRT a g w.mem))
  | .ctorParts a g R t, w =>
    if w.ok R ∧ w.ok t then
      w.new a (.rigid .mat)
        ((assignBlock ε a .mat (.rot .mat) RigK.mat.rotCoefs R (defaultRT a g w.mem)).bind
          (assignBlock ε a .mat (.vec .trans) RigK.mat.transCoefs t))
    else none
  | .ctorEigen a g R t, w =>
    w.new a (.rigid .mat) (some (copyLoop a (.rigid .mat) (fun _ i => t i) RigK.mat.transCoefs
      (copyLoop a (.rigid .mat) (fun _ c => R c.1 c.2) RigK.mat.rotCoefs (defaultRT a g w.mem))))
  | .ctorRotation a g q t, w =>
    w.new a (.rigid .mat) (some (copyLoop a (.rigid .mat) (fun _ i => t i) RigK.mat.transCoefs
      (copyLoop a (.rigid .mat) (fun _ c => q.toMatrix c.1 c.2) RigK.mat.rotCoefs
        (defaultRT a g w.mem))))
  | .ctorMatrix a m, w => w.new a (.rigid .mat) (some (storeAll a (.rigid .mat) m w.mem))
  | .ctorExpr a τ e, w =>
    if w.ok e then w.new a τ ((evaluateTo ε w.mem τ e).map fun v => storeAll a τ v w.mem) else none
  | .assign a τ e, w => if w.ok e then w.modify a τ (assignLeaf ε a τ e w.mem) else none
  | .assignRot f a k e, w =>
    if w.ok e then
      w.modify a (.rigid k) (assignMember ε f a k (.rot k.rotK) k.rotCoefs e w.mem)
    else none
  | .assignTrans f a k e, w =>
    if w.ok e then
      w.modify a (.rigid k) (assignMember ε f a k (.vec .trans) k.transCoefs e w.mem)
    else none

/-- Run a history. -/
noncomputable def runSteps (ε : ℝ) : List Step → World → Option World
  | [], w => some w
  | c :: cs, w => (c.run ε w).bind (runSteps ε cs)

/-- Before anything has been constructed. -/
def World.start (s : Mem) : World := ⟨s, []⟩

end WG
