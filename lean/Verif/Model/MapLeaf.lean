import Verif.Model.Assign

/-!
# Leaf objects whose storage is an `Eigen::Map`

`core/storage/LeafStorage.hpp:23-90`, the `ImplType` parameter of `geometry/leaf/Translation.hpp:11-29`,
`geometry/leaf/MatrixRotation.hpp:11-29`, `geometry/leaf/QuaternionRotation.hpp` and the other leaf
classes; `test/rotation_misc_test.cpp:9-43`.

`Model/Assign.lean` gives every object storage of its own.  Here the coefficients live in cells of a
raw memory, and several objects may use the same or overlapping cells.  Eigen copies coefficients one
by one or in packets; the order is not specified by the library, so it is a parameter (`Act`, `Sched`).
Simplifications: real arithmetic; a value that is not finite stops the step (`none`); Eigen maps are
contiguous (default stride).
-/

namespace WG
open Matrix

/-- The `ImplType` of a leaf: an Eigen object of its own, an `Eigen::Map<M>`, an
`Eigen::Map<const M>` (rotation_misc_test.cpp:13-14, 22-23), or an `Eigen::Block` of the storage of
another leaf, `Block<I, 3, 1>` or `Block<const I, 3, 1>` (Twist.hpp:31-32).  A reference wrapper
`Scalar<double &>` (Scalar.hpp:63-80), which only reads the number it refers to, is a scalar of the
kind `constMap`. -/
inductive Sto
  | own
  | map
  | constMap
  | block (of : Sto)
  | constBlock (of : Sto)
  deriving DecidableEq

/-- Can the coefficients not be assigned?  Eigen has no `operator=` for a map or block of constants;
a block of a map of constants is one too. -/
def Sto.readOnly : Sto → Bool
  | .own => false
  | .map => false
  | .constMap => true
  | .block s => s.readOnly
  | .constBlock _ => true

/-- A leaf object: its class and the address of its first coefficient. -/
structure LeafObj where
  ty : Ty
  sto : Sto
  base : ℕ

/-- Raw memory: one real number per cell. -/
abbrev Heap := ℕ → ℝ

/-- The objects of the program, by identity (the address of the C++ leaf object itself). -/
abbrev Objects := ℕ → LeafObj

/-- Place of a coefficient within the storage of an Eigen object: column by column for matrices,
`x y z w` for quaternions, axis before angle.  A compact rigid transform is a tuple
(CompactRigidTransform.hpp:20-29), the order of whose members does not matter below; one made of two
maps, in two places, is not modelled. -/
def Ty.ofs : (τ : Ty) → τ.Coef → ℕ
  | .vec .scalar => Fin.val
  | .vec .trans => Fin.val
  | .vec .relrot => Fin.val
  | .vec .twist => Sum.elim Fin.val fun i => 3 + i.val
  | .point => Fin.val
  | .rot .quat => ![3, 0, 1, 2]
  | .rot .mat => fun p => p.1.val + 3 * p.2.val
  | .rot .aa => fun o => o.elim 3 Fin.val
  | .rigid .mat => fun p => p.1.val + 4 * p.2.val
  | .rigid .compact => Sum.elim ![3, 0, 1, 2] fun i => 4 + i.val

/-- What an expression finds in an object: `value()` of the leaf (LeafStorage.hpp:62-78), read from
the cells. -/
def view (Γ : Objects) (h : Heap) : Mem := fun a τ => τ.ofFun fun c => h ((Γ a).base + τ.ofs c)

/-- One action of a coefficient-wise copy: load a coefficient of the source into a register, or
store a register into the destination. -/
inductive Act (κ : Type)
  | load (c : κ)
  | store (c : κ)

variable {κ : Type} [DecidableEq κ]

/-- Effect of an action, for cells `src c` of the source and `dst c` of the destination. -/
def Act.run (src dst : κ → ℕ) : Act κ → (κ → ℝ) × Heap → (κ → ℝ) × Heap
  | .load c, (r, h) => (Function.update r c (h (src c)), h)
  | .store c, (r, h) => (r, Function.update h (dst c) (r c))

/-- Run a sequence of actions. -/
def runActs (src dst : κ → ℕ) : List (Act κ) → (κ → ℝ) × Heap → (κ → ℝ) × Heap
  | [], s => s
  | x :: xs, s => runActs src dst xs (x.run src dst s)

omit [DecidableEq κ] in
/-- A sequence of actions that copies: every coefficient is loaded once, and stored once, later.
Eigen's scalar loop (load, store, load, store, ...) and its packet loops (load two, store two, ...)
are of this kind. -/
def Sched (l : List (Act κ)) : Prop :=
  ∀ c, ∃ l₁ l₂ l₃, l = l₁ ++ .load c :: (l₂ ++ .store c :: l₃) ∧
    .load c ∉ l₁ ++ l₂ ++ l₃ ∧ .store c ∉ l₁ ++ l₂ ++ l₃

/-- The scalar loop over the given coefficients. -/
def scalarLoop (cs : List κ) : List (Act κ) := cs.flatMap fun c => [.load c, .store c]

/-- Write a value held elsewhere (a temporary), one coefficient after the other. -/
def storeFrom (dst : κ → ℕ) (val : κ → ℝ) : List κ → Heap → Heap
  | [], h => h
  | c :: cs, h => storeFrom dst val cs (Function.update h (dst c) (val c))

/-- Does every object that the expression reads have the class it is read at?  (The class is part of
the C++ type, so this always holds in a program that compiles.) -/
def SExpr.typed (Γ : Objects) (e : SExpr) : Prop := ∀ o ∈ e.reads, (Γ o.1).ty = o.2

instance (Γ : Objects) (e : SExpr) : Decidable (e.typed Γ) :=
  inferInstanceAs (Decidable (∀ o ∈ e.reads, (Γ o.1).ty = o.2))

/-- Is the operand a leaf of exactly the class of `x`, storage included?  Then overload resolution
chooses the defaulted copy assignment (LeafStorage.hpp:32, WAVE_DEFAULT_COPY_AND_MOVE_FUNCTIONS),
which assigns Eigen object to Eigen object in place. -/
def sameClass (Γ : Objects) (x : ℕ) (e : SExpr) : Option ℕ :=
  (e.isLeafOf (Γ x).ty).bind fun b => if (Γ b).sto = (Γ x).sto then some b else none

/-- `x = e`.  A map of constants cannot be assigned to.  From a leaf of the same class: copy in place,
in the order `l`.  Otherwise LeafStorage.hpp:46-53: `evaluateTo<plain_output_t<Derived>>(rhs)` first
yields an object with storage of its own, whose coefficients are then stored in the order `cs`. -/
noncomputable def assignMapped (ε : ℝ) (Γ : Objects) (x : ℕ) (e : SExpr)
    (l : List (Act (Γ x).ty.Coef)) (cs : List (Γ x).ty.Coef) (h : Heap) : Option Heap :=
  if (Γ x).sto.readOnly ∨ ¬ e.typed Γ then none else
  match sameClass Γ x e with
  | some b =>
    some (runActs (fun c => (Γ b).base + (Γ x).ty.ofs c) (fun c => (Γ x).base + (Γ x).ty.ofs c) l
      (fun _ => 0, h)).2
  | none =>
    if (Γ x).ty = .rigid .compact then none else
    (evaluateTo ε (view Γ h) (Γ x).ty e).map fun tmp =>
      storeFrom (fun c => (Γ x).base + (Γ x).ty.ofs c) ((Γ x).ty.get tmp) cs h

/-- Copy construction `auto x = y;` (LeafStorage.hpp:30, defaulted).  The copy of an Eigen map maps
the same cells; the copy of an Eigen object has storage of its own, at `fresh`. -/
def copyConstruct (Γ : Objects) (x y fresh : ℕ) (cs : List (Γ y).ty.Coef) (h : Heap) :
    Objects × Heap :=
  match (Γ y).sto with
  | .own =>
    (Function.update Γ x ⟨(Γ y).ty, .own, fresh⟩,
      storeFrom (fun c => fresh + (Γ y).ty.ofs c) (fun c => h ((Γ y).base + (Γ y).ty.ofs c)) cs h)
  | s => (Function.update Γ x ⟨(Γ y).ty, s, (Γ y).base⟩, h)

/-- `rotation()` of a twist leaf (Twist.hpp:60-67): a relative rotation that is a block of the first
three coefficients; of a constant twist, a block of constants. -/
def twistRotation (isConst : Bool) (x : LeafObj) : LeafObj :=
  ⟨.vec .relrot, if isConst then .constBlock x.sto else .block x.sto, x.base⟩

/-- `translation()` of a twist leaf (Twist.hpp:70-77): a block of the last three coefficients. -/
def twistTranslation (isConst : Bool) (x : LeafObj) : LeafObj :=
  ⟨.vec .trans, if isConst then .constBlock x.sto else .block x.sto, x.base + 3⟩

/-- `Twist(rr, t)` (Twist.hpp:52-57): `storage << rr, t` writes the coefficients of the first
vector, then those of the second, into the storage of the new object. -/
def constructTwist (Γ : Objects) (x fresh : ℕ) (rr t : Fin 3 → ℝ) (h : Heap) : Objects × Heap :=
  (Function.update Γ x ⟨.vec .twist, .own, fresh⟩,
    storeFrom (fun i : Fin 3 => fresh + (3 + i.val)) t (List.finRange 3)
      (storeFrom (fun i : Fin 3 => fresh + i.val) rr (List.finRange 3) h))

/-- `std::swap(x, y)` of two leaves of one class: `T tmp(std::move(x)); x = std::move(y);
y = std::move(tmp);`.  The move functions are the defaulted ones (LeafStorage.hpp:32), and moving an
Eigen object of fixed size, a map or a block is copying it.  `tmp` has the identity `k`, and storage
at `fresh` if it owns any; each of the copies has an order of its own. -/
noncomputable def swapLeaves (ε : ℝ) (Γ : Objects) (x y k fresh : ℕ) (cs : List (Γ x).ty.Coef)
    (l₁ : (τ : Ty) → List (Act τ.Coef)) (l₂ : (τ : Ty) → List (Act τ.Coef)) (h : Heap) :
    Option Heap :=
  let (Γ', h₁) := copyConstruct Γ k x fresh cs h
  (assignMapped ε Γ' x (.leaf y 0 (Γ' x).ty) (l₁ _) [] h₁).bind fun h₂ =>
    assignMapped ε Γ' y (.leaf k 0 (Γ' y).ty) (l₂ _) [] h₂

end WG
