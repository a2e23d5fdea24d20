import Verif.Model.Frames
import Verif.Spec.Expression

/-!
# Specification: what frame labels name

An arrangement places every frame in space; labels name quantities of the arrangement
(docs/frame_semantics.md).
-/

namespace WG.Spec
open Matrix

/-- Frames in space: pose (orientation and origin), angular velocity and velocity of the origin of
every frame, in some reference coordinates. -/
structure Arrangement where
  pose : ℕ → Rigid
  proper : ∀ a, IsRotation (pose a).R
  spin : ℕ → V3
  vel : ℕ → V3

namespace Arrangement
variable (P : Arrangement)

/-- Origin of a frame. -/
def origin (a : ℕ) : V3 := (P.pose a).t

/-- Coordinates in frame `a` of a free vector. -/
def express (a : ℕ) (v : V3) : V3 := (P.pose a).Rᵀ *ᵥ v

/-- `ₐp_bc`: the vector from `b` to `c` expressed in `a`. -/
def vector (a b c : ℕ) : V3 := P.express a (P.origin c - P.origin b)

/-- `ₐω_bc`: the angular velocity of `c` with respect to `b`, expressed in `a`. -/
def angularVelocity (a b c : ℕ) : V3 := P.express a (P.spin c - P.spin b)

/-- The velocity of `c` with respect to `b`, expressed in `a`. -/
def velocity (a b c : ℕ) : V3 := P.express a (P.vel c - P.vel b)

/-- `R_ab`: takes coordinates in `b` to coordinates in `a`. -/
def rotation (a b : ℕ) : M3 := (P.pose a).Rᵀ * (P.pose b).R

/-- `T_ab`: takes positions measured in `b` to positions measured in `a`. -/
def motion (a b : ℕ) : Rigid := ⟨P.rotation a b, P.vector a a b⟩

end Arrangement

/-- No label is a frame. -/
def Unframed : Labels → Prop
  | .two l r => l = none ∧ r = none
  | .three l m r => l = none ∧ m = none ∧ r = none

/-- The object `o` is the quantity named by the labels.  Wholly unframed objects and scalars make no
claim; an object labelled partly with `NoFrame` names nothing. -/
def Names (P : Arrangement) : Labels → Obj → Prop
  | .three (some _) (some _) (some _), .vec .scalar _ => True
  | .three (some a) (some b) (some c), .vec .trans x => x = P.vector a b c
  | .three (some a) (some b) (some c), .vec .relrot x => x = P.angularVelocity a b c
  | .three (some a) (some b) (some c), .vec .twist x =>
    x = Sum.elim (P.angularVelocity a b c) (P.velocity a b c)
  | .two (some a) (some b), .point p => p = P.vector a a b
  | .two (some a) (some b), .rot R => R = P.rotation a b
  | .two (some a) (some b), .motion T => T = P.motion a b
  | .three none none none, .vec _ _ => True
  | .two none none, .point _ => True
  | .two none none, .rot _ => True
  | .two none none, .motion _ => True
  | _, _ => False

end WG.Spec

namespace WG
open Spec

/-- The expression without frames: labels dropped, casts removed, `logFramed` read as `log`. -/
def FExpr.erase : FExpr → SExpr
  | .leaf a τ _ => .leaf a 0 τ
  | .un op e => .un op e.erase
  | .logFramed _ e => .un .log e.erase
  | .bin op l r => .bin op l.erase r.erase
  | .store τ _ e => .un (.to τ) e.erase
  | .cast _ e => e.erase
  | .dynamic a e => .dynamic a e.erase

/-- Every framed leaf object holds the quantity its labels name. -/
def FExpr.LeavesNamed (P : Arrangement) (s : Memory) : FExpr → Prop
  | .leaf a τ f => Names P f (obj τ (s a τ))
  | .un _ e | .logFramed _ e | .store _ _ e | .cast _ e | .dynamic _ e => e.LeavesNamed P s
  | .bin _ l r => l.LeavesNamed P s ∧ r.LeavesNamed P s

end WG

namespace WG.Spec

/-- Side condition for the result labels of a unary operation to be right: exponential and logarithm
of unframed operands only, and `translation()` of a rotation only if its two frames are the same. -/
def Faithful1 (op : UOp) (α : Ty) (f : Labels) : Prop :=
  match op, α with
  | .exp, _ | .log, _ => Unframed f
  | .translation, .rot _ => f.left = f.right
  | _, _ => True

/-- Side condition for the result labels of a binary operation to be right: box operations and
scalings of unframed operands only, and only position vectors are transformed by rigid motions. -/
def Faithful2 (op : BOp) (α β : Ty) (f g : Labels) : Prop :=
  match op, α with
  | .add, .rot _ | .add, .rigid _ | .sub, .rot _ | .sub, .rigid _ => Unframed f
  | .mul, .vec .scalar => β = .vec .scalar ∨ Unframed g
  | .mul, .vec _ => Unframed f
  | .mul, .rigid _ => (∃ k, β = .rigid k) ∨ g.middle = g.left
  | .div, .vec .scalar => True
  | .div, _ => Unframed f
  | _, _ => True

/-- The side conditions hold at every node, and casts only remove frames. -/
def Careful (ε : ℝ) : FExpr → Prop
  | .leaf _ _ _ => True
  | .un op e => Careful ε e ∧ ∀ x f, e.build ε = some (x, f) → Faithful1 op x.1 f
  | .logFramed k e => Careful ε e ∧ k = none ∧ ∀ x f, e.build ε = some (x, f) → Unframed f
  | .bin op l r => Careful ε l ∧ Careful ε r ∧ ∀ x f y g, l.build ε = some (x, f) →
      r.build ε = some (y, g) → Faithful2 op x.1 y.1 f g
  | .store _ _ e => Careful ε e
  | .cast f e => Careful ε e ∧ (Unframed f ∨ ∃ x, e.build ε = some (x, f))
  | .dynamic _ e => Careful ε e

end WG.Spec
