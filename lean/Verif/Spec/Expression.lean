import Verif.Spec.Meaning
import Verif.Spec.Wrap

/-!
# Specification: what a user expression means

`Means` assigns mathematical objects to user expressions.  It mentions neither the classes used to
store intermediate results nor conversions nor evaluation order.
-/

namespace WG.Spec
open Matrix

/-- Contents of memory. -/
abbrev Memory := ℕ → (τ : Ty) → τ.Val

/-- Mathematical objects: coordinate vectors of the four vector kinds, points, rotations, rigid
motions. -/
inductive Obj
  | vec (k : VK) (x : k.Idx → ℝ)
  | point (p : V3)
  | rot (R : M3)
  | motion (T : Rigid)

/-- The object a stored value represents. -/
noncomputable def obj : (τ : Ty) → τ.Val → Obj
  | .vec k, v => .vec k v
  | .point, p => .point p
  | .rot k, x => .rot (rotDen k x)
  | .rigid k, x => .motion (rigidDen k x)

/-- The kind of object stored in a class. -/
def Obj.kindOk : Obj → Ty → Prop
  | .vec k _, τ => τ = .vec k
  | .point _, τ => τ = .point
  | .rot _, τ => ∃ k, τ = .rot k
  | .motion _, τ => ∃ k, τ = .rigid k

/-- Twist with given angular and linear velocity. -/
abbrev angular (x : Fin 3 ⊕ Fin 3 → ℝ) : V3 := fun i => x (.inl i)

/-- `Means ε s e o`: in memory `s`, the expression `e` denotes `o`, all the objects it mentions are
valid, and every partial function in it is applied inside the region where the library computes it
exactly (`ε` is the machine epsilon of its small-angle tests). -/
inductive Means (ε : ℝ) (s : Memory) : SExpr → Obj → Prop
  | leaf (a c τ) : Valid τ (s a τ) → Means ε s (.leaf a c τ) (obj τ (s a τ))
  -- (the library rejects handles to expressions that are not `wrappable`)
  | dynamic (a) {e o} : wrappable e = true → Means ε s e o → Means ε s (.dynamic a e) o
  | evalTo (τ) {e o} : Means ε s e o → o.kindOk τ → Means ε s (.un (.to τ) e) o
  -- vectors
  | neg {e k x} : Means ε s e (.vec k x) → Means ε s (.un .neg e) (.vec k (-x))
  -- (norms and inner products of scalars do not exist)
  | squaredNorm {e k x} (_ : Means ε s e (.vec k x)) (_ : k ≠ .scalar := by decide) :
      Means ε s (.un .squaredNorm e) (.vec .scalar fun _ => x ⬝ᵥ x)
  | norm {e k x} (_ : Means ε s e (.vec k x)) (_ : k ≠ .scalar := by decide) :
      Means ε s (.un .norm e) (.vec .scalar fun _ => √(x ⬝ᵥ x))
  | normalized {e k x} (_ : Means ε s e (.vec k x)) (_ : k ≠ .scalar := by decide) :
      Means ε s (.un .normalized e) (.vec k ((√(x ⬝ᵥ x))⁻¹ • x))
  | acos {e x} : Means ε s e (.vec .scalar x) → -1 ≤ x 0 → x 0 ≤ 1 →
      Means ε s (.un .acos e) (.vec .scalar fun _ => Real.arccos (x 0))
  | addVec {e f k x y} : Means ε s e (.vec k x) → Means ε s f (.vec k y) →
      Means ε s (.bin .add e f) (.vec k (x + y))
  | subVec {e f k x y} : Means ε s e (.vec k x) → Means ε s f (.vec k y) →
      Means ε s (.bin .sub e f) (.vec k (x - y))
  | mulScalarVec {e f k x y} : Means ε s e (.vec .scalar x) → Means ε s f (.vec k y) →
      Means ε s (.bin .mul e f) (.vec k (x 0 • y))
  | mulVecScalar {e f k x y} : Means ε s e (.vec k x) → Means ε s f (.vec .scalar y) →
      Means ε s (.bin .mul e f) (.vec k (y 0 • x))
  | divVec {e f k x y} : Means ε s e (.vec k x) → Means ε s f (.vec .scalar y) → y 0 ≠ 0 →
      Means ε s (.bin .div e f) (.vec k ((y 0)⁻¹ • x))
  | dot {e f k x y} (_ : Means ε s e (.vec k x)) (_ : Means ε s f (.vec k y))
      (_ : k ≠ .scalar := by decide) : Means ε s (.bin .dot e f) (.vec .scalar fun _ => x ⬝ᵥ y)
  -- points
  | addPointVec {e f p v} : Means ε s e (.point p) → Means ε s f (.vec .trans v) →
      Means ε s (.bin .add e f) (.point (p + v))
  | addVecPoint {e f p v} : Means ε s e (.vec .trans v) → Means ε s f (.point p) →
      Means ε s (.bin .add e f) (.point (p + v))
  | subPoint {e f p q} : Means ε s e (.point p) → Means ε s f (.point q) →
      Means ε s (.bin .sub e f) (.vec .trans (p - q))
  | subPointVec {e f p v} : Means ε s e (.point p) → Means ε s f (.vec .trans v) →
      Means ε s (.bin .sub e f) (.point (p - v))
  -- rotations
  | inverseRot {e R} : Means ε s e (.rot R) → Means ε s (.un .inverse e) (.rot R⁻¹)
  | mulRot {e f R S} : Means ε s e (.rot R) → Means ε s f (.rot S) →
      Means ε s (.bin .mul e f) (.rot (R * S))
  | rotate {e f R v} : Means ε s e (.rot R) → Means ε s f (.vec .trans v) →
      Means ε s (.bin .mul e f) (.vec .trans (R *ᵥ v))
  | expRot {e φ} : Means ε s e (.vec .relrot φ) → φ = 0 ∨ ε < sqLen φ ^ 2 →
      Means ε s (.un .exp e) (.rot (NormedSpace.exp (hat φ)))
  | logRot {e φ} : Means ε s e (.rot (NormedSpace.exp (hat φ))) → sqLen φ < Real.pi ^ 2 →
      φ = 0 ∨ ε < sqLen φ → Means ε s (.un .log e) (.vec .relrot φ)
  | boxPlusRot {e f R φ} : Means ε s e (.rot R) → Means ε s f (.vec .relrot φ) →
      φ = 0 ∨ ε < sqLen φ ^ 2 → Means ε s (.bin .add e f) (.rot (NormedSpace.exp (hat φ) * R))
  | boxMinusRot {e f R S φ} : Means ε s e (.rot R) → Means ε s f (.rot S) →
      R = NormedSpace.exp (hat φ) * S → sqLen φ < Real.pi ^ 2 → φ = 0 ∨ ε < sqLen φ →
      Means ε s (.bin .sub e f) (.vec .relrot φ)
  | rotationRot {e R} : Means ε s e (.rot R) → Means ε s (.un .rotation e) (.rot R)
  | translationRot {e R} : Means ε s e (.rot R) → Means ε s (.un .translation e) (.vec .trans 0)
  -- rigid motions
  | inverseMotion {e T S} : Means ε s e (.motion T) → T.comp S = Rigid.id →
      Means ε s (.un .inverse e) (.motion S)
  | mulMotion {e f T S} : Means ε s e (.motion T) → Means ε s f (.motion S) →
      Means ε s (.bin .mul e f) (.motion (T.comp S))
  | act {e f T v} : Means ε s e (.motion T) → Means ε s f (.vec .trans v) →
      Means ε s (.bin .mul e f) (.vec .trans (T.act v))
  | rotation {e T} : Means ε s e (.motion T) → Means ε s (.un .rotation e) (.rot T.R)
  | translation {e T} : Means ε s e (.motion T) → Means ε s (.un .translation e) (.vec .trans T.t)
  | expMotion {e ξ} {T : Rigid} : Means ε s e (.vec .twist ξ) → T.hom = NormedSpace.exp (twistMat ξ) →
      angular ξ = 0 ∨ ε < sqLen (angular ξ) → Means ε s (.un .exp e) (.motion T)
  | logMotion {e T ξ} : Means ε s e (.motion T) → T.hom = NormedSpace.exp (twistMat ξ) →
      sqLen (angular ξ) < Real.pi ^ 2 → angular ξ = 0 ∨ ε < sqLen (angular ξ) →
      Means ε s (.un .log e) (.vec .twist ξ)
  | boxPlusMotion {e f T ξ} {D : Rigid} : Means ε s e (.motion T) → Means ε s f (.vec .twist ξ) →
      D.hom = NormedSpace.exp (twistMat ξ) → angular ξ = 0 ∨ ε < sqLen (angular ξ) →
      Means ε s (.bin .add e f) (.motion (D.comp T))
  | boxMinusMotion {e f T S ξ} {D : Rigid} : Means ε s e (.motion T) → Means ε s f (.motion S) →
      T = D.comp S → D.hom = NormedSpace.exp (twistMat ξ) →
      sqLen (angular ξ) < Real.pi ^ 2 → angular ξ = 0 ∨ ε < sqLen (angular ξ) →
      Means ε s (.bin .sub e f) (.vec .twist ξ)

end WG.Spec
