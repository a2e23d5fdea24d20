import Verif.Model.Compound
import Verif.Model.Lazy
import Verif.Model.Noise
import Verif.Model.Geo

/-!
# Factors (estimation/Factor.hpp, estimation/impl/Factor_impl.hpp)
-/

namespace WG
open Matrix

variable {ε : ℝ}

/-- What a measurement functor returns: an expression or a compound (Factor.hpp:57-64). -/
inductive MeasExpr (ε : ℝ)
  | single (τ : Ty) (e : Expr (geoLib ε) τ)
  | compound (c : Compound (geoLib ε))

/-- The expressions returned, in order. -/
def MeasExpr.elems : MeasExpr ε → Compound (geoLib ε)
  | .single τ e => [⟨τ, e⟩]
  | .compound c => c

/-- The measured value, `Uncertain<Leaf, Noise>::value` (Uncertain.hpp:14-22): a leaf or a compound of
leaves. -/
inductive MeasValue
  | single (τ : Ty) (z : τ.Val)
  | compound (l : List ((τ : Ty) × τ.Val))

/-- The measured leaves, in order. -/
def MeasValue.elems : MeasValue → List ((τ : Ty) × τ.Val)
  | .single τ z => [⟨τ, z⟩]
  | .compound l => l

/-- `has_valid_vector_traits` (type_traits.hpp:483-496): an Eigen `ImplType` and `Size ==
TangentSize`.  Vectors and points (VectorBase.hpp:56-90) and scalars (Scalar.hpp:85-96, whose traits
name a 1x1 matrix) have them; rotations and rigid transforms have no trait `Size`. -/
def Ty.vectorTraits : Ty → Bool
  | .vec _ => true
  | .point => true
  | _ => false

/-- `is_vector_leaf` (type_traits.hpp:499-504) of a leaf class.  It looks as if `value()` had to return
the `ImplType`, which would exclude `Scalar` (its `value()` is the scalar itself, Scalar.hpp:38-50), but
the `std::is_same` is only named inside Tick's `valid<...>` (3rd-party/Tick/tick/builder.h:219-220),
which asks for the type to exist, not for it to be true.  So the trait adds nothing. -/
def Ty.isVectorLeaf (a : Ty) : Bool := a.vectorTraits

/-- `Factor<Functor, MeasType, LeafTypes...>` (Factor.hpp:48-125): the functor, and the measurement
`Uncertain<Value, Noise>` (Uncertain.hpp:14-22).  The variable pointers play no role in the two
functions below.  The functor receives the parameters (as objects) and returns an expression of
them. -/
structure Factor (ε : ℝ) where
  functor : List (Target (geoLib ε)) → MeasExpr ε
  value : MeasValue
  noise : Noise (compoundSize (value.elems.map fun z => z.1.dim))

/-- The `static_assert`s of Factor.hpp:57-64 and 12-18: the measurement is a vector leaf or a
(nonempty, type_traits.hpp:66-75) compound of leaves with vector traits, and the functor returns an
expression with the same base template.  Simplification: the base templates of user-defined compounds
are not distinguished. -/
def Factor.accepted (F : Factor ε) (ts : List (Target (geoLib ε))) : Bool :=
  match F.functor ts, F.value with
  | .single τ _, .single σ _ => decide (τ = σ) && σ.isVectorLeaf
  | .compound _, .compound l => !l.isEmpty && l.all fun z => z.1.vectorTraits
  | _, _ => false

/-- Number of coefficients of `ResidualVectorType` (Factor.hpp:55). -/
def Factor.dim (F : Factor ε) : ℕ := compoundSize (F.value.elems.map fun z => z.1.dim)

/-- Copy of a vector of `n` coefficients: the outer `none` is a read of a coefficient that was never
written (or does not exist), the inner one a coefficient that is not finite. -/
def readVec (n : ℕ) (v : ℕ → Option (Option ℝ)) : Option (Option (Fin n → ℝ)) :=
  if ∀ r : Fin n, v r ≠ none then
    some (if ∀ r : Fin n, (v r).join ≠ none then some fun r => ((v r).join).getD 0 else none)
  else none

/-- The residual computed from the value of the measurement function (Factor_impl.hpp:35-41, 53-59):
subtract the measurement, stack, multiply by the inverse square root of the covariance.  A single
vector is treated as a compound of one element (its `valueAsVector`, LeafStorage.hpp:90, is its
coefficients).  The outer `none` is a compile error (a subtraction that does not exist, vectors of
different sizes), the inner one a non-finite result. -/
noncomputable def Factor.residual (F : Factor ε) (fx : CVal (geoLib ε)) :
    Option (Option (Fin F.dim → ℝ)) :=
  (compoundMinus (L := geoLib ε) fx (F.value.elems.map fun z => ⟨z.1, some z.2⟩)).bind fun d =>
    (valueAsVector d).bind fun v => (readVec F.dim v).bind fun r =>
      (F.noise.inverseSqrtCov .lvalue).map fun W => W.bind fun W => r.map fun r => W *ᵥ r

/-- `factor.evaluate(x...)`: Factor_impl.hpp:28-42.  The outer `none` is a compile error. -/
noncomputable def Factor.evaluate (s : Store (geoLib ε)) (F : Factor ε) (ts : List (Target (geoLib ε))) :
    Option (Option (Fin F.dim → ℝ)) :=
  if F.accepted ts then F.residual (Compound.eval s (F.functor ts).elems) else none

/-- `expr.evalWithJacobians(x...)` of what the functor returned (ExpressionBase.hpp:74-78). -/
noncomputable def MeasExpr.evalWithJacobians (s : Store (geoLib ε)) (ts : List (Target (geoLib ε))) :
    MeasExpr ε → Run (CVal (geoLib ε) × List ((σ : Ty) × Rows (geoLib ε) σ))
  | .single τ e =>
    match e.evalWithJacobians s ts with
    | some p => .ok ([⟨τ, p.1⟩], p.2.map fun J => ⟨J.1, Rows.fresh.write (L := geoLib ε) 0 J.2⟩)
    | none => .rejected
  | .compound c => c.evalWithJacobiansRun (geoLazy ε) s ts

/-- `factor.evaluateWithJacobians(x...)`: Factor_impl.hpp:44-60 with `replaceFirstTupleElement`
12-25, which keeps the elements of the tuple from the second on (the Jacobians) unchanged. -/
noncomputable def Factor.evaluateWithJacobians (s : Store (geoLib ε)) (F : Factor ε)
    (ts : List (Target (geoLib ε))) :
    Run (Option (Fin F.dim → ℝ) × List ((σ : Ty) × Rows (geoLib ε) σ)) :=
  if F.accepted ts then
    match MeasExpr.evalWithJacobians s ts (F.functor ts) with
    | .ok p =>
      match F.residual p.1 with
      | some r => .ok (r, p.2)
      | none => .rejected
    | .rejected => .rejected
    | .ub => .ub
  else .rejected

end WG
