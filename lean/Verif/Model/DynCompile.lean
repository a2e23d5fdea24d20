import Verif.Model.Geo

/-!
# Which expressions can be wrapped in a dynamic node

`Dynamic<E>` (dynamic/Dynamic.hpp) overrides every virtual function of `DynamicBase`, so wrapping an
expression compiles only if all of them do.  Reverse mode is compiled for adjoints with 1, 2, 3 and 6
rows and for a matrix of run-time size.  At a handle inside `E`, the adjoint is passed on to an
overloaded function; which overload is chosen depends on the static size of the adjoint.
-/

namespace WG

/-- Static size of a dense Eigen type; `none` is `Eigen::Dynamic`. -/
structure Shape where
  rows : Option ℕ
  cols : Option ℕ
  deriving DecidableEq

/-- The type a `jacobianImpl` returns: `identity_t` or another matrix type, which has a fixed size. -/
inductive JacKind | identity | fixed
  deriving DecidableEq

/-- The types of the local Jacobians of the operators of a library; `none` if there is no such
function. -/
structure JacKinds (L : Lib) where
  un : ∀ {a b}, L.Un a b → Option JacKind
  left : ∀ {a b c}, L.Bin a b c → Option JacKind
  right : ∀ {a b c}, L.Bin a b c → Option JacKind

/-- Static size of `adjoint * jacobian` for a Jacobian with `n` columns: `operator*` with an
`IdentityMatrix` on the right returns the left factor (IdentityMatrix.hpp:64-74), every other product
has the rows of the left and the columns of the right factor (Eigen; CrossMatrix.hpp:88-206). -/
def Shape.times (s : Shape) (n : ℕ) : JacKind → Shape
  | .identity => s
  | .fixed => ⟨s.rows, some n⟩

/-- The overloads of `dynReverse`: one for each of 1, 2, 3, 6 rows (DynamicBase.hpp:52-78) and a
function template for any number of rows, also `Eigen::Dynamic`, that calls `dynReverseDynamic`
(DynamicBase.hpp:80-89). -/
inductive Overload | rows (n : ℕ) | template
  deriving DecidableEq

/-- Overload resolution for `dynReverse(jac_map, adjoint.eval())` (Proxy.hpp:169-180) on a node whose
value has `n` tangent coordinates.  If the adjoint has `n` columns by its type, the overload for its
number of rows is an exact match, else the template is.  Otherwise the template does not fit
(deduction fails) and each of the four other overloads can be called through the converting
constructor of `Eigen::Matrix`: the call is ambiguous. -/
def dynReverseOverload (n : ℕ) (s : Shape) : Option Overload :=
  if s.cols = some n then
    match s.rows with
    | some r => if r ∈ [1, 2, 3, 6] then some (.rows r) else some .template
    | none => some .template
  else none

variable {L : Lib}

/-- Does `DynamicReverseJacobianEvaluator` compile for an adjoint of this size?
DynamicReverseJacobianEvaluator.hpp:69-200; at a handle, Proxy.hpp:169-180. -/
def revCompiles (K : JacKinds L) : {τ : L.Ty} → Expr L τ → Shape → Bool
  | _, .leaf _ _ _, _ => true
  | _, .un (α := α) _ op e, s =>
    match K.un op with
    | none => false
    | some j => revCompiles K e (s.times (L.dim α) j)
  | _, .bin (α := α) (β := β) _ op l r, s =>
    match K.left op, K.right op with
    | some j, some k => revCompiles K l (s.times (L.dim α) j) && revCompiles K r (s.times (L.dim β) k)
    | _, _ => false
  | τ, .proxy _ _, s => (dynReverseOverload (L.dim τ) s).isSome

/-- Does `Dynamic<E>` compile?  The overrides of `dynReverseDynamic` and `dynReverse`:
Dynamic.hpp:71-111.  The other overrides need the same `jacobianImpl` functions or fewer. -/
def dynamicCompiles (K : JacKinds L) {τ : L.Ty} (e : Expr L τ) : Bool :=
  revCompiles K e ⟨none, none⟩ &&
    [1, 2, 3, 6].all fun r => revCompiles K e ⟨some r, some (L.dim τ)⟩

/-- The overloads of `dynReverse` called by one run of reverse mode, at the handles of an expression and
in the nodes they lead to: Proxy.hpp:169-180, then Dynamic.hpp:71-111 (the overload for `r` rows
continues with an `r`-by-`n` adjoint, the template with a matrix of run-time size). -/
def revCalls (K : JacKinds L) : {τ : L.Ty} → Expr L τ → Shape → List (Option Overload)
  | _, .leaf _ _ _, _ => []
  | _, .un (α := α) _ op e, s =>
    match K.un op with
    | none => [none]
    | some j => revCalls K e (s.times (L.dim α) j)
  | _, .bin (α := α) (β := β) _ op l r, s =>
    match K.left op, K.right op with
    | some j, some k => revCalls K l (s.times (L.dim α) j) ++ revCalls K r (s.times (L.dim β) k)
    | _, _ => [none]
  | τ, .proxy _ e, s =>
    match dynReverseOverload (L.dim τ) s with
    | none => [none]
    | some (.rows r) => some (.rows r) :: revCalls K e ⟨some r, some (L.dim τ)⟩
    | some .template => some .template :: revCalls K e ⟨none, none⟩

/-- Return type of `jacobianImpl`.  `identity_t`: Convert.hpp:29-33; a `frame_cast` has the tag `leaf`
(frame_cast.hpp:108-110, traits_bases.hpp:263-266).  No function: TransformBase.hpp:47-55 with a
rotation. -/
def Un.jacKind : {a b : Ty} → Un a b → Option JacKind
  | _, _, .convRot _ _ => some .identity
  | _, _, .convRigid _ _ => some .identity
  | _, _, .recast _ => some .identity
  | _, _, .zeroTrans _ => none
  | _, _, _ => some .fixed

/-- Return type of `leftJacobianImpl`.  `identity_t`: Sum.hpp:97-101, Subtract.hpp:104-109,
Compose.hpp:56-63. -/
def Bin.jacKindL : {a b c : Ty} → Bin a b c → JacKind
  | _, _, _, .sum _ => .identity
  | _, _, _, .sumPV => .identity
  | _, _, _, .sumVP => .identity
  | _, _, _, .sub _ => .identity
  | _, _, _, .subPP => .identity
  | _, _, _, .subPV => .identity
  | _, _, _, .composeQ => .identity
  | _, _, _, .composeM => .identity
  | _, _, _, .composeRigid _ _ => .identity
  | _, _, _, _ => .fixed

/-- Return type of `rightJacobianImpl`.  `identity_t`: Sum.hpp:103-107, Compose.hpp:74-81; not
Subtract.hpp:111-116 (`-Identity()`). -/
def Bin.jacKindR : {a b c : Ty} → Bin a b c → JacKind
  | _, _, _, .sum _ => .identity
  | _, _, _, .sumPV => .identity
  | _, _, _, .sumVP => .identity
  | _, _, _, .flipQ => .identity
  | _, _, _, .flipM => .identity
  | _, _, _, .flipRigid _ _ => .identity
  | _, _, _, _ => .fixed

/-- The types of the local Jacobians. -/
@[reducible] def geoKinds (ε : ℝ) : JacKinds (geoLib ε) where
  un op := Un.jacKind op
  left op := some (Bin.jacKindL op)
  right op := some (Bin.jacKindR op)

end WG
