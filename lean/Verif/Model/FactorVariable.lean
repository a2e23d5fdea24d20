import Verif.Model.Geo

/-!
# Variables of factors (estimation/FactorVariable.hpp, estimation/FactorVariableBase.hpp)

A `FactorVariable<Leaf>` holds a leaf object (FactorVariable.hpp:42) and lets a solver read and write
its coefficients as an array of doubles.  It is a leaf object in memory like any other here; framed
leaves (`Framed<Leaf, ...>`) have the value of the leaf.  A default-constructed variable is
uninitialised (LeafStorage.hpp:29-30); reading it before writing is left out.
-/

namespace WG
open Matrix

/-- `size()`: FactorVariable.hpp:23-26, `value().size()`.  `none`: a compile error of the class, since
`value()` has no members `size` and `data`; it is a number for `Scalar` (Scalar.hpp:38-50), an
`Eigen::Quaternion` or `Eigen::AngleAxis` (QuaternionRotation.hpp, AngleAxisRotation.hpp), a
`std::tuple` for a compact rigid transform (CompactRigidTransform.hpp:71-87). -/
def varSize : Ty → Option ℕ
  | .vec .scalar => none
  | .vec k => some (Ty.dim (.vec k))
  | .point => some 3
  | .rot .mat => some 9
  | .rot _ => none
  | .rigid .mat => some 16
  | .rigid .compact => none

/-- `data()[i]`: FactorVariable.hpp:18-21.  Eigen's fixed-size matrices are stored by columns. `none`:
no such element. -/
def varRead : (τ : Ty) → τ.Val → ℕ → Option ℝ
  | .vec .scalar, _, _ => none
  | .vec .trans, v, i => if h : i < 3 then some (v ⟨i, h⟩) else none
  | .vec .relrot, v, i => if h : i < 3 then some (v ⟨i, h⟩) else none
  | .vec .twist, v, i => if h : i < 6 then some (v (finSumFinEquiv.symm ⟨i, h⟩)) else none
  | .point, p, i => if h : i < 3 then some (p ⟨i, h⟩) else none
  | .rot .mat, m, i =>
    if h : i < 9 then some (m ⟨i % 3, Nat.mod_lt _ (by decide)⟩ ⟨i / 3, by omega⟩) else none
  | .rot _, _, _ => none
  | .rigid .mat, m, i =>
    if h : i < 16 then some (m ⟨i % 4, Nat.mod_lt _ (by decide)⟩ ⟨i / 4, by omega⟩) else none
  | .rigid .compact, _, _ => none

/-- `data()[i] = x`: FactorVariable.hpp:18-21.  `none`: no such element. -/
def varWrite : (τ : Ty) → τ.Val → ℕ → ℝ → Option τ.Val
  | .vec .scalar, _, _, _ => none
  | .vec .trans, v, i, x => if h : i < 3 then some (Function.update (v : V3) ⟨i, h⟩ x) else none
  | .vec .relrot, v, i, x => if h : i < 3 then some (Function.update (v : V3) ⟨i, h⟩ x) else none
  | .vec .twist, v, i, x =>
    if h : i < 6 then
      some (Function.update (v : Fin 3 ⊕ Fin 3 → ℝ) (finSumFinEquiv.symm ⟨i, h⟩) x) else none
  | .point, p, i, x => if h : i < 3 then some (Function.update (p : V3) ⟨i, h⟩ x) else none
  | .rot .mat, m, i, x =>
    if h : i < 9 then
      some ((m : M3).updateRow ⟨i % 3, Nat.mod_lt _ (by decide)⟩
        (Function.update ((m : M3) ⟨i % 3, Nat.mod_lt _ (by decide)⟩) ⟨i / 3, by omega⟩ x))
    else none
  | .rot _, _, _, _ => none
  | .rigid .mat, m, i, x =>
    if h : i < 16 then
      some ((m : M4).updateRow ⟨i % 4, Nat.mod_lt _ (by decide)⟩
        (Function.update ((m : M4) ⟨i % 4, Nat.mod_lt _ (by decide)⟩) ⟨i / 4, by omega⟩ x))
    else none
  | .rigid .compact, _, _, _ => none

variable {ε : ℝ}

/-- Reading element `i` of the array of the variable of class `τ` at address `a`. -/
def dataRead (s : Store (geoLib ε)) (a : ℕ) (τ : Ty) (i : ℕ) : Option ℝ := varRead τ (s a τ) i

/-- Writing element `i` of the array of the variable of class `τ` at address `a`; `none` is a write
outside the array (undefined behaviour) or a class that does not compile. -/
noncomputable def dataWrite (s : Store (geoLib ε)) (a : ℕ) (τ : Ty) (i : ℕ) (x : ℝ) : Option (Store (geoLib ε)) :=
  (varWrite τ (s a τ) i x).map fun v => s.set a τ v

/-- A solver overwriting the array: `for (i = 0; i < n; ++i) data()[i] = d[i]`. -/
noncomputable def dataWriteAll (s : Store (geoLib ε)) (a : ℕ) (τ : Ty) (d : ℕ → ℝ) : ℕ → Option (Store (geoLib ε))
  | 0 => some s
  | n + 1 => (dataWriteAll s a τ d n).bind fun s' => dataWrite s' a τ n (d n)

end WG
