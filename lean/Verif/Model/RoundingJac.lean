import Verif.Model.Rounding

/-!
# Jacobians in floating-point arithmetic

The evaluators of `Model/Expr.lean` and the `jacobianImpl` functions of `Model/Ops.lean`, with every
operation on coefficients followed by a rounding, as a relation (see `Model/Rounding.lean`).  Local
Jacobians are computed from the computed values that the evaluator tree holds.

Covered: the operations covered by `FlUn` and `FlBin`, except `norm` (its Jacobian divides) and
angle-axis rotations.  Simplifications: as in `Model/Rounding.lean`; a product with a zero
coefficient may be left out of a sum (`CrossMatrix.hpp` does, dense products do not).
-/

namespace WG
open Matrix

/-- Evaluator tree holding computed values: Evaluator.hpp:28-105. -/
def FlTree (F : Fl) {ε : ℝ} (s : Store (geoLib ε)) :
    {τ : Ty} → Expr (geoLib ε) τ → ETree (geoLib ε) τ → Prop
  | _, .leaf a c τ, T => T = .leaf a c τ (s a τ)
  | _, .un a (op : Un _ _) e, T => ∃ c x z, FlTree F s e c ∧ c.val = some x ∧ FlUn F op x z ∧
      T = .un a op c (some z)
  | _, .bin a (op : Bin _ _ _) l r, T => ∃ c d x y z, FlTree F s l c ∧ FlTree F s r d ∧
      c.val = some x ∧ d.val = some y ∧ FlBin F op x y z ∧ T = .bin a op c d (some z)
  | _, .proxy a e, T => ∃ c, FlTree F s e c ∧ T = .proxy a c

/-- Rounded product of Jacobians.  Products with a factor 1 need no rounding and products with a
factor 0 may be left out: dense Eigen products; `IdentityMatrix` factors, IdentityMatrix.hpp:53-85;
`CrossMatrix` factors, CrossMatrix.hpp:88-206. -/
def FlProd (F : Fl) {m n p : Type} (A : Matrix m n ℝ) (B : Matrix n p ℝ) (C : Matrix m p ℝ) : Prop :=
  ∀ i j, ∃ K : Finset n, (∀ k, k ∉ K → A i k = 0 ∨ B k j = 0) ∧
    FlSum F (K.toList.map fun k => (A i k, B k j)) (C i j)

/-- Rounded rotation matrix of a stored rotation: QuaternionRotation.hpp:71-77,
MatrixRotation.hpp:64-69. -/
def FlRotMatrix (F : Fl) : (k : RotK) → k.Val → M3 → Prop
  | .quat, q, M => FlToMatrix F q M
  | .mat, m, M => M = m
  | .aa, _, _ => False

/-- Rounded adjoint matrix: RigidTransformBase.hpp:95-103, TransformBase.hpp:216-224. -/
def FlAdjoint (F : Fl) (k : RigK) (x : k.Val) (A : M6) : Prop :=
  ∃ R C : M3, FlRotMatrix F k.rotK (k.rot x) R ∧ FlProd F (crossMatrix (k.trans x)) R C ∧
    A = fromBlocks R 0 C R

/-- Rounded `jacobianImpl` of the unary operators, from the computed value and operand.  The `2 *` of
VectorBase.hpp:134-139 is the only arithmetic in the others. -/
def FlJacUn (F : Fl) : {a b : Ty} → Un a b → b.Val → a.Val → Matrix b.Idx a.Idx ℝ → Prop
  | _, _, .minus k, _, _, J => J = minusJac (n := k.Idx)
  | _, _, .sqNorm k, _, v, J => J = rowMat (n := k.Idx) fun j => F.rnd (2 * v j)
  | _, _, .invRot k, val, _, J => ∃ M, FlRotMatrix F k val M ∧ J = (-M : M3)
  | _, _, .invRigid k, val, _, J => ∃ A, FlAdjoint F k val A ∧ J = (-A : M6)
  | _, _, .getRot _, _, _, J => J = getRotJac
  | _, _, .getTrans _, val, _, J => J = getTransJac val
  | _, _, .convRot _ _, _, _, J => J = (1 : M3)
  | _, _, .convRigid _ _, _, _, J => J = (1 : M6)
  | _, _, .recast _, _, _, J => J = 1
  | _, _, _, _, _, _ => False

/-- Rounded `leftJacobianImpl` of the binary operators. -/
def FlJacL (F : Fl) : {a b c : Ty} → Bin a b c → c.Val → a.Val → b.Val → Matrix c.Idx a.Idx ℝ → Prop
  | _, _, _, .sum k, _, _, _, J => J = sumJac (n := k.Idx)
  | _, _, _, .sumPV, _, _, _, J => J = sumJac (n := Fin 3)
  | _, _, _, .sumVP, _, _, _, J => J = sumJac (n := Fin 3)
  | _, _, _, .sub k, _, _, _, J => J = subJacL (n := k.Idx)
  | _, _, _, .subPP, _, _, _, J => J = subJacL (n := Fin 3)
  | _, _, _, .subPV, _, _, _, J => J = subJacL (n := Fin 3)
  | _, _, _, .scale k, _, _, v, J => J = scaleJacL (n := k.Idx) v
  | _, _, _, .scaleR k, _, _, s, J => J = scaleRJacL (n := k.Idx) (s (0 : Fin 1))
  | _, _, _, .dot k, _, _, b, J => J = dotJacL (n := k.Idx) b
  | _, _, _, .product, _, _, b, J => J = productJacL (b (0 : Fin 1))
  | _, _, _, .composeQ, _, _, _, J => J = (1 : M3)
  | _, _, _, .composeM, _, _, _, J => J = (1 : M3)
  | _, _, _, .composeRigid _ _, _, _, _, J => J = (1 : M6)
  | _, _, _, .flipQ, _, _, b, J => FlRotMatrix F .quat b J
  | _, _, _, .flipM, _, _, b, J => FlRotMatrix F .mat b J
  | _, _, _, .flipRigid _ b, _, _, y, J => FlAdjoint F b y J
  | _, _, _, .rotateQ, (val : V3), _, _, J => J = crossMatrix (-val)
  | _, _, _, .rotateM, (val : V3), _, _, J => J = crossMatrix (-val)
  | _, _, _, .transform _, val, _, _, J => J = transformJacL val
  | _, _, _, _, _, _, _, _ => False

/-- Rounded `rightJacobianImpl` of the binary operators. -/
def FlJacR (F : Fl) : {a b c : Ty} → Bin a b c → c.Val → a.Val → b.Val → Matrix c.Idx b.Idx ℝ → Prop
  | _, _, _, .sum k, _, _, _, J => J = sumJac (n := k.Idx)
  | _, _, _, .sumPV, _, _, _, J => J = sumJac (n := Fin 3)
  | _, _, _, .sumVP, _, _, _, J => J = sumJac (n := Fin 3)
  | _, _, _, .sub k, _, _, _, J => J = subJacR (n := k.Idx)
  | _, _, _, .subPP, _, _, _, J => J = subJacR (n := Fin 3)
  | _, _, _, .subPV, _, _, _, J => J = subJacR (n := Fin 3)
  | _, _, _, .scale k, _, s, _, J => J = scaleJacR (n := k.Idx) (s (0 : Fin 1))
  | _, _, _, .scaleR k, _, v, _, J => J = scaleRJacR (n := k.Idx) v
  | _, _, _, .dot k, _, a, _, J => J = dotJacR (n := k.Idx) a
  | _, _, _, .product, _, a, _, J => J = productJacR (a (0 : Fin 1))
  | _, _, _, .composeQ, _, a, _, J => FlRotMatrix F .quat a J
  | _, _, _, .composeM, _, a, _, J => FlRotMatrix F .mat a J
  | _, _, _, .composeRigid a _, _, x, _, J => FlAdjoint F a x J
  | _, _, _, .flipQ, _, _, _, J => J = (1 : M3)
  | _, _, _, .flipM, _, _, _, J => J = (1 : M3)
  | _, _, _, .flipRigid _ _, _, _, _, J => J = (1 : M6)
  | _, _, _, .rotateQ, _, q, _, J => FlRotMatrix F .quat q J
  | _, _, _, .rotateM, _, m, _, J => FlRotMatrix F .mat m J
  | _, _, _, .transform k, _, x, _, J => FlRotMatrix F k.rotK (k.rot x) J
  | _, _, _, _, _, _, _, _ => False

variable {ε : ℝ}

/-- Local Jacobian of a unary node from the cached values. -/
def FlNodeJac (F : Fl) {α β : Ty} (op : Un α β) (v : Option β.Val) (x : Option α.Val)
    (J : Matrix β.Idx α.Idx ℝ) : Prop :=
  ∃ v' x', v = some v' ∧ x = some x' ∧ FlJacUn F op v' x' J
/-- Left local Jacobian of a binary node from the cached values. -/
def FlNodeJacL (F : Fl) {α β γ : Ty} (op : Bin α β γ) (v : Option γ.Val) (x : Option α.Val)
    (y : Option β.Val) (J : Matrix γ.Idx α.Idx ℝ) : Prop :=
  ∃ v' x' y', v = some v' ∧ x = some x' ∧ y = some y' ∧ FlJacL F op v' x' y' J
/-- Right local Jacobian of a binary node from the cached values. -/
def FlNodeJacR (F : Fl) {α β γ : Ty} (op : Bin α β γ) (v : Option γ.Val) (x : Option α.Val)
    (y : Option β.Val) (J : Matrix γ.Idx β.Idx ℝ) : Prop :=
  ∃ v' x' y', v = some v' ∧ x = some x' ∧ y = some y' ∧ FlJacR F op v' x' y' J

/-- The chain rule at a unary node: JacobianEvaluator.hpp:85-115,
DynamicJacobianEvaluator.hpp:53-95, TypedJacobianEvaluator.hpp:42-83. -/
def FlStepUn (F : Fl) {α β : Ty} {n : Type} (op : Un α β) (v : Option β.Val) (x : Option α.Val) :
    Option (Matrix α.Idx n ℝ) → Option (Matrix β.Idx n ℝ) → Prop
  | none, o => o = none
  | some J, o => ∃ L K, FlNodeJac F op v x L ∧ FlProd F L J K ∧ o = some K

/-- The chain rule at a binary node: JacobianEvaluator.hpp:118-248,
DynamicJacobianEvaluator.hpp:98-171, TypedJacobianEvaluator.hpp:86-247. -/
def FlStepBin (F : Fl) {α β γ : Ty} {n : Type} (op : Bin α β γ) (v : Option γ.Val)
    (x : Option α.Val) (y : Option β.Val) :
    Option (Matrix α.Idx n ℝ) → Option (Matrix β.Idx n ℝ) → Option (Matrix γ.Idx n ℝ) → Prop
  | none, none, o => o = none
  | some J, none, o => ∃ L K, FlNodeJacL F op v x y L ∧ FlProd F L J K ∧ o = some K
  | none, some J, o => ∃ L K, FlNodeJacR F op v x y L ∧ FlProd F L J K ∧ o = some K
  | some J, some J', o => ∃ L L' K K', FlNodeJacL F op v x y L ∧ FlNodeJacR F op v x y L' ∧
      FlProd F L J K ∧ FlProd F L' J' K' ∧ o = some (Matrix.of fun i j => F.rnd (K i j + K' i j))

/-- The identity matrix of an object, seen as a block towards an equal type. -/
def idMat {τ σ : Ty} (h : τ = σ) : Matrix τ.Idx σ.Idx ℝ := h ▸ (1 : Matrix τ.Idx τ.Idx ℝ)

/-- `DynamicJacobianEvaluator` in floating point (see `ETree.dyn`). -/
def FlDyn (F : Fl) (t : ℕ) (σ : Ty) :
    {τ : Ty} → ETree (geoLib ε) τ → Option (Matrix τ.Idx σ.Idx ℝ) → Prop
  | _, .leaf a _ τ _, o => if a = t then ∃ h : τ = σ, o = some (idMat h) else o = none
  | β, .un a (op : Un _ _) e v, o =>
    if a = t then ∃ h : β = σ, o = some (idMat h)
    else ∃ o', FlDyn F t σ e o' ∧ FlStepUn F op v e.val o' o
  | γ, .bin a (op : Bin _ _ _) l r v, o =>
    if a = t then ∃ h : γ = σ, o = some (idMat h)
    else ∃ ol or, FlDyn F t σ l ol ∧ FlDyn F t σ r or ∧ FlStepBin F op v l.val r.val ol or o
  | τ, .proxy a e, o => if a = t then ∃ h : τ = σ, o = some (idMat h) else FlDyn F t σ e o

/-- `JacobianEvaluator` in floating point (see `ETree.fwd`). -/
def FlFwd (F : Fl) (t : Target (geoLib ε)) :
    {τ : Ty} → ETree (geoLib ε) τ → Option (Matrix τ.Idx (Ty.Idx t.ty) ℝ) → Prop
  | _, .leaf a c τ _, o => if h : τ = t.ty ∧ c = t.cls then
      (if a = t.addr then o = some (idMat h.1) else o = none) else o = none
  | _, .un _ (op : Un _ _) e v, o => ∃ o', FlFwd F t e o' ∧ FlStepUn F op v e.val o' o
  | _, .bin _ (op : Bin _ _ _) l r v, o =>
    if l.hasType t && r.hasType t then
      ∃ ol or, FlFwd F t l ol ∧ FlFwd F t r or ∧ FlStepBin F op v l.val r.val ol or o
    else if l.hasType t then ∃ ol, FlFwd F t l ol ∧ FlStepBin F op v l.val r.val ol none o
    else if r.hasType t then ∃ or, FlFwd F t r or ∧ FlStepBin F op v l.val r.val none or o
    else False
  | τ, .proxy a e, o => if a = t.addr then ∃ h : τ = t.ty, o = some (idMat h)
      else FlDyn F t.addr t.ty e o

/-- `TypedJacobianEvaluator` in floating point (see `ETree.typed`). -/
def FlTyped (F : Fl) (t : Target (geoLib ε)) :
    {τ : Ty} → ETree (geoLib ε) τ → Matrix τ.Idx (Ty.Idx t.ty) ℝ → Prop
  | _, .leaf _ c τ _, J => ∃ h : τ = t.ty, c = t.cls ∧ J = idMat h
  | _, .un _ (op : Un _ _) e v, J => ∃ J', FlTyped F t e J' ∧ FlStepUn F op v e.val (some J') (some J)
  | _, .bin _ (op : Bin _ _ _) l r v, J =>
    if l.hasType t && r.hasType t then
      ∃ K K', FlTyped F t l K ∧ FlTyped F t r K' ∧
        FlStepBin F op v l.val r.val (some K) (some K') (some J)
    else if l.hasType t then
      ∃ K, FlTyped F t l K ∧ FlStepBin F op v l.val r.val (some K) none (some J)
    else if r.hasType t then
      ∃ K, FlTyped F t r K ∧ FlStepBin F op v l.val r.val none (some K) (some J)
    else False
  | _, .proxy _ _, _ => False

/-- `expr.jacobian(x)` in floating point (see `Expr.jacobianAuto`): TypedJacobianEvaluator.hpp:250-290,
JacobianEvaluator.hpp:333-357. -/
def FlAuto (F : Fl) (s : Store (geoLib ε)) (t : Target (geoLib ε)) {τ : Ty} (e : Expr (geoLib ε) τ)
    (J : Matrix τ.Idx (Ty.Idx t.ty) ℝ) : Prop :=
  ∃ T, FlTree F s e T ∧
    if e.uniqueLeaves then (if e.hasType t then FlTyped F t T J else J = 0)
    else ∃ o, FlFwd F t T o ∧ J = o.getD 0

/-- A computed Jacobian block together with the class of its column space. -/
abbrev FlBlock (ρ : Ty) := (σ : Ty) × Matrix ρ.Idx σ.Idx ℝ

/-- `ReverseJacobianEvaluator` in floating point, from the adjoint handed down (see `ETree.rev`); the
blocks that `DynamicReverseJacobianEvaluator` adds to its map are the same (see `ETree.dynRev`). -/
def FlRev (F : Fl) {ρ : Ty} :
    {τ : Ty} → ETree (geoLib ε) τ → Matrix ρ.Idx τ.Idx ℝ → List (FlBlock ρ) → Prop
  | τ, .leaf _ _ _ _, adj, bs => bs = [⟨τ, adj⟩]
  | _, .un _ (op : Un _ _) e v, adj, bs =>
    ∃ L K, FlNodeJac F op v e.val L ∧ FlProd F adj L K ∧ FlRev F e K bs
  | _, .bin _ (op : Bin _ _ _) l r v, adj, bs => ∃ L L' K K' b b', FlNodeJacL F op v l.val r.val L ∧
      FlNodeJacR F op v l.val r.val L' ∧ FlProd F adj L K ∧ FlProd F adj L' K' ∧ FlRev F l K b ∧
      FlRev F r K' b' ∧ bs = b ++ b'
  | _, .proxy _ e, adj, bs => FlRev F e adj bs

end WG
