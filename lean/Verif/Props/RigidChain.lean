import Verif.Spec.RigidChain
import Verif.Props.Chain

/-!
# C77: chains of rigid transforms of any length
-/

namespace WG
open Matrix Spec

variable {ε : ℝ} {K : ℕ → RigK}

/-- The evaluable tree of the product; the class of a product is that of its right operand. -/
def rigidTree (ε : ℝ) (K : ℕ → RigK) (F : ℕ → Frame) (A : ℕ → ℕ) : (n : ℕ) → Expr (geoLib ε) (.rigid (K n))
  | 0 => .leaf (L := geoLib ε) (A 0) (Labels.two (F 0) (F 1)).code (.rigid (K 0))
  | n + 1 => .bin (L := geoLib ε) 0 (.composeRigid (K n) (K (n + 1))) (rigidTree ε K F A n)
      (.leaf (L := geoLib ε) (A (n + 1)) (Labels.two (F (n + 1)) (F (n + 2))).code (.rigid (K (n + 1))))

/-- The evaluable tree of the moved point. -/
def transformTree (ε : ℝ) (K : ℕ → RigK) (F : ℕ → Frame) (G H : Frame) (A : ℕ → ℕ) (b n : ℕ) :
    Expr (geoLib ε) (.vec .trans) :=
  .bin (L := geoLib ε) 0 (.transform (K n)) (rigidTree ε K F A n)
    (.leaf (L := geoLib ε) b (Labels.three (F (n + 1)) G H).code (.vec .trans))

/-- The rigid transform objects of the chain. -/
def rigTarget (ε : ℝ) (K : ℕ → RigK) (F : ℕ → Frame) (A : ℕ → ℕ) (i : ℕ) : Target (geoLib ε) :=
  ⟨A i, (Labels.two (F i) (F (i + 1))).code, .rigid (K i)⟩

theorem rigid_build (F : ℕ → Frame) (A : ℕ → ℕ) : (n : ℕ) →
    (rigidProduct K F A n).build ε = some (⟨.rigid (K n), rigidTree ε K F A n⟩, .two (F 0) (F (n + 1)))
  | 0 => rfl
  | n + 1 => by
    have ih := rigid_build F A n
    have key : ∀ {o : Option Labels} {f : Labels} {x : Tree ε}, o = some f →
      (o.map fun f => (x, f)) = some (x, f) := by rintro o f x rfl; rfl
    rw [rigidProduct, FExpr.build, ih]
    have h : composeLabels (.rigid (K (n + 1))) (.two (F 0) (F (n + 1))) (.two (F (n + 1)) (F (n + 2))) =
        some (.two (F 0) (F (n + 2))) := if_pos rfl
    exact key h

/-- **C77, frames.** For every length, every mixture of the two classes and all frames the chain is accepted.
The result has the left frame of the first transform twice, and the right frame of the point; the point's
middle frame is forgotten. -/
theorem c77_frames (K : ℕ → RigK) (F : ℕ → Frame) (G H : Frame) (A : ℕ → ℕ) (b n : ℕ) :
    (transformChain K F G H A b n).build ε =
      some (⟨.vec .trans, transformTree ε K F G H A b n⟩, .three (F 0) (F 0) H) := by
  have key : ∀ {o : Option Labels} {f : Labels} {x : Tree ε}, o = some f →
    (o.map fun f => (x, f)) = some (x, f) := by rintro o f x rfl; rfl
  rw [transformChain, FExpr.build, rigid_build]
  have h : transformLabels (.vec .trans) (.two (F 0) (F (n + 1))) (.three (F (n + 1)) G H) =
      some (.three (F 0) (F 0) H) := if_pos rfl
  exact key h

/-- The product of the first `i` motions. -/
def motions (T : ℕ → Rigid) : ℕ → Rigid
  | 0 => Rigid.id
  | i + 1 => (motions T i).comp (T i)

theorem rigid_id_comp (S : Rigid) : Rigid.id.comp S = S := by
  cases S
  simp [Rigid.comp, Rigid.id, Rigid.act]

theorem comp_act (S T : Rigid) (x : V3) : (S.comp T).act x = S.act (T.act x) := by
  simp only [Rigid.comp, Rigid.act, mulVec_add, ← mulVec_mulVec, add_assoc]

theorem motions_R (T : ℕ → Rigid) : (i : ℕ) → (motions T i).R = partialProduct (fun j => (T j).R) i
  | 0 => rfl
  | i + 1 => by rw [partialProduct_succ, ← motions_R T i]; rfl

theorem motions_act (T : ℕ → Rigid) (p : V3) : (i k : ℕ) →
    (motions T i).act (moved T p i k) = moved T p 0 (i + k)
  | 0, k => by rw [zero_add]; simp [motions, Rigid.id, Rigid.act]
  | i + 1, k => by
    rw [show i + 1 + k = i + (k + 1) by omega, ← motions_act T p i (k + 1), motions, comp_act, moved]

theorem rigid_means {s : Memory} {F : ℕ → Frame} {A : ℕ → ℕ}
    (hv : ∀ i, Valid (.rigid (K i)) (s (A i) (.rigid (K i)))) : (n : ℕ) →
    Means ε s (rigidProduct K F A n).erase
      (.motion (motions (fun i => rigidDen (K i) (s (A i) (.rigid (K i)))) (n + 1)))
  | 0 => by
    rw [motions, motions, rigid_id_comp]
    exact .leaf _ 0 (.rigid (K 0)) (hv 0)
  | n + 1 => .mulMotion (rigid_means hv n) (.leaf _ 0 (.rigid (K (n + 1))) (hv (n + 1)))

/-- **C77, value.** For every length and every mixture of classes of valid transforms the result is the point
moved by the last transform, then by the one before it, and so on. -/
theorem c77_value (hε : 0 < ε) {s : Memory} (F : ℕ → Frame) (G H : Frame) {A : ℕ → ℕ}
    (hv : ∀ i, Valid (.rigid (K i)) (s (A i) (.rigid (K i)))) (b n : ℕ) :
    Yields ε s (transformChain K F G H A b n).erase (.vec .trans
      (moved (fun i => rigidDen (K i) (s (A i) (.rigid (K i)))) (s b (.vec .trans) : V3) 0 (n + 1))) := by
  have h := motions_act (fun i => rigidDen (K i) (s (A i) (.rigid (K i)))) (s b (.vec .trans) : V3) (n + 1) 0
  rw [← show n + 1 + 0 = n + 1 from rfl, ← h]
  exact c01_evaluation_meaning hε (.act (rigid_means hv n) (.leaf _ 0 (.vec .trans) trivial))

/-- What the operators do with valid operands. -/
theorem rigid_op {a b : RigK} {x : a.Val} {y : b.Val} (hx : ValidRigid a x) (hy : ValidRigid b y) :
    ∃ z : b.Val, evalBin (.composeRigid a b) x y = some z ∧ ValidRigid b z ∧
      rigidDen b z = (rigidDen a x).comp (rigidDen b y) ∧
      jacL (.composeRigid a b) z x y = some (1 : M6) ∧
      jacR (.composeRigid a b) z x y = some (adjoint (rigidDen a x).R (rigidDen a x).t) := by
  obtain ⟨z, h1, h2, h3⟩ := composeRigid_sound a b x y hx hy
  refine ⟨z, h1, h2, h3, rfl, ?_⟩
  rw [rigidDen_eq a x hx]
  rfl

theorem rigid_act {a : RigK} {x : a.Val} (hx : ValidRigid a x) (y : V3) :
    ∃ z : V3, evalBin (.transform a) x y = some z ∧ z = (rigidDen a x).act y ∧
      jacL (.transform a) z x y = some (transformJacL z) ∧
      jacR (.transform a) z x y = some (rigidDen a x).R := by
  refine ⟨_, rfl, ?_, rfl, ?_⟩
  · rw [rigidDen_eq a x hx]
    unfold transformEval Rigid.act
    rw [rigK_rotate]
  · rw [rigidDen_eq a x hx]
    rfl

/-- The product of the code's matrices is the one of the specification. -/
theorem slope_eq {T : ℕ → Rigid} {i : ℕ} (hR : IsRotation (motions T i).R) (w : V3) :
    transformJacL ((motions T i).act w) * adjoint (motions T i).R (motions T i).t = chainSlope T w i := by
  have hc := hR.cross w
  rw [chainSlope, ← motions_R, transformJacL, adjoint, fromCols_mul_fromBlocks, mul_fromCols]
  refine congrArg₂ fromCols ?_ (by simp)
  rw [hat_eq, Rigid.act, Matrix.one_mul, ← Matrix.add_mul, ← crossMatrix_add, crossMatrix_neg,
    Matrix.mul_neg, ← hc, ← Matrix.neg_mul, ← crossMatrix_neg]
  refine congrArg (fun x => crossMatrix x * _) ?_
  abel

theorem rigid_no_vec {s : Store (geoLib ε)} {F : ℕ → Frame} {A : ℕ → ℕ} {a c : ℕ} : (n : ℕ) →
    occurrences s (⟨a, c, .vec .trans⟩ : Target (geoLib ε)) (rigidTree ε K F A n) = []
  | 0 => dif_neg fun e => by cases congrArg Target.ty e
  | n + 1 => by
    show List.map _ (occurrences s _ (rigidTree ε K F A n)) ++ List.map _ (dite _ _ _) = _
    rw [rigid_no_vec n, dif_neg fun e => by cases congrArg Target.ty e]
    rfl

theorem rigid_leaf_total {s : Store (geoLib ε)} (a' c' a c : ℕ) (k' k : RigK) :
    total (occurrences s ⟨a, c, .rigid k⟩ (.leaf (L := geoLib ε) a' c' (.rigid k'))) =
      some (if a' = a ∧ c' = c ∧ k' = k then (1 : M6) else 0) := by
  by_cases h : a' = a ∧ c' = c ∧ k' = k
  · obtain ⟨rfl, rfl, rfl⟩ := h
    rw [if_pos ⟨rfl, rfl, rfl⟩]
    show total (dite _ _ _) = _
    rw [dif_pos rfl]
    exact congrArg some (add_zero _)
  · rw [if_neg h]
    show total (dite _ _ _) = _
    rw [dif_neg fun e => h ⟨congrArg Target.addr e, congrArg Target.cls e, by
      have := congrArg Target.ty e; injection this⟩]
    rfl

section
variable {s : Store (geoLib ε)} {F : ℕ → Frame} {A : ℕ → ℕ}
  (hv : ∀ i, Valid (.rigid (K i)) (s (A i) (.rigid (K i))))
include hv

theorem rigidTree_value : (n : ℕ) → ∃ z : (K n).Val, value s (rigidTree ε K F A n) = some z ∧
    ValidRigid (K n) z ∧ rigidDen (K n) z = motions (fun i => rigidDen (K i) (s (A i) (.rigid (K i)))) (n + 1)
  | 0 => ⟨_, rfl, hv 0, by rw [motions, motions, rigid_id_comp]⟩
  | n + 1 => by
    obtain ⟨x, h1, h2, h3⟩ := rigidTree_value n
    obtain ⟨z, e1, e2, e3, -, -⟩ := rigid_op h2 (hv (n + 1))
    refine ⟨z, ?_, e2, by rw [e3, h3]; rfl⟩
    show (value s (rigidTree ε K F A n)).bind (fun x => (some _).bind fun y =>
      evalBin (.composeRigid (K n) (K (n + 1))) x y) = _
    rw [h1]; exact e1

theorem motions_isRotation (i : ℕ) :
    IsRotation (motions (fun i => rigidDen (K i) (s (A i) (.rigid (K i)))) i).R := by
  cases i with
  | zero => exact Spec.IsRotation.one
  | succ n =>
    obtain ⟨z, -, h2, h3⟩ := rigidTree_value (F := fun _ => none) hv n
    rw [← h3, rigidDen_eq _ _ h2]
    exact validRigid_rotation _ _ h2

/-- The Jacobian of the product with respect to any rigid transform object: the sum of the adjoints of the
partial products over the places where it stands. -/
theorem rigidTree_total (a c : ℕ) (k : RigK) : (n : ℕ) →
    total (occurrences s ⟨a, c, .rigid k⟩ (rigidTree ε K F A n)) =
      some (∑ i ∈ Finset.range (n + 1), if A i = a ∧ (Labels.two (F i) (F (i + 1))).code = c ∧ K i = k then
        adjoint (motions (fun i => rigidDen (K i) (s (A i) (.rigid (K i)))) i).R
          (motions (fun i => rigidDen (K i) (s (A i) (.rigid (K i)))) i).t else 0)
  | 0 => by
    rw [Finset.sum_range_one]
    refine (rigid_leaf_total (A 0) _ a c (K 0) k).trans (congrArg some (if_congr Iff.rfl ?_ rfl))
    show (1 : M6) = adjoint (1 : M3) 0
    rw [adjoint, crossMatrix_zero, Matrix.zero_mul, fromBlocks_one]
  | n + 1 => by
    obtain ⟨x, h1, h2, h3⟩ := rigidTree_value hv (F := F) n
    obtain ⟨z, e1, e2, e3, e4, e5⟩ := rigid_op h2 (hv (n + 1))
    have sl : slopeL s (L := geoLib ε) (.composeRigid (K n) (K (n + 1))) (rigidTree ε K F A n)
        (.leaf (L := geoLib ε) (A (n + 1)) (Labels.two (F (n + 1)) (F (n + 2))).code (.rigid (K (n + 1)))) =
          some (1 : M6) := by
      show (value s (rigidTree ε K F A n)).bind (fun x => (some _).bind fun y =>
        (evalBin (.composeRigid (K n) (K (n + 1))) x y).bind
        fun v => jacL (.composeRigid (K n) (K (n + 1))) v x y) = _
      rw [h1, Option.bind_some, Option.bind_some, e1]; exact e4
    have sr : slopeR s (L := geoLib ε) (.composeRigid (K n) (K (n + 1))) (rigidTree ε K F A n)
        (.leaf (L := geoLib ε) (A (n + 1)) (Labels.two (F (n + 1)) (F (n + 2))).code (.rigid (K (n + 1)))) =
          some (adjoint (rigidDen (K n) x).R (rigidDen (K n) x).t) := by
      show (value s (rigidTree ε K F A n)).bind (fun x => (some _).bind fun y =>
        (evalBin (.composeRigid (K n) (K (n + 1))) x y).bind
        fun v => jacR (.composeRigid (K n) (K (n + 1))) v x y) = _
      rw [h1, Option.bind_some, Option.bind_some, e1]; exact e5
    show total (List.map (OMat.mul (slopeL s (.composeRigid (K n) (K (n + 1))) _ _)) _ ++
      List.map (OMat.mul (slopeR s (.composeRigid (K n) (K (n + 1))) _ _)) _) = _
    rw [sl, sr, total_append, Finset.sum_range_succ, total_map_of _ (rigidTree_total a c k n),
      total_map_of _ (rigid_leaf_total (A (n + 1)) _ a c (K (n + 1)) k)]
    refine congrArg some (congrArg₂ (· + ·) (Matrix.one_mul _) ?_)
    rw [h3, mul_ite, mul_one, mul_zero]

/-- The value of the whole chain, and its Jacobians with respect to any rigid transform object and the
point. -/
theorem transformTree_total (G H : Frame) (b n : ℕ) :
    ∃ T : ℕ → Rigid, (∀ i, T i = rigidDen (K i) (s (A i) (.rigid (K i)))) ∧
    ∃ v : V3, v = moved T (s b (.vec .trans) : V3) 0 (n + 1) ∧
      value s (transformTree ε K F G H A b n) = some v ∧
      (∀ a c k, total (occurrences s ⟨a, c, .rigid k⟩ (transformTree ε K F G H A b n)) =
        some (∑ i ∈ Finset.range (n + 1),
          if A i = a ∧ (Labels.two (F i) (F (i + 1))).code = c ∧ K i = k then
            chainSlope T (moved T (s b (.vec .trans) : V3) i (n + 1 - i)) i else 0)) ∧
      total (occurrences s (vecTarget ε F G H b n) (transformTree ε K F G H A b n)) =
        some (partialProduct (fun i => (T i).R) (n + 1)) := by
  refine ⟨_, fun i => rfl, ?_⟩
  obtain ⟨x, h1, h2, h3⟩ := rigidTree_value hv (F := F) n
  obtain ⟨z, e1, e2, e3, e4⟩ := rigid_act h2 (s b (.vec .trans))
  have hz : z = moved (fun i => rigidDen (K i) (s (A i) (.rigid (K i)))) (s b (.vec .trans) : V3) 0 (n + 1) := by
    rw [e2, h3]
    exact motions_act _ _ (n + 1) 0
  have sl : slopeL s (L := geoLib ε) (.transform (K n)) (rigidTree ε K F A n)
      (.leaf (L := geoLib ε) b (Labels.three (F (n + 1)) G H).code (.vec .trans)) = some (transformJacL z) := by
    show (value s (rigidTree ε K F A n)).bind (fun x => (some _).bind fun y =>
      (evalBin (.transform (K n)) x y).bind fun v => jacL (.transform (K n)) v x y) = _
    rw [h1, Option.bind_some, Option.bind_some, e1]; exact e3
  have sr : slopeR s (L := geoLib ε) (.transform (K n)) (rigidTree ε K F A n)
      (.leaf (L := geoLib ε) b (Labels.three (F (n + 1)) G H).code (.vec .trans)) =
        some (rigidDen (K n) x).R := by
    show (value s (rigidTree ε K F A n)).bind (fun x => (some _).bind fun y =>
      (evalBin (.transform (K n)) x y).bind fun v => jacR (.transform (K n)) v x y) = _
    rw [h1, Option.bind_some, Option.bind_some, e1]; exact e4
  refine ⟨z, hz, ?_, fun a c k => ?_, ?_⟩
  · show (value s (rigidTree ε K F A n)).bind (fun x => (some _).bind fun y =>
      evalBin (.transform (K n)) x y) = _
    rw [h1]; exact e1
  · show total (List.map (OMat.mul (slopeL s (.transform (K n)) _ _)) _ ++
      List.map (OMat.mul (slopeR s (.transform (K n)) _ _)) _) = _
    have miss : occurrences s (⟨a, c, .rigid k⟩ : Target (geoLib ε)) (.leaf (L := geoLib ε) b
        (Labels.three (F (n + 1)) G H).code (.vec .trans)) = [] :=
      dif_neg fun e => by cases congrArg Target.ty e
    rw [sl, sr, total_append, total_map_of _ (rigidTree_total hv a c k n), miss]
    refine congrArg some ((add_zero _).trans ?_)
    rw [Matrix.mul_sum]
    refine Finset.sum_congr rfl fun i hi => ?_
    rw [Finset.mem_range] at hi
    split_ifs
    · rw [hz, ← slope_eq (motions_isRotation hv i), motions_act, show i + (n + 1 - i) = n + 1 by omega]
    · exact Matrix.mul_zero _
  · show total (List.map (OMat.mul (slopeL s (.transform (K n)) _ _)) _ ++
      List.map (OMat.mul (slopeR s (.transform (K n)) _ _)) _) = _
    have hit : occurrences s (vecTarget ε F G H b n) (.leaf (L := geoLib ε) b
        (Labels.three (F (n + 1)) G H).code (.vec .trans)) = [some (1 : M3)] := dif_pos rfl
    have miss : occurrences s (vecTarget ε F G H b n) (rigidTree ε K F A n) = [] :=
      rigid_no_vec n
    rw [sl, sr, miss, hit, ← motions_R, ← h3]
    refine congrArg some ?_
    exact (add_zero _).trans (Matrix.mul_one _)
end

theorem rigid_objects {F : ℕ → Frame} {A : ℕ → ℕ} : (n : ℕ) →
    objects (rigidTree ε K F A n) = (List.range (n + 1)).map (rigTarget ε K F A)
  | 0 => rfl
  | n + 1 => by
    rw [List.range_succ, List.map_append, ← rigid_objects n]; rfl

theorem transform_objects {F : ℕ → Frame} {G H : Frame} {A : ℕ → ℕ} {b n : ℕ} :
    objects (transformTree ε K F G H A b n) =
      (List.range (n + 1)).map (rigTarget ε K F A) ++ [vecTarget ε F G H b n] := by
  rw [← rigid_objects]; rfl

theorem rigid_noProxy {F : ℕ → Frame} {A : ℕ → ℕ} : (n : ℕ) → (rigidTree ε K F A n).noProxy = true
  | 0 => rfl
  | n + 1 => by
    show ((rigidTree ε K F A n).noProxy && true) = true
    rw [rigid_noProxy n]; rfl

theorem transform_noProxy {F : ℕ → Frame} {G H : Frame} {A : ℕ → ℕ} {b n : ℕ} :
    (transformTree ε K F G H A b n).noProxy = true := by
  show ((rigidTree ε K F A n).noProxy && true) = true
  rw [rigid_noProxy n]; rfl

theorem rigid_operations {F : ℕ → Frame} {A : ℕ → ℕ} : (n : ℕ) →
    (operations (rigidTree ε K F A n)).length = n
  | 0 => rfl
  | n + 1 => by
    show (operations (rigidTree ε K F A n) ++ [] ++ [0]).length = n + 1
    rw [List.append_nil, List.length_append, rigid_operations n]; rfl

/-- **C77, Jacobians.** `evalWithJacobians(T_0, …, T_n, p)` of a chain of distinct objects returns the value
and, for every length and every mixture of the two classes, the matrices of the specification.  Each of the
`n + 1` operations of the chain is evaluated once. -/
theorem c77_jacobians {s : Store (geoLib ε)} (F : ℕ → Frame) (G H : Frame) {A : ℕ → ℕ}
    (hv : ∀ i, Valid (.rigid (K i)) (s (A i) (.rigid (K i)))) (b n : ℕ)
    (hA : ∀ i ≤ n, ∀ j ≤ n, A i = A j → i = j)
    {T : ℕ → Rigid} (hT : ∀ i, rigidDen (K i) (s (A i) (.rigid (K i))) = T i)
    {p : V3} (hp : s b (.vec .trans) = p) :
    ∃ log : List ℕ, log.length = n + 1 ∧
      (transformTree ε K F G H A b n).evalWithJacobiansLog s
        ((List.range (n + 1)).map (rigTarget ε K F A) ++ [vecTarget ε F G H b n]) =
      some ((some (moved T p 0 (n + 1)),
        (List.range (n + 1)).map (fun i => ⟨.rigid (K i), some (chainSlope T (moved T p i (n + 1 - i)) i)⟩) ++
        [⟨.vec .trans, some (partialProduct (fun i => (T i).R) (n + 1))⟩]), log) := by
  obtain ⟨T', hT', z, rfl, h2, h3, h4⟩ := transformTree_total hv (F := F) G H b n
  obtain rfl : T = T' := funext fun i => (hT i).symm.trans (hT' i).symm
  subst hp
  have acc := c22_accepted (L := geoLib ε) s (transformTree ε K F G H A b n)
    ((List.range (n + 1)).map (rigTarget ε K F A) ++ [vecTarget ε F G H b n]) transform_noProxy
    (fun t ht => by rw [transform_objects]; exact ht)
  refine ⟨operations (transformTree ε K F G H A b n), ?_, ?_⟩
  · show (operations (rigidTree ε K F A n) ++ [] ++ [0]).length = n + 1
    rw [List.append_nil, List.length_append, rigid_operations n]; rfl
  rw [acc, h2, List.map_append, List.map_map]
  refine congrArg (fun l => some ((some _, l), _)) (congrArg₂ (· ++ ·) (List.map_congr_left fun i hi => ?_) ?_)
  · refine congrArg (Sigma.mk (β := fun τ : Ty => OMat (Fin 3) τ.Idx) (.rigid (K i)))
      ((h3 _ _ _).trans (congrArg some ?_))
    rw [List.mem_range] at hi
    rw [Finset.sum_eq_single i]
    · rw [if_pos ⟨rfl, rfl, rfl⟩]
    · intro j hj hne
      rw [if_neg]
      rintro ⟨h, -⟩
      rw [Finset.mem_range] at hj
      exact hne (hA j (by omega) i (by omega) h)
    · intro h
      exact absurd (Finset.mem_range.2 hi) h
  · exact congrArg (fun x => [Sigma.mk (β := fun τ : Ty => OMat (Fin 3) τ.Idx) (.vec .trans) x]) h4

/-- **C77, repeated objects.** If the same object stands at several places of the chain, its Jacobian is the
sum of the matrices for these places. -/
theorem c77_repeated {s : Store (geoLib ε)} (F : ℕ → Frame) (G H : Frame) {A : ℕ → ℕ}
    (hv : ∀ i, Valid (.rigid (K i)) (s (A i) (.rigid (K i)))) (b n : ℕ)
    {T : ℕ → Rigid} (hT : ∀ i, rigidDen (K i) (s (A i) (.rigid (K i))) = T i)
    {p : V3} (hp : s b (.vec .trans) = p) {j : ℕ} (hj : j ≤ n) :
    (transformTree ε K F G H A b n).jacobianAuto s (rigTarget ε K F A j) =
      some (∑ i ∈ (Finset.range (n + 1)).filter
          fun i => A i = A j ∧ (F i = F j ∧ F (i + 1) = F (j + 1)) ∧ K i = K j,
        chainSlope T (moved T p i (n + 1 - i)) i) := by
  obtain ⟨T', hT', z, rfl, h2, h3, h4⟩ := transformTree_total hv (F := F) G H b n
  obtain rfl : T = T' := funext fun i => (hT i).symm.trans (hT' i).symm
  subst hp
  rw [c20_auto s _ _ (by
    rw [transform_objects]
    exact List.mem_append_left _ (List.mem_map.2 ⟨j, List.mem_range.2 (by omega), rfl⟩)) (.inl transform_noProxy)]
  refine (h3 _ _ _).trans (congrArg some ?_)
  rw [Finset.sum_filter]
  refine Finset.sum_congr rfl fun i _ => if_congr ?_ rfl rfl
  rw [two_code_iff]

theorem rigid_regular {s : Store (geoLib ε)} {F : ℕ → Frame} {A : ℕ → ℕ}
    (hv : ∀ i, Valid (.rigid (K i)) (s (A i) (.rigid (K i)))) : (n : ℕ) → RegularAt ε s (rigidTree ε K F A n)
  | 0 => hv 0
  | n + 1 => ⟨rigid_regular hv n, hv (n + 1), fun _ _ _ _ => trivial⟩

/-- **C77, derivatives.** For all valid transforms and all points, without exception, these matrices are the
derivatives of the moved point. -/
theorem c77_derivative (hε : 0 < ε) (hε1 : ε ≤ 1) {s : Store (geoLib ε)}
    (F : ℕ → Frame) (G H : Frame) {A : ℕ → ℕ}
    (hv : ∀ i, Valid (.rigid (K i)) (s (A i) (.rigid (K i)))) (b n : ℕ)
    (hA : ∀ i ≤ n, ∀ j ≤ n, A i = A j → i = j)
    {T : ℕ → Rigid} (hT : ∀ i, rigidDen (K i) (s (A i) (.rigid (K i))) = T i)
    {p : V3} (hp : s b (.vec .trans) = p) :
    (∀ j ≤ n, IsDerivative s (rigTarget ε K F A j) (transformTree ε K F G H A b n)
      (chainSlope T (moved T p j (n + 1 - j)) j)) ∧
    IsDerivative s (vecTarget ε F G H b n) (transformTree ε K F G H A b n)
      (partialProduct (fun i => (T i).R) (n + 1)) := by
  obtain ⟨T', hT', z, rfl, h2, h3, h4⟩ := transformTree_total hv (F := F) G H b n
  obtain rfl : T = T' := funext fun i => (hT i).symm.trans (hT' i).symm
  subst hp
  have reg : RegularAt ε s (transformTree ε K F G H A b n) :=
    ⟨rigid_regular hv n, trivial, fun _ _ _ _ => trivial⟩
  have mem : ∀ o ∈ objects (transformTree ε K F G H A b n),
      (∃ i ≤ n, o = rigTarget ε K F A i) ∨ o = vecTarget ε F G H b n := by
    intro o ho
    rw [transform_objects, List.mem_append, List.mem_map, List.mem_singleton] at ho
    rcases ho with ⟨i, hi, rfl⟩ | rfl
    · exact .inl ⟨i, by rw [List.mem_range] at hi; omega, rfl⟩
    · exact .inr rfl
  refine ⟨fun j hj => ?_, ?_⟩
  · refine response_deriv hε hε1 s _ _ reg (by
      rw [transform_objects]
      exact List.mem_append_left _ (List.mem_map.2 ⟨j, List.mem_range.2 (by omega), rfl⟩))
      (fun o ho h1 h2 => ?_) ((h3 _ _ _).trans (congrArg some ?_))
    · rcases mem o ho with ⟨i, hi, rfl⟩ | rfl
      · rw [hA i hi j hj h1]
      · cases h2
    · rw [Finset.sum_eq_single j]
      · rw [if_pos ⟨rfl, rfl, rfl⟩]
      · intro i hi hne
        rw [if_neg]
        rintro ⟨h, -⟩
        rw [Finset.mem_range] at hi
        exact hne (hA i (by omega) j hj h)
      · intro h
        exact absurd (Finset.mem_range.2 (by omega)) h
  · refine response_deriv hε hε1 s _ _ reg (by
      rw [transform_objects]; exact List.mem_append_right _ (List.mem_singleton.2 rfl))
      (fun o ho h1 h2 => ?_) h4
    rcases mem o ho with ⟨i, hi, rfl⟩ | rfl
    · cases h2
    · rfl

/-- **C77, reverse mode.** `evalWithJacobians()`, which is offered when no two transforms of the chain have
the same class and the same two labels, returns the same value and the same matrices. -/
theorem c77_reverse {s : Store (geoLib ε)} {F : ℕ → Frame} (G H : Frame) {A : ℕ → ℕ}
    (hv : ∀ i, Valid (.rigid (K i)) (s (A i) (.rigid (K i)))) (b n : ℕ)
    (hF : ∀ i ≤ n, ∀ j ≤ n, K i = K j → F i = F j → F (i + 1) = F (j + 1) → i = j)
    {T : ℕ → Rigid} (hT : ∀ i, rigidDen (K i) (s (A i) (.rigid (K i))) = T i)
    {p : V3} (hp : s b (.vec .trans) = p) :
    (transformTree ε K F G H A b n).uniqueLeaves ∧
      (transformTree ε K F G H A b n).reverse s =
        (some (moved T p 0 (n + 1)),
          (List.range (n + 1)).map (fun i => ⟨.rigid (K i), some (chainSlope T (moved T p i (n + 1 - i)) i)⟩) ++
          [⟨.vec .trans, some (partialProduct (fun i => (T i).R) (n + 1))⟩]) := by
  obtain ⟨T', hT', z, rfl, h2, h3, h4⟩ := transformTree_total hv (F := F) G H b n
  obtain rfl : T = T' := funext fun i => (hT i).symm.trans (hT' i).symm
  subst hp
  have hu : (transformTree ε K F G H A b n).uniqueLeaves = true := by
    refine (uniqueLeaves_iff _).2 ⟨transform_noProxy, ?_⟩
    show ((objects (transformTree ε K F G H A b n)).map fun o => (o.ty, o.cls)).Nodup
    rw [transform_objects, List.map_append, List.map_map, List.nodup_append]
    refine ⟨List.Nodup.map_on ?_ List.nodup_range, List.nodup_singleton _, ?_⟩
    · intro i hi j hj h
      rw [List.mem_range] at hi hj
      obtain ⟨f1, f2⟩ := two_code_iff.1 (congrArg Prod.snd h)
      have hk : Ty.rigid (K i) = Ty.rigid (K j) := congrArg Prod.fst h
      exact hF i (by omega) j (by omega) (by injection hk) f1 f2
    · intro x hx y hy h
      obtain ⟨i, -, rfl⟩ := List.mem_map.1 hx
      rw [List.mem_singleton.1 hy] at h
      cases congrArg Prod.fst h
  refine ⟨hu, ?_⟩
  rw [(c17_reverse_eq_forward s _ hu).1, transform_objects, List.map_append, List.map_map]
  refine Prod.ext ?_ (congrArg₂ (· ++ ·) (List.map_congr_left fun i hi => ?_) ?_)
  · exact (mk_val s _).trans h2
  · refine congrArg (Sigma.mk (β := fun τ : Ty => OMat (Fin 3) τ.Idx) (.rigid (K i))) ?_
    refine (c20_sum_over_occurrences s _ _ transform_noProxy).trans ((h3 _ _ _).trans (congrArg some ?_))
    rw [List.mem_range] at hi
    rw [Finset.sum_eq_single i]
    · rw [if_pos ⟨rfl, rfl, rfl⟩]
    · intro j hj hne
      rw [if_neg]
      rintro ⟨-, h, hk⟩
      obtain ⟨f1, f2⟩ := two_code_iff.1 h
      rw [Finset.mem_range] at hj
      exact hne (hF j (by omega) i (by omega) hk f1 f2)
    · intro h
      exact absurd (Finset.mem_range.2 hi) h
  · exact congrArg (fun x => [Sigma.mk (β := fun τ : Ty => OMat (Fin 3) τ.Idx) (.vec .trans) x])
      ((c20_sum_over_occurrences s _ _ transform_noProxy).trans h4)

/-! ## Cases -/

/-- A chain of eight transforms, alternately of the two classes: the hypotheses hold. -/
example : ∃ K : ℕ → RigK, K 0 ≠ K 1 ∧ (∀ i, Valid (.rigid (K i)) (demo (100 + i) (.rigid (K i)))) ∧
    (∀ i ≤ 7, ∀ j ≤ 7, 100 + i = 100 + j → i = j) ∧
    (∀ i ≤ 7, ∀ j ≤ 7, K i = K j → (some i : Frame) = some j → (some (i + 1) : Frame) = some (j + 1) → i = j) ∧
    ∃ r, Yields dblEps demo (transformChain K (fun i => some i) (some 0) (some 1) (fun i => 100 + i)
      200 7).erase (.vec .trans r) :=
  ⟨fun i => if i % 2 = 0 then .mat else .compact, by decide, fun i => demo_valid _ _, fun _ _ _ _ h => by omega,
    fun _ _ _ _ _ h _ => Option.some.inj h, _, c77_value dblEps_pos _ _ _ (fun _ => demo_valid _ _) _ _⟩

/-- Two motions, a translation by `(1, 0, 0)` after a quarter turn about the third axis: where `(1, 0, 0)`
gets to, and the matrix for the first of them. -/
example (T : ℕ → Rigid) (h0 : T 0 = ⟨1, ![1, 0, 0]⟩) (h1 : T 1 = ⟨!![0, -1, 0; 1, 0, 0; 0, 0, 1], 0⟩) :
    moved T ![1, 0, 0] 0 2 = ![1, 1, 0] ∧ chainSlope T (moved T ![1, 0, 0] 0 2) 0 =
      fromCols !![0, 0, -1; 0, 0, 1; 1, -1, 0] 1 := by
  have h : moved T ![1, 0, 0] 0 2 = ![1, 1, 0] := by
    rw [moved, moved, moved, h0, h1]
    funext i
    fin_cases i <;> simp [Rigid.act]
  refine ⟨h, ?_⟩
  rw [h, chainSlope, partialProduct, List.range_zero, List.map_nil, List.prod_nil, Matrix.one_mul, hat_eq]
  refine congrArg₂ fromCols ?_ rfl
  ext i j
  fin_cases i <;> fin_cases j <;> simp [crossMatrix]

end WG
