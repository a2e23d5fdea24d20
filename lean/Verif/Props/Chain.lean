import Verif.Spec.Chain
import Verif.Props.DerivativeUser

/-!
# C73: chains of rotations of any length
-/

namespace WG
open Matrix Spec

variable {ε : ℝ}

/-- The two classes of rotations with a product of their own, and their operators. -/
inductive ChainClass : (k : RotK) → Bin (.rot k) (.rot k) (.rot k) → Bin (.rot k) (.vec .trans) (.vec .trans) → Prop
  | mat : ChainClass .mat .composeM .rotateM
  | quat : ChainClass .quat .composeQ .rotateQ

variable {k : RotK} {op : Bin (.rot k) (.rot k) (.rot k)} {rop : Bin (.rot k) (.vec .trans) (.vec .trans)}

/-- The evaluable tree of the product. -/
def chainTree (ε : ℝ) (op : Bin (.rot k) (.rot k) (.rot k)) (F : ℕ → Frame) (A : ℕ → ℕ) :
    ℕ → Expr (geoLib ε) (.rot k)
  | 0 => .leaf (L := geoLib ε) (A 0) (Labels.two (F 0) (F 1)).code (.rot k)
  | n + 1 => .bin (L := geoLib ε) 0 op (chainTree ε op F A n)
      (.leaf (L := geoLib ε) (A (n + 1)) (Labels.two (F (n + 1)) (F (n + 2))).code (.rot k))

/-- The evaluable tree of the rotated vector. -/
def rotateTree (ε : ℝ) (op : Bin (.rot k) (.rot k) (.rot k)) (rop : Bin (.rot k) (.vec .trans) (.vec .trans))
    (F : ℕ → Frame) (G H : Frame) (A : ℕ → ℕ) (p n : ℕ) : Expr (geoLib ε) (.vec .trans) :=
  .bin (L := geoLib ε) 0 rop (chainTree ε op F A n)
    (.leaf (L := geoLib ε) p (Labels.three (F (n + 1)) G H).code (.vec .trans))

/-- The rotation objects of the chain and its vector, in the order of the benchmark. -/
def rotTarget (ε : ℝ) (k : RotK) (F : ℕ → Frame) (A : ℕ → ℕ) (i : ℕ) : Target (geoLib ε) :=
  ⟨A i, (Labels.two (F i) (F (i + 1))).code, .rot k⟩

def vecTarget (ε : ℝ) (F : ℕ → Frame) (G H : Frame) (p n : ℕ) : Target (geoLib ε) :=
  ⟨p, (Labels.three (F (n + 1)) G H).code, .vec .trans⟩

theorem chain_build (hc : ChainClass k op rop) (F : ℕ → Frame) (A : ℕ → ℕ) : (n : ℕ) →
    (rotProduct (fun _ => k) F A n).build ε = some (⟨.rot k, chainTree ε op F A n⟩, .two (F 0) (F (n + 1)))
  | 0 => rfl
  | n + 1 => by
    have ih := chain_build hc F A n
    have key : ∀ {o : Option Labels} {f : Labels} {x : Tree ε}, o = some f →
      (o.map fun f => (x, f)) = some (x, f) := by rintro o f x rfl; rfl
    rw [rotProduct, FExpr.build, ih]
    have h : composeLabels (.rot k) (.two (F 0) (F (n + 1))) (.two (F (n + 1)) (F (n + 2))) =
        some (.two (F 0) (F (n + 2))) := if_pos rfl
    cases hc
    · exact key h
    · exact key h

/-- **C73, frames.** For every length and all frames the chain is accepted, and the result has the left
frame of the first rotation and the other two frames of the vector. -/
theorem c73_frames (hc : ChainClass k op rop) (F : ℕ → Frame) (G H : Frame) (A : ℕ → ℕ) (p n : ℕ) :
    (rotateChain (fun _ => k) F G H A p n).build ε =
      some (⟨.vec .trans, rotateTree ε op rop F G H A p n⟩, .three (F 0) G H) := by
  have key : ∀ {o : Option Labels} {f : Labels} {x : Tree ε}, o = some f →
    (o.map fun f => (x, f)) = some (x, f) := by rintro o f x rfl; rfl
  rw [rotateChain, FExpr.build, chain_build hc]
  have h : rotateLabels (.vec .trans) (.two (F 0) (F (n + 1))) (.three (F (n + 1)) G H) =
      some (.three (F 0) G H) := if_pos rfl
  cases hc
  · exact key h
  · exact key h

theorem partialProduct_succ (R : ℕ → M3) (i : ℕ) : partialProduct R (i + 1) = partialProduct R i * R i := by
  simp [partialProduct, List.range_succ]

theorem chain_means {s : Memory} {K : ℕ → RotK} {F : ℕ → Frame} {A : ℕ → ℕ}
    (hv : ∀ i, Valid (.rot (K i)) (s (A i) (.rot (K i)))) : (n : ℕ) →
    Means ε s (rotProduct K F A n).erase
      (.rot (partialProduct (fun i => rotDen (K i) (s (A i) (.rot (K i)))) (n + 1)))
  | 0 => by
    simp only [partialProduct, zero_add, List.range_one, List.map_cons, List.map_nil, List.prod_singleton]
    exact .leaf _ 0 (.rot (K 0)) (hv 0)
  | n + 1 => by
    rw [partialProduct_succ]
    exact .mulRot (chain_means hv n) (.leaf _ 0 (.rot (K (n + 1))) (hv (n + 1)))

/-- **C73, value.** For every length and every mixture of classes of valid rotations the result is the
vector multiplied by all the rotations. -/
theorem c73_value (hε : 0 < ε) {s : Memory} {K : ℕ → RotK} (F : ℕ → Frame) (G H : Frame) {A : ℕ → ℕ}
    (hv : ∀ i, Valid (.rot (K i)) (s (A i) (.rot (K i)))) (p n : ℕ) :
    Yields ε s (rotateChain K F G H A p n).erase (.vec .trans
      (partialProduct (fun i => rotDen (K i) (s (A i) (.rot (K i)))) (n + 1) *ᵥ (s p (.vec .trans) : V3))) :=
  c01_evaluation_meaning hε (.rotate (chain_means hv n) (.leaf _ 0 (.vec .trans) trivial))

/-- What the operators do with valid operands. -/
theorem class_op (hc : ChainClass k op rop) {x y : (Ty.rot k).Val} (hx : Valid (.rot k) x) (hy : Valid (.rot k) y) :
    ∃ z : (Ty.rot k).Val, evalBin op x y = some z ∧ Valid (.rot k) z ∧ rotDen k z = rotDen k x * rotDen k y ∧
      jacL op z x y = some (1 : M3) ∧ jacR op z x y = some (rotDen k x) := by
  cases hc
  · exact ⟨_, rfl, hx.mul hy, rfl, rfl, rfl⟩
  · have ux := (validRot_quat _).1 hx
    have uy := (validRot_quat _).1 hy
    have uz := Quat.mul_isUnit ux uy
    refine ⟨_, rfl, (validRot_quat _).2 uz, ?_, rfl, ?_⟩
    · rw [rotDen_quat_unit uz, rotDen_quat_unit ux, rotDen_quat_unit uy, Quat.toMatrix_mul ux uy]
    · rw [rotDen_quat_unit ux]; rfl

theorem class_rop (hc : ChainClass k op rop) {x : (Ty.rot k).Val} (hx : Valid (.rot k) x) (y : V3) :
    ∃ z : V3, evalBin rop x y = some z ∧ z = rotDen k x *ᵥ y ∧ jacL rop z x y = some (hat (-z)) ∧
      jacR rop z x y = some (rotDen k x) := by
  cases hc
  · refine ⟨_, rfl, rfl, ?_, rfl⟩
    rw [hat_eq]; rfl
  · have ux := (validRot_quat _).1 hx
    refine ⟨_, rfl, ?_, ?_, ?_⟩
    · rw [rotDen_quat_unit ux]; exact rotateQ_eq _ _
    · rw [hat_eq]; rfl
    · rw [rotDen_quat_unit ux]; rfl

theorem chain_no_vec {s : Store (geoLib ε)} {F : ℕ → Frame} {A : ℕ → ℕ} {a c : ℕ} : (n : ℕ) →
    occurrences s (⟨a, c, .vec .trans⟩ : Target (geoLib ε)) (chainTree ε op F A n) = []
  | 0 => dif_neg fun e => by cases congrArg Target.ty e
  | n + 1 => by
    show List.map _ (occurrences s _ (chainTree ε op F A n)) ++ List.map _ (dite _ _ _) = _
    rw [chain_no_vec n, dif_neg fun e => by cases congrArg Target.ty e]
    rfl

theorem total_map_of {m n p : Type} [Fintype n] (A : Matrix m n ℝ) {l : List (OMat n p)} {K : Matrix n p ℝ}
    (h : total l = some K) : total (l.map (OMat.mul (some A))) = some (A * K) := by
  by_cases hl : l = []
  · subst hl
    have : (some 0 : Option (Matrix n p ℝ)) = some K := h
    rw [← Option.some.inj this, Matrix.mul_zero]
    rfl
  · refine (total_map_mul (some A) l hl).trans ?_
    rw [h]; rfl

theorem leaf_total {s : Store (geoLib ε)} (a' c' a c : ℕ) :
    total (occurrences s ⟨a, c, .rot k⟩ (.leaf (L := geoLib ε) a' c' (.rot k))) =
      some (if a' = a ∧ c' = c then (1 : M3) else 0) := by
  by_cases h : a' = a ∧ c' = c
  · obtain ⟨rfl, rfl⟩ := h
    rw [if_pos ⟨rfl, rfl⟩]
    show total (dite _ _ _) = _
    rw [dif_pos rfl]
    exact congrArg some (add_zero _)
  · rw [if_neg h]
    show total (dite _ _ _) = _
    rw [dif_neg fun e => h ⟨congrArg Target.addr e, congrArg Target.cls e⟩]
    rfl

section
variable (hc : ChainClass k op rop) {s : Store (geoLib ε)} {F : ℕ → Frame} {A : ℕ → ℕ}
  (hv : ∀ i, Valid (.rot k) (s (A i) (.rot k)))
include hc hv

theorem chainTree_value : (n : ℕ) → ∃ z : (Ty.rot k).Val, value s (chainTree ε op F A n) = some z ∧
    Valid (.rot k) z ∧ rotDen k z = partialProduct (fun i => rotDen k (s (A i) (.rot k))) (n + 1)
  | 0 => ⟨_, rfl, hv 0, by simp [partialProduct]⟩
  | n + 1 => by
    obtain ⟨x, h1, h2, h3⟩ := chainTree_value n
    obtain ⟨z, e1, e2, e3, -, -⟩ := class_op hc h2 (hv (n + 1))
    refine ⟨z, ?_, e2, by rw [e3, h3, partialProduct_succ _ (n + 1)]⟩
    show (value s (chainTree ε op F A n)).bind (fun x => (some _).bind fun y => evalBin op x y) = _
    rw [h1]; exact e1

/-- The Jacobian of the product with respect to any rotation object: the sum of the partial products over
the places where it stands. -/
theorem chainTree_total (a c : ℕ) : (n : ℕ) →
    total (occurrences s ⟨a, c, .rot k⟩ (chainTree ε op F A n)) =
      some (∑ i ∈ Finset.range (n + 1), if A i = a ∧ (Labels.two (F i) (F (i + 1))).code = c then
        partialProduct (fun i => rotDen k (s (A i) (.rot k))) i else 0)
  | 0 => by
    rw [Finset.sum_range_one]
    exact leaf_total (A 0) _ a c
  | n + 1 => by
    obtain ⟨x, h1, h2, h3⟩ := chainTree_value hc hv (F := F) n
    obtain ⟨z, e1, e2, e3, e4, e5⟩ := class_op hc h2 (hv (n + 1))
    have sl : slopeL s (L := geoLib ε) op (chainTree ε op F A n)
        (.leaf (L := geoLib ε) (A (n + 1)) (Labels.two (F (n + 1)) (F (n + 2))).code (.rot k)) = some (1 : M3) := by
      show (value s (chainTree ε op F A n)).bind (fun x => (some _).bind fun y => (evalBin op x y).bind
        fun v => jacL op v x y) = _
      rw [h1, Option.bind_some, Option.bind_some, e1]; exact e4
    have sr : slopeR s (L := geoLib ε) op (chainTree ε op F A n)
        (.leaf (L := geoLib ε) (A (n + 1)) (Labels.two (F (n + 1)) (F (n + 2))).code (.rot k)) =
          some (rotDen k x) := by
      show (value s (chainTree ε op F A n)).bind (fun x => (some _).bind fun y => (evalBin op x y).bind
        fun v => jacR op v x y) = _
      rw [h1, Option.bind_some, Option.bind_some, e1]; exact e5
    show total (List.map (OMat.mul (slopeL s op _ _)) _ ++ List.map (OMat.mul (slopeR s op _ _)) _) = _
    rw [sl, sr, total_append, Finset.sum_range_succ, total_map_of _ (chainTree_total a c n),
      total_map_of _ (leaf_total (A (n + 1)) _ a c)]
    refine congrArg some (congrArg₂ (· + ·) (Matrix.one_mul _) ?_)
    rw [h3, mul_ite, mul_one, mul_zero]

/-- The value of the whole chain, and its Jacobians with respect to any rotation object and the vector. -/
theorem rotateTree_total (G H : Frame) (p n : ℕ) :
    ∃ v : V3, v = partialProduct (fun i => rotDen k (s (A i) (.rot k))) (n + 1) *ᵥ (s p (.vec .trans) : V3) ∧
      value s (rotateTree ε op rop F G H A p n) = some v ∧
      (∀ a c, total (occurrences s ⟨a, c, .rot k⟩ (rotateTree ε op rop F G H A p n)) =
        some (hat (-v) * ∑ i ∈ Finset.range (n + 1),
          if A i = a ∧ (Labels.two (F i) (F (i + 1))).code = c then
            partialProduct (fun i => rotDen k (s (A i) (.rot k))) i else 0)) ∧
      total (occurrences s (vecTarget ε F G H p n) (rotateTree ε op rop F G H A p n)) =
        some (partialProduct (fun i => rotDen k (s (A i) (.rot k))) (n + 1)) := by
  obtain ⟨x, h1, h2, h3⟩ := chainTree_value hc hv (F := F) n
  obtain ⟨z, e1, e2, e3, e4⟩ := class_rop hc h2 (s p (.vec .trans))
  have sl : slopeL s (L := geoLib ε) rop (chainTree ε op F A n)
      (.leaf (L := geoLib ε) p (Labels.three (F (n + 1)) G H).code (.vec .trans)) = some (hat (-z)) := by
    show (value s (chainTree ε op F A n)).bind (fun x => (some _).bind fun y => (evalBin rop x y).bind
      fun v => jacL rop v x y) = _
    rw [h1, Option.bind_some, Option.bind_some, e1]; exact e3
  have sr : slopeR s (L := geoLib ε) rop (chainTree ε op F A n)
      (.leaf (L := geoLib ε) p (Labels.three (F (n + 1)) G H).code (.vec .trans)) = some (rotDen k x) := by
    show (value s (chainTree ε op F A n)).bind (fun x => (some _).bind fun y => (evalBin rop x y).bind
      fun v => jacR rop v x y) = _
    rw [h1, Option.bind_some, Option.bind_some, e1]; exact e4
  refine ⟨z, by rw [e2, h3], ?_, fun a c => ?_, ?_⟩
  · show (value s (chainTree ε op F A n)).bind (fun x => (some _).bind fun y => evalBin rop x y) = _
    rw [h1]; exact e1
  · show total (List.map (OMat.mul (slopeL s rop _ _)) _ ++ List.map (OMat.mul (slopeR s rop _ _)) _) = _
    have miss : occurrences s (⟨a, c, .rot k⟩ : Target (geoLib ε)) (.leaf (L := geoLib ε) p
        (Labels.three (F (n + 1)) G H).code (.vec .trans)) = [] :=
      dif_neg fun e => by cases congrArg Target.ty e
    rw [sl, sr, total_append, total_map_of _ (chainTree_total hc hv a c n), miss]
    exact congrArg some (add_zero _)
  · show total (List.map (OMat.mul (slopeL s rop _ _)) _ ++ List.map (OMat.mul (slopeR s rop _ _)) _) = _
    have hit : occurrences s (vecTarget ε F G H p n) (.leaf (L := geoLib ε) p
        (Labels.three (F (n + 1)) G H).code (.vec .trans)) = [some (1 : M3)] := dif_pos rfl
    have miss : occurrences s (vecTarget ε F G H p n) (chainTree ε op F A n) = [] :=
      chain_no_vec n
    rw [sl, sr, miss, hit, ← h3]
    refine congrArg some ?_
    exact (add_zero _).trans (Matrix.mul_one _)
end

theorem two_code_iff {a b c d : Frame} : (Labels.two a b).code = (Labels.two c d).code ↔ a = c ∧ b = d := by
  have hf : ∀ {x y : Frame}, Labels.code.fr x = Labels.code.fr y ↔ x = y := by
    intro x y
    cases x <;> cases y <;> simp [Labels.code.fr]
  show 2 * Nat.pair _ _ = 2 * Nat.pair _ _ ↔ _
  rw [Nat.mul_right_inj (by norm_num), Nat.pair_eq_pair, hf, hf]

theorem chain_objects {F : ℕ → Frame} {A : ℕ → ℕ} : (n : ℕ) →
    objects (chainTree ε op F A n) = (List.range (n + 1)).map (rotTarget ε k F A)
  | 0 => rfl
  | n + 1 => by
    rw [List.range_succ, List.map_append, ← chain_objects n]; rfl

theorem rotate_objects {F : ℕ → Frame} {G H : Frame} {A : ℕ → ℕ} {p n : ℕ} :
    objects (rotateTree ε op rop F G H A p n) =
      (List.range (n + 1)).map (rotTarget ε k F A) ++ [vecTarget ε F G H p n] := by
  rw [← chain_objects (op := op)]; rfl

theorem chain_noProxy {F : ℕ → Frame} {A : ℕ → ℕ} : (n : ℕ) → (chainTree ε op F A n).noProxy = true
  | 0 => rfl
  | n + 1 => by
    show ((chainTree ε op F A n).noProxy && true) = true
    rw [chain_noProxy n]; rfl

theorem rotate_noProxy {F : ℕ → Frame} {G H : Frame} {A : ℕ → ℕ} {p n : ℕ} :
    (rotateTree ε op rop F G H A p n).noProxy = true := by
  show ((chainTree ε op F A n).noProxy && true) = true
  rw [chain_noProxy n]; rfl

theorem chain_operations {F : ℕ → Frame} {A : ℕ → ℕ} : (n : ℕ) →
    (operations (chainTree ε op F A n)).length = n
  | 0 => rfl
  | n + 1 => by
    show (operations (chainTree ε op F A n) ++ [] ++ [0]).length = n + 1
    rw [List.append_nil, List.length_append, chain_operations n]; rfl

/-- **C73, Jacobians.** `evalWithJacobians(R_0, …, R_n, v)` of a chain of distinct rotation objects returns
the value and, for every length, the matrices of the hand-written benchmark; the rotations may be matrices or
unit quaternions.  Each of the `n + 1` operations of the chain is evaluated once. -/
theorem c73_jacobians (hc : ChainClass k op rop) {s : Store (geoLib ε)} (F : ℕ → Frame) (G H : Frame) {A : ℕ → ℕ}
    (hv : ∀ i, Valid (.rot k) (s (A i) (.rot k))) (p n : ℕ)
    (hA : ∀ i ≤ n, ∀ j ≤ n, A i = A j → i = j) {R : ℕ → M3} (hR : ∀ i, rotDen k (s (A i) (.rot k)) = R i)
    {v : V3} (hp : v = partialProduct R (n + 1) *ᵥ (s p (.vec .trans) : V3)) :
    ∃ log : List ℕ, log.length = n + 1 ∧
      (rotateTree ε op rop F G H A p n).evalWithJacobiansLog s
        ((List.range (n + 1)).map (rotTarget ε k F A) ++ [vecTarget ε F G H p n]) =
      some ((some v, (List.range (n + 1)).map (fun i => ⟨.rot k, some (hat (-v) * partialProduct R i)⟩) ++
        [⟨.vec .trans, some (partialProduct R (n + 1))⟩]), log) := by
  obtain rfl : R = fun i => rotDen k (s (A i) (.rot k)) := funext fun i => (hR i).symm
  obtain ⟨z, rfl, h2, h3, h4⟩ := rotateTree_total hc hv (F := F) G H p n
  obtain rfl := hp
  have acc := c22_accepted (L := geoLib ε) s (rotateTree ε op rop F G H A p n)
    ((List.range (n + 1)).map (rotTarget ε k F A) ++ [vecTarget ε F G H p n]) rotate_noProxy
    (fun t ht => by rw [rotate_objects]; exact ht)
  refine ⟨operations (rotateTree ε op rop F G H A p n), ?_, ?_⟩
  · show (operations (chainTree ε op F A n) ++ [] ++ [0]).length = n + 1
    rw [List.append_nil, List.length_append, chain_operations n]; rfl
  rw [acc, h2, List.map_append, List.map_map]
  refine congrArg (fun l => some ((some _, l), _)) (congrArg₂ (· ++ ·) (List.map_congr_left fun i hi => ?_) ?_)
  · refine congrArg (Sigma.mk (β := fun τ : Ty => OMat (Fin 3) τ.Idx) (.rot k)) ((h3 _ _).trans (congrArg some (congrArg _ ?_)))
    rw [Finset.sum_eq_single i]
    · rw [if_pos ⟨rfl, rfl⟩]
    · intro j hj hne
      rw [if_neg]
      rintro ⟨h, -⟩
      rw [List.mem_range] at hi
      rw [Finset.mem_range] at hj
      exact hne (hA j (by omega) i (by omega) h)
    · intro h
      rw [List.mem_range] at hi
      exact absurd (Finset.mem_range.2 hi) h
  · exact congrArg (fun x => [Sigma.mk (β := fun τ : Ty => OMat (Fin 3) τ.Idx) (.vec .trans) x]) h4

/-- **C73, repeated objects.** If the same rotation object stands at several places of the chain, its Jacobian
is the sum of the benchmark's matrices for these places. -/
theorem c73_repeated (hc : ChainClass k op rop) {s : Store (geoLib ε)} (F : ℕ → Frame) (G H : Frame) {A : ℕ → ℕ}
    (hv : ∀ i, Valid (.rot k) (s (A i) (.rot k))) (p n : ℕ) {R : ℕ → M3}
    (hR : ∀ i, rotDen k (s (A i) (.rot k)) = R i)
    {v : V3} (hp : v = partialProduct R (n + 1) *ᵥ (s p (.vec .trans) : V3)) {j : ℕ} (hj : j ≤ n) :
    (rotateTree ε op rop F G H A p n).jacobianAuto s (rotTarget ε k F A j) =
      some (∑ i ∈ (Finset.range (n + 1)).filter fun i => A i = A j ∧ F i = F j ∧ F (i + 1) = F (j + 1),
        hat (-v) * partialProduct R i) := by
  obtain rfl : R = fun i => rotDen k (s (A i) (.rot k)) := funext fun i => (hR i).symm
  obtain ⟨z, rfl, h2, h3, h4⟩ := rotateTree_total hc hv (F := F) G H p n
  obtain rfl := hp
  rw [c20_auto s _ _ (by
    rw [rotate_objects]
    exact List.mem_append_left _ (List.mem_map.2 ⟨j, List.mem_range.2 (by omega), rfl⟩)) (.inl rotate_noProxy)]
  refine (h3 _ _).trans (congrArg some ?_)
  rw [Finset.sum_filter, Finset.mul_sum]
  refine Finset.sum_congr rfl fun i _ => ?_
  rw [mul_ite, mul_zero]
  refine if_congr ?_ rfl rfl
  rw [two_code_iff]

theorem chain_regular (hc : ChainClass k op rop) {s : Store (geoLib ε)} {F : ℕ → Frame} {A : ℕ → ℕ}
    (hv : ∀ i, Valid (.rot k) (s (A i) (.rot k))) : (n : ℕ) → RegularAt ε s (chainTree ε op F A n)
  | 0 => hv 0
  | n + 1 => ⟨chain_regular hc hv n, hv (n + 1), by cases hc <;> exact fun _ _ _ _ => trivial⟩

/-- **C73, derivatives.** For all valid rotations and all vectors, without exception, these matrices are the
derivatives of the rotated vector. -/
theorem c73_derivative (hε : 0 < ε) (hε1 : ε ≤ 1) (hc : ChainClass k op rop) {s : Store (geoLib ε)}
    (F : ℕ → Frame) (G H : Frame) {A : ℕ → ℕ}
    (hv : ∀ i, Valid (.rot k) (s (A i) (.rot k))) (p n : ℕ)
    (hA : ∀ i ≤ n, ∀ j ≤ n, A i = A j → i = j) {R : ℕ → M3} (hR : ∀ i, rotDen k (s (A i) (.rot k)) = R i)
    {v : V3} (hp : v = partialProduct R (n + 1) *ᵥ (s p (.vec .trans) : V3)) :
    (∀ j ≤ n, IsDerivative s (rotTarget ε k F A j) (rotateTree ε op rop F G H A p n)
      (hat (-v) * partialProduct R j)) ∧
    IsDerivative s (vecTarget ε F G H p n) (rotateTree ε op rop F G H A p n) (partialProduct R (n + 1)) := by
  obtain rfl : R = fun i => rotDen k (s (A i) (.rot k)) := funext fun i => (hR i).symm
  obtain ⟨z, rfl, h2, h3, h4⟩ := rotateTree_total hc hv (F := F) G H p n
  obtain rfl := hp
  have reg : RegularAt ε s (rotateTree ε op rop F G H A p n) :=
    ⟨chain_regular hc hv n, trivial, by cases hc <;> exact fun _ _ _ _ => trivial⟩
  have mem : ∀ o ∈ objects (rotateTree ε op rop F G H A p n),
      (∃ i ≤ n, o = rotTarget ε k F A i) ∨ o = vecTarget ε F G H p n := by
    intro o ho
    rw [rotate_objects, List.mem_append, List.mem_map, List.mem_singleton] at ho
    rcases ho with ⟨i, hi, rfl⟩ | rfl
    · exact .inl ⟨i, by rw [List.mem_range] at hi; omega, rfl⟩
    · exact .inr rfl
  have mem' : ∀ j ≤ n, rotTarget ε k F A j ∈ objects (rotateTree ε op rop F G H A p n) := fun j hj => by
    rw [rotate_objects]
    exact List.mem_append_left _ (List.mem_map.2 ⟨j, List.mem_range.2 (by omega), rfl⟩)
  refine ⟨fun j hj => ?_, ?_⟩
  · refine response_deriv hε hε1 s _ _ reg (mem' j hj) (fun o ho h1 h2 => ?_) ((h3 _ _).trans (congrArg some
      (congrArg _ ?_)))
    · rcases mem o ho with ⟨i, hi, rfl⟩ | rfl
      · rw [hA i hi j hj h1]
      · cases h2
    · rw [Finset.sum_eq_single j]
      · rw [if_pos ⟨rfl, rfl⟩]
      · intro i hi hne
        rw [if_neg]
        rintro ⟨h, -⟩
        rw [Finset.mem_range] at hi
        exact hne (hA i (by omega) j hj h)
      · intro h
        exact absurd (Finset.mem_range.2 (by omega)) h
  · refine response_deriv hε hε1 s _ _ reg (by rw [rotate_objects]; exact List.mem_append_right _ (List.mem_singleton.2 rfl))
      (fun o ho h1 h2 => ?_) h4
    rcases mem o ho with ⟨i, hi, rfl⟩ | rfl
    · cases h2
    · rfl

/-- **C73, reverse mode.** `evalWithJacobians()`, which is offered when no two rotations of the chain have the
same two labels, returns the same value and the same matrices. -/
theorem c73_reverse (hc : ChainClass k op rop) {s : Store (geoLib ε)} {F : ℕ → Frame} (G H : Frame) {A : ℕ → ℕ}
    (hv : ∀ i, Valid (.rot k) (s (A i) (.rot k))) (p n : ℕ)
    (hF : ∀ i ≤ n, ∀ j ≤ n, F i = F j → F (i + 1) = F (j + 1) → i = j)
    {R : ℕ → M3} (hR : ∀ i, rotDen k (s (A i) (.rot k)) = R i)
    {v : V3} (hp : v = partialProduct R (n + 1) *ᵥ (s p (.vec .trans) : V3)) :
    (rotateTree ε op rop F G H A p n).uniqueLeaves ∧
      (rotateTree ε op rop F G H A p n).reverse s =
        (some v, (List.range (n + 1)).map (fun i => ⟨.rot k, some (hat (-v) * partialProduct R i)⟩) ++
          [⟨.vec .trans, some (partialProduct R (n + 1))⟩]) := by
  obtain rfl : R = fun i => rotDen k (s (A i) (.rot k)) := funext fun i => (hR i).symm
  obtain ⟨z, rfl, h2, h3, h4⟩ := rotateTree_total hc hv (F := F) G H p n
  obtain rfl := hp
  have hu : (rotateTree ε op rop F G H A p n).uniqueLeaves = true := by
    refine (uniqueLeaves_iff _).2 ⟨rotate_noProxy, ?_⟩
    show ((objects (rotateTree ε op rop F G H A p n)).map fun o => (o.ty, o.cls)).Nodup
    rw [rotate_objects, List.map_append, List.map_map, List.nodup_append]
    refine ⟨List.Nodup.map_on ?_ List.nodup_range, List.nodup_singleton _, ?_⟩
    · intro i hi j hj h
      rw [List.mem_range] at hi hj
      obtain ⟨f1, f2⟩ := two_code_iff.1 (congrArg Prod.snd h)
      exact hF i (by omega) j (by omega) f1 f2
    · intro x hx y hy h
      obtain ⟨i, -, rfl⟩ := List.mem_map.1 hx
      rw [List.mem_singleton.1 hy] at h
      cases congrArg Prod.fst h
  refine ⟨hu, ?_⟩
  rw [(c17_reverse_eq_forward s _ hu).1, rotate_objects, List.map_append, List.map_map]
  refine Prod.ext ?_ (congrArg₂ (· ++ ·) (List.map_congr_left fun i hi => ?_) ?_)
  · exact (mk_val s _).trans h2
  · refine congrArg (Sigma.mk (β := fun τ : Ty => OMat (Fin 3) τ.Idx) (.rot k)) ?_
    refine (c20_sum_over_occurrences s _ _ rotate_noProxy).trans ((h3 _ _).trans (congrArg some (congrArg _ ?_)))
    rw [List.mem_range] at hi
    rw [Finset.sum_eq_single i]
    · rw [if_pos ⟨rfl, rfl⟩]
    · intro j hj hne
      rw [if_neg]
      rintro ⟨-, h⟩
      obtain ⟨f1, f2⟩ := two_code_iff.1 h
      rw [Finset.mem_range] at hj
      exact hne (hF j (by omega) i (by omega) f1 f2)
    · intro h
      exact absurd (Finset.mem_range.2 hi) h
  · exact congrArg (fun x => [Sigma.mk (β := fun τ : Ty => OMat (Fin 3) τ.Idx) (.vec .trans) x])
      ((c20_sum_over_occurrences s _ _ rotate_noProxy).trans h4)

/-! ## Cases -/

/-- A chain of ten different quaternions, frames `0, 1, …, 10`: the hypotheses hold, and the third Jacobian
is not zero. -/
example : (∀ i, Valid (.rot .quat) (demo (100 + i) (.rot .quat))) ∧
    (∀ i ≤ 9, ∀ j ≤ 9, 100 + i = 100 + j → i = j) ∧
    (∀ i ≤ 9, ∀ j ≤ 9, (some i : Frame) = some j → (some (i + 1) : Frame) = some (j + 1) → i = j) ∧
    (∃ r, Yields dblEps demo (rotateChain (fun i => if i = 4 then .aa else .quat) (fun i => some i) (some 0)
      (some 1) (fun i => 100 + i) 200 9).erase (.vec .trans r)) :=
  ⟨fun i => demo_valid _ _, fun _ _ _ _ h => by omega, fun _ _ _ _ h _ => Option.some.inj h,
    _, c73_value dblEps_pos _ _ _ (fun _ => demo_valid _ _) _ _⟩

/-- The squared rotation `R * R * v`, one object twice (labels `<B, B>`): both places are counted. -/
example (B : Frame) : ∃ v : V3, (rotateTree dblEps .composeM .rotateM (fun _ => B) B B (fun _ => 7) 8 1).jacobianAuto
    (L := geoLib dblEps) demo (rotTarget dblEps .mat (fun _ => B) (fun _ => 7) 0) =
      some (hat (-v) * 1 + hat (-v) * !![0, -1, 0; 1, 0, 0; 0, 0, 1]) ∧
      (rotateTree dblEps .composeM .rotateM (fun _ => B) B B (fun _ => 7) 8 1).eval (L := geoLib dblEps) demo =
        some v := by
  have hv : ∀ i : ℕ, Valid (.rot .mat) (demo ((fun _ => 7) i) (.rot .mat)) := fun _ => demo_valid _ _
  obtain ⟨v, h1, h2, -, -⟩ := rotateTree_total (ε := dblEps) (s := demo) (F := fun _ => B) ChainClass.mat hv B B 8 1
  refine ⟨v, ?_, (mk_val (L := geoLib dblEps) demo _).trans h2⟩
  rw [c73_repeated ChainClass.mat _ B B hv 8 1 (fun _ => rfl) h1 (Nat.zero_le 1)]
  refine congrArg some ?_
  rw [Finset.filter_true_of_mem (by simp), Finset.sum_range_succ, Finset.sum_range_one]
  refine congrArg₂ (· + ·) rfl (congrArg _ ?_)
  simp only [partialProduct, List.range_one, List.map_cons, List.map_nil, List.prod_singleton]
  rfl

end WG
