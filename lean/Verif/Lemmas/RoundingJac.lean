import Verif.Lemmas.RoundingJacLoc
import Verif.Lemmas.Jac

/-! # Jacobians in floating point: errors, existence, exact arithmetic -/

namespace WG.Round
open Matrix Spec

variable {ε : ℝ} {F : Fl}

/-- The tree of computed values holds an outcome of the evaluation. -/
theorem tree_val {s : Store (geoLib ε)} : {τ : Ty} → (e : Expr (geoLib ε) τ) →
    {T : ETree (geoLib ε) τ} → FlTree F s e T → ∃ z, T.val = some z ∧ Computes F s e z
  | _, .leaf a c τ, _, h => by
    cases h
    exact ⟨_, rfl, rfl⟩
  | _, .un a op e, _, h => by
    obtain ⟨c, x, z, h1, h2, h3, rfl⟩ := h
    obtain ⟨x', a1, a2⟩ := tree_val e h1
    cases Option.some.inj (h2.symm.trans a1)
    exact ⟨z, rfl, x, a2, h3⟩
  | _, .bin a op l r, _, h => by
    obtain ⟨c, d, x, y, z, h1, h2, h3, h4, h5, rfl⟩ := h
    obtain ⟨x', a1, a2⟩ := tree_val l h1
    obtain ⟨y', b1, b2⟩ := tree_val r h2
    cases Option.some.inj (h3.symm.trans a1)
    cases Option.some.inj (h4.symm.trans b1)
    exact ⟨z, rfl, x, y, a2, b2, h5⟩
  | _, .proxy a e, _, h => by
    obtain ⟨c, h1, rfl⟩ := h
    exact tree_val (T := c) e h1

/-- A result of a Jacobian evaluator and the computed one. -/
def NearO {m n : Type} [Fintype m] (S φ : ℝ) : Option (OMat m n) → Option (Matrix m n ℝ) → Prop
  | none, none => True
  | some (some J), some J' => 1 ≤ φ ∧ (∀ j, len (fun i => J i j) ≤ S) ∧
      ∀ j, len (fun i => J' i j - J i j) ≤ (φ - 1) * S
  | _, _ => False

theorem NearO.none_iff {m n : Type} [Fintype m] {S φ : ℝ} {o : Option (OMat m n)}
    {o' : Option (Matrix m n ℝ)} (h : NearO S φ o o') :
    (o = none ∧ o' = none) ∨ ∃ J J', o = some (some J) ∧ o' = some J' := by
  rcases o with _ | _ | J <;> rcases o' with _ | J'
  · exact .inl ⟨rfl, rfl⟩
  · exact h.elim
  · exact h.elim
  · exact h.elim
  · exact h.elim
  · exact .inr ⟨J, J', rfl, rfl⟩

theorem one_le_chain (F : Fl) : 1 ≤ chainFactor F.u := by
  have := growth_nonneg F 6
  unfold chainFactor
  linarith

section
variable {α β γ : Ty} {n : Type} [Fintype n]

theorem stepUn_near (op : Un α β) {x x' : α.Val} {v v' : β.Val} {A S s φ : ℝ}
    (hA : 1 ≤ A) (hS : 0 ≤ S) (hx : Ok α S x)
    (hw : Within α (A - 1) S x x') (hV : 1 ≤ facUn F.u op A) (hv : Ok β (ampUn op S) v)
    (hwv : Within β (facUn F.u op A - 1) (ampUn op S) v v') (hs : 0 ≤ s)
    {o : Option (OMat α.Idx n)} {o' : Option (Matrix α.Idx n ℝ)} (h : NearO s φ o o')
    {q : Option (Matrix β.Idx n ℝ)} (hq : FlStepUn F op (some v') (some x') o' q) :
    NearO (gainUn op S * s) (locUn F.u op A * φ * chainFactor F.u)
      (o.map fun J => (nodeJac (L := geoLib ε) op (some v) (some x)).mul J) q := by
  rcases h.none_iff with ⟨rfl, rfl⟩ | ⟨J, J', rfl, rfl⟩
  · cases hq
    trivial
  · obtain ⟨L', K, ⟨v₁, x₁, e1, e2, hL'⟩, hK, rfl⟩ := hq
    cases Option.some.inj e1
    cases Option.some.inj e2
    obtain ⟨L, hL, hn⟩ := jacUn_near (ε := ε) op hA hS hx hw hV hv hwv hL'
    obtain ⟨h1, h2, h3⟩ := h
    have e : (nodeJac (L := geoLib ε) op (some v) (some x)) = some L := hL
    refine Eq.mpr (congrArg (fun o => NearO _ _ (some (OMat.mul o (some J))) (some K)) e) ?_
    have c := fun j => chain_col (F := F) hn (idx_card α) h1 hs (h2 j) (h3 j) hK
    exact ⟨one_le_mul' (one_le_mul' hn.one h1) (one_le_chain F), fun j => (c j).1, fun j => (c j).2⟩


theorem nearO_mono {m : Type} [Fintype m] {S S' φ φ' : ℝ} {o : Option (OMat m n)}
    {o' : Option (Matrix m n ℝ)} (hS : S ≤ S') (h0 : 0 ≤ S) (hφ : φ ≤ φ') (h : NearO S φ o o') :
    NearO S' φ' o o' := by
  rcases h.none_iff with ⟨rfl, rfl⟩ | ⟨J, J', rfl, rfl⟩
  · trivial
  · obtain ⟨h1, h2, h3⟩ := h
    refine ⟨h1.trans hφ, fun j => (h2 j).trans hS, fun j => (h3 j).trans ?_⟩
    exact mul_le_mul (by linarith) hS h0 (by linarith)

/-- The exact chain rule at a binary node. -/
noncomputable def exactBin (op : Bin α β γ) (v : Option γ.Val) (x : Option α.Val) (y : Option β.Val) :
    Option (OMat α.Idx n) → Option (OMat β.Idx n) → Option (OMat γ.Idx n)
  | some J, some K => some ((nodeJacL (L := geoLib ε) op v x y).mul J +
      (nodeJacR (L := geoLib ε) op v x y).mul K)
  | some J, none => some ((nodeJacL (L := geoLib ε) op v x y).mul J)
  | none, some K => some ((nodeJacR (L := geoLib ε) op v x y).mul K)
  | none, none => none

theorem stepBin_near (op : Bin α β γ) {x x' : α.Val} {y y' : β.Val} {v v' : γ.Val}
    {A B S T s t φ ψ : ℝ} (hA : 1 ≤ A) (hB : 1 ≤ B) (hS : 0 ≤ S) (hT : 0 ≤ T)
    (hx : Ok α S x) (hw : Within α (A - 1) S x x') (hy : Ok β T y) (hw' : Within β (B - 1) T y y')
    (hV : 1 ≤ facBin F.u op A B) (hv : Ok γ (ampBin op S T) v)
    (hwv : Within γ (facBin F.u op A B - 1) (ampBin op S T) v v') (hs : 0 ≤ s) (ht : 0 ≤ t)
    {o : Option (OMat α.Idx n)} {o' : Option (Matrix α.Idx n ℝ)} (h : NearO s φ o o')
    {p : Option (OMat β.Idx n)} {p' : Option (Matrix β.Idx n ℝ)} (h' : NearO t ψ p p')
    {q : Option (Matrix γ.Idx n ℝ)} (hq : FlStepBin F op (some v') (some x') (some y') o' p' q) :
    NearO (gainL op S T * s + gainR op S T * t)
      (max (locL F.u op A B * φ) (locR F.u op A B * ψ) * chainFactor F.u * (1 + F.u))
      (exactBin (ε := ε) op (some v) (some x) (some y) o p) q := by
  have gL := gainL_nonneg op hS hT
  have gR := gainR_nonneg op hS hT
  have cf := one_le_chain F
  have U := one_le_U F
  have left : ∀ {J : Matrix α.Idx n ℝ} {J'}, NearO s φ (some (some J)) (some J') → ∀ {L' K},
      FlNodeJacL F op (some v') (some x') (some y') L' → FlProd F L' J' K →
      ∃ M, (nodeJacL (L := geoLib ε) op (some v) (some x) (some y)).mul (some J) = some M ∧
        NearO (gainL op S T * s) (locL F.u op A B * φ * chainFactor F.u) (some (some M)) (some K) := by
    intro J J' hJ L' K hL' hK
    obtain ⟨v₁, x₁, y₁, e1, e2, e3, hL'⟩ := hL'
    cases Option.some.inj e1
    cases Option.some.inj e2
    cases Option.some.inj e3
    obtain ⟨L, hL, hn⟩ := jacL_near (x := x) op hB hy hw' hV hv hwv hL'
    obtain ⟨h1, h2, h3⟩ := hJ
    have e : nodeJacL (L := geoLib ε) op (some v) (some x) (some y) = some L := hL
    rw [e]
    have c := fun j => chain_col (F := F) hn (idx_card α) h1 hs (h2 j) (h3 j) hK
    exact ⟨_, rfl, one_le_mul' (one_le_mul' hn.one h1) cf, fun j => (c j).1, fun j => (c j).2⟩
  have right : ∀ {J : Matrix β.Idx n ℝ} {J'}, NearO t ψ (some (some J)) (some J') → ∀ {L' K},
      FlNodeJacR F op (some v') (some x') (some y') L' → FlProd F L' J' K →
      ∃ M, (nodeJacR (L := geoLib ε) op (some v) (some x) (some y)).mul (some J) = some M ∧
        NearO (gainR op S T * t) (locR F.u op A B * ψ * chainFactor F.u) (some (some M)) (some K) := by
    intro J J' hJ L' K hL' hK
    obtain ⟨v₁, x₁, y₁, e1, e2, e3, hL'⟩ := hL'
    cases Option.some.inj e1
    cases Option.some.inj e2
    cases Option.some.inj e3
    obtain ⟨L, hL, hn⟩ := jacR_near (y := y) (v := v) (B := B) (T := T) op hA hx hw hL'
    obtain ⟨h1, h2, h3⟩ := hJ
    have e : nodeJacR (L := geoLib ε) op (some v) (some x) (some y) = some L := hL
    rw [e]
    have c := fun j => chain_col (F := F) hn (idx_card β) h1 ht (h2 j) (h3 j) hK
    exact ⟨_, rfl, one_le_mul' (one_le_mul' hn.one h1) cf, fun j => (c j).1, fun j => (c j).2⟩
  have m1 : ∀ {w : ℝ}, 1 ≤ w * chainFactor F.u →
      w ≤ max (locL F.u op A B * φ) (locR F.u op A B * ψ) → w * chainFactor F.u ≤
      max (locL F.u op A B * φ) (locR F.u op A B * ψ) * chainFactor F.u * (1 + F.u) := by
    intro w h1 h2
    have h3 := mul_le_mul_of_nonneg_right h2 (zero_le_one.trans cf)
    exact h3.trans (le_mul_of_one_le_right (by linarith) U)
  have aL := mul_nonneg gL hs
  have aR := mul_nonneg gR ht
  rcases h.none_iff with ⟨rfl, rfl⟩ | ⟨J, J', rfl, rfl⟩ <;>
    rcases h'.none_iff with ⟨rfl, rfl⟩ | ⟨N, N', rfl, rfl⟩
  · cases hq
    trivial
  · obtain ⟨L', K, hL', hK, rfl⟩ := hq
    obtain ⟨M, e, hM⟩ := right h' hL' hK
    refine Eq.mpr (congrArg (fun o => NearO _ _ (some o) (some K)) e) ?_
    exact nearO_mono (by linarith) aR (m1 hM.1 (le_max_right _ _)) hM
  · obtain ⟨L', K, hL', hK, rfl⟩ := hq
    obtain ⟨M, e, hM⟩ := left h hL' hK
    refine Eq.mpr (congrArg (fun o => NearO _ _ (some o) (some K)) e) ?_
    exact nearO_mono (by linarith) aL (m1 hM.1 (le_max_left _ _)) hM
  · obtain ⟨L, L', K, K', hL, hL', hK, hK', rfl⟩ := hq
    obtain ⟨M, e, hM⟩ := left h hL hK
    obtain ⟨M', e', hM'⟩ := right h' hL' hK'
    refine Eq.mpr (congrArg₂ (fun o p => NearO _ _ (some (o + p))
      (some (Matrix.of fun i j => F.rnd (K i j + K' i j)))) e e') ?_
    have c := fun j => sum_col (F := F) hM.1 hM'.1 (hM.2.1 j) (hM'.2.1 j) (hM.2.2 j) (hM'.2.2 j)
    rw [← max_mul_of_nonneg _ _ (zero_le_one.trans cf)] at c
    refine ⟨one_le_mul' ?_ U, fun j => (c j).1, fun j => (c j).2⟩
    exact hM.1.trans (mul_le_mul_of_nonneg_right (le_max_left _ _) (zero_le_one.trans cf))

end

theorem nearO_id {τ σ : Ty} (h : τ = σ) :
    NearO 1 1 (some (idBlock (L := geoLib ε) h)) (some (idMat h)) := by
  subst h
  refine ⟨le_rfl, fun j => ?_, fun j => ?_⟩
  · have : len (fun i => (1 : Matrix τ.Idx τ.Idx ℝ) i j) ^ 2 = 1 := by
      rw [len_sq, Finset.sum_eq_single j]
      · simp
      · intro b _ hb
        simp [Matrix.one_apply_ne hb]
      · simp
    change len (fun i => (1 : Matrix τ.Idx τ.Idx ℝ) i j) ≤ 1
    nlinarith [len_nonneg fun i => (1 : Matrix τ.Idx τ.Idx ℝ) i j]
  · rw [sub_self, zero_mul]
    refine le_of_eq ?_
    have : (fun i => (1 : Matrix τ.Idx τ.Idx ℝ) i j - (1 : Matrix τ.Idx τ.Idx ℝ) i j) = 0 := by
      funext i
      simp
    exact (congrArg len this).trans len_zero

theorem amp_nonneg {s : Store (geoLib ε)} : {τ : Ty} → (e : Expr (geoLib ε) τ) → 0 ≤ amp s e
  | _, .leaf a _ τ => size_nonneg τ _
  | _, .un _ (op : Un _ _) e => by
    have h := amp_nonneg (s := s) e
    change 0 ≤ ampUn op (amp s e)
    cases op <;> simp only [ampUn] <;> nlinarith
  | _, .bin _ (op : Bin _ _ _) l r => by
    have h := amp_nonneg (s := s) l
    have h' := amp_nonneg (s := s) r
    change 0 ≤ ampBin op (amp s l) (amp s r)
    cases op <;> simp only [ampBin] <;> nlinarith
  | _, .proxy _ e => amp_nonneg (s := s) e

theorem ampJ_nonneg {s : Store (geoLib ε)} {h : Hits} : {τ : Ty} → (e : Expr (geoLib ε) τ) →
    0 ≤ ampJ s h e
  | _, .leaf a c τ => by
    unfold ampJ
    split_ifs <;> norm_num
  | _, .un _ (op : Un _ _) e => by
    unfold ampJ
    split_ifs
    · norm_num
    · exact mul_nonneg (gainUn_nonneg op (amp_nonneg e)) (ampJ_nonneg e)
  | _, .bin _ (op : Bin _ _ _) l r => by
    unfold ampJ
    split_ifs
    · norm_num
    · exact add_nonneg (mul_nonneg (gainL_nonneg op (amp_nonneg l) (amp_nonneg r)) (ampJ_nonneg l))
        (mul_nonneg (gainR_nonneg op (amp_nonneg l) (amp_nonneg r)) (ampJ_nonneg r))
  | _, .proxy _ e => by
    unfold ampJ
    split_ifs
    · norm_num
    · exact ampJ_nonneg e

/-- Leaves that are valid, and stored with relative error at most `η`. -/
def LeavesOk (η : ℝ) (s s' : Store (geoLib ε)) {τ : Ty} (e : Expr (geoLib ε) τ) : Prop :=
  ∀ t ∈ e.leaves, Valid t.ty (s t.addr t.ty) ∧
    Within t.ty η (size t.ty (s t.addr t.ty)) (s t.addr t.ty) (s' t.addr t.ty)

theorem LeavesOk.left {η : ℝ} {s s' : Store (geoLib ε)} {α β γ : Ty} {a : ℕ} {op : Bin α β γ}
    {l : Expr (geoLib ε) α} {r : Expr (geoLib ε) β}
    (h : LeavesOk η s s' (Expr.bin (L := geoLib ε) a op l r)) : LeavesOk η s s' l :=
  fun t ht => h t (List.mem_append_left _ ht)

theorem LeavesOk.right {η : ℝ} {s s' : Store (geoLib ε)} {α β γ : Ty} {a : ℕ} {op : Bin α β γ}
    {l : Expr (geoLib ε) α} {r : Expr (geoLib ε) β}
    (h : LeavesOk η s s' (Expr.bin (L := geoLib ε) a op l r)) : LeavesOk η s s' r :=
  fun t ht => h t (List.mem_append_right _ ht)

/-- What is known at a unary node. -/
theorem un_info {η : ℝ} (hη : 0 ≤ η) {s s' : Store (geoLib ε)} {α β : Ty} {a : ℕ} (op : Un α β)
    {e : Expr (geoLib ε) α} (hs : LeavesOk η s s' (Expr.un (L := geoLib ε) a op e)) {v : β.Val}
    (hv : (Expr.un (L := geoLib ε) a op e).eval s = some v) {T : ETree (geoLib ε) β}
    (hT : FlTree F s' (Expr.un (L := geoLib ε) a op e) T) :
    ∃ c x x' v', FlTree F s' e c ∧ c.val = some x' ∧ T = .un a op c (some v') ∧
      e.eval s = some x ∧ evalUn ε op x = some v ∧ 0 ≤ amp s e ∧ 1 ≤ factor F.u η e ∧
      Ok α (amp s e) x ∧ Within α (factor F.u η e - 1) (amp s e) x x' ∧
      1 ≤ facUn F.u op (factor F.u η e) ∧ Ok β (ampUn op (amp s e)) v ∧
      Within β (facUn F.u op (factor F.u η e) - 1) (ampUn op (amp s e)) v v' := by
  obtain ⟨x, hx, hop⟩ := Option.bind_eq_some_iff.mp hv
  obtain ⟨c, x', v', h1, h2, h3, rfl⟩ := hT
  obtain ⟨x₁, a1, a2⟩ := tree_val e h1
  cases Option.some.inj (h2.symm.trans a1)
  obtain ⟨i1, i2, i3, i4⟩ := near_of_computes hη e hs hx a2
  obtain ⟨-, j2, j3, j4⟩ := un_near op i2 i1 i3 i4 hop h3
  exact ⟨c, x, x', v', h1, h2, rfl, hx, hop, i1, i2, i3, i4, j2, j3, j4⟩

/-- What is known at a binary node. -/
theorem bin_info {η : ℝ} (hη : 0 ≤ η) {s s' : Store (geoLib ε)} {α β γ : Ty} {a : ℕ} (op : Bin α β γ)
    {l : Expr (geoLib ε) α} {r : Expr (geoLib ε) β}
    (hs : LeavesOk η s s' (Expr.bin (L := geoLib ε) a op l r)) {v : γ.Val}
    (hv : (Expr.bin (L := geoLib ε) a op l r).eval s = some v) {T : ETree (geoLib ε) γ}
    (hT : FlTree F s' (Expr.bin (L := geoLib ε) a op l r) T) :
    ∃ c d x x' y y' v', FlTree F s' l c ∧ FlTree F s' r d ∧ c.val = some x' ∧ d.val = some y' ∧
      T = .bin a op c d (some v') ∧ l.eval s = some x ∧ r.eval s = some y ∧
      evalBin op x y = some v ∧ 0 ≤ amp s l ∧ 0 ≤ amp s r ∧
      1 ≤ factor F.u η l ∧ 1 ≤ factor F.u η r ∧
      Ok α (amp s l) x ∧ Within α (factor F.u η l - 1) (amp s l) x x' ∧
      Ok β (amp s r) y ∧ Within β (factor F.u η r - 1) (amp s r) y y' ∧
      1 ≤ facBin F.u op (factor F.u η l) (factor F.u η r) ∧
      Ok γ (ampBin op (amp s l) (amp s r)) v ∧
      Within γ (facBin F.u op (factor F.u η l) (factor F.u η r) - 1)
        (ampBin op (amp s l) (amp s r)) v v' := by
  obtain ⟨x, hx, h1⟩ := Option.bind_eq_some_iff.mp hv
  obtain ⟨y, hy, hop⟩ := Option.bind_eq_some_iff.mp h1
  obtain ⟨c, d, x', y', v', h1, h2, h3, h4, h5, rfl⟩ := hT
  obtain ⟨x₁, a1, a2⟩ := tree_val l h1
  cases Option.some.inj (h3.symm.trans a1)
  obtain ⟨y₁, b1, b2⟩ := tree_val r h2
  cases Option.some.inj (h4.symm.trans b1)
  obtain ⟨i1, i2, i3, i4⟩ := near_of_computes hη l hs.left hx a2
  obtain ⟨k1, k2, k3, k4⟩ := near_of_computes hη r hs.right hy b2
  obtain ⟨-, j2, j3, j4⟩ := bin_near op i2 k2 i1 k1 i3 k3 i4 k4 hop h5
  exact ⟨c, d, x, x', y, y', v', h1, h2, h3, h4, rfl, hx, hy, hop, i1, k1, i2, k2, i3, i4, k3, k4, j2,
    j3, j4⟩

/-- `DynamicJacobianEvaluator`: the invariant of the induction. -/
theorem dyn_near {η : ℝ} (hη : 0 ≤ η) {s s' : Store (geoLib ε)} {t : ℕ} {σ : Ty} :
    {τ : Ty} → (e : Expr (geoLib ε) τ) → LeavesOk η s s' e → {v : τ.Val} →
    e.eval (L := geoLib ε) s = some v → {T : ETree (geoLib ε) τ} → FlTree F s' e T →
    {o : Option (Matrix τ.Idx σ.Idx ℝ)} → FlDyn F t σ T o →
    NearO (ampJ s (byAddr t) e) (facJ F.u η (byAddr t) e) ((ETree.mk s e).dyn t σ) o
  | _, .leaf a c τ, hs, v, hv, T, hT, o, ho => by
    cases hT
    simp only [FlDyn] at ho
    simp only [ampJ, facJ, ETree.mk, ETree.dyn]
    by_cases h : a = t
    · rw [if_pos h] at ho
      obtain ⟨e, rfl⟩ := ho
      rw [if_pos (show (byAddr t).leaf a c τ = true from decide_eq_true h), if_pos h, dif_pos e]
      exact nearO_id e
    · rw [if_neg h] at ho
      subst ho
      rw [if_neg h]
      trivial
  | β, .un a op e, hs, v, hv, T, hT, o, ho => by
    obtain ⟨c, x, x', v', h1, h2, rfl, hx, hop, i1, i2, i3, i4, j2, j3, j4⟩ := un_info hη op hs hv hT
    simp only [FlDyn] at ho
    simp only [ampJ, facJ, ETree.mk, ETree.dyn]
    by_cases h : a = t
    · rw [if_pos h] at ho
      obtain ⟨e, rfl⟩ := ho
      have d : (byAddr t).node a = true := decide_eq_true h
      rw [if_pos d, if_pos d, if_pos h, dif_pos e]
      exact nearO_id e
    · rw [if_neg h] at ho
      obtain ⟨o', ho', hq⟩ := ho
      have d : ¬ ((byAddr t).node a = true) := by simpa [byAddr] using h
      rw [if_neg d, if_neg d, if_neg h]
      have ih := dyn_near hη e hs hx h1 ho'
      rw [h2] at hq
      have := stepUn_near (ε := ε) op i2 i1 i3 i4 j2 j3 j4 (ampJ_nonneg e) ih hq
      have e1 : (ETree.mk s e).val.bind ((geoLib ε).evalU op) = some v := hv
      have e2 : (ETree.mk s e).val = some x := hx
      rw [e1, e2]
      refine Eq.mp (congrArg (fun q => NearO _ _ q o) ?_) this
      cases (ETree.mk s e).dyn t σ <;> rfl
  | γ, .bin a op l r, hs, v, hv, T, hT, o, ho => by
    obtain ⟨c, d, x, x', y, y', v', h1, h2, h3, h4, rfl, hx, hy, hop, i1, k1, i2, k2, i3, i4, k3, k4,
      j2, j3, j4⟩ := bin_info hη op hs hv hT
    simp only [FlDyn] at ho
    simp only [ampJ, facJ, ETree.mk, ETree.dyn]
    by_cases h : a = t
    · rw [if_pos h] at ho
      obtain ⟨e, rfl⟩ := ho
      have d : (byAddr t).node a = true := decide_eq_true h
      rw [if_pos d, if_pos d, if_pos h, dif_pos e]
      exact nearO_id e
    · rw [if_neg h] at ho
      obtain ⟨ol, or, hol, hor, hq⟩ := ho
      have dn : ¬ ((byAddr t).node a = true) := by simpa [byAddr] using h
      rw [if_neg dn, if_neg dn, if_neg h]
      have ih := dyn_near hη l hs.left hx h1 hol
      have ih' := dyn_near hη r hs.right hy h2 hor
      rw [h3, h4] at hq
      have := stepBin_near (ε := ε) op i2 k2 i1 k1 i3 i4 k3 k4 j2 j3 j4 (ampJ_nonneg l)
        (ampJ_nonneg r) ih ih' hq
      have e1 : ((ETree.mk s l).val.bind fun x => (ETree.mk s r).val.bind fun y =>
        (geoLib ε).evalB op x y) = some v := hv
      have e2 : (ETree.mk s l).val = some x := hx
      have e3 : (ETree.mk s r).val = some y := hy
      rw [e1, e2, e3]
      refine Eq.mp (congrArg (fun q => NearO _ _ q o) ?_) this
      cases (ETree.mk s l).dyn t σ <;> cases (ETree.mk s r).dyn t σ <;> rfl
  | τ, .proxy a e, hs, v, hv, T, hT, o, ho => by
    obtain ⟨c, h1, rfl⟩ := hT
    simp only [FlDyn] at ho
    simp only [ampJ, facJ, ETree.mk, ETree.dyn]
    by_cases h : a = t
    · rw [if_pos h] at ho
      obtain ⟨e, rfl⟩ := ho
      have d : (byAddr t).node a = true := decide_eq_true h
      rw [if_pos d, if_pos d, if_pos h, dif_pos e]
      exact nearO_id e
    · rw [if_neg h] at ho
      have d : ¬ ((byAddr t).node a = true) := by simpa [byAddr] using h
      rw [if_neg d, if_neg d, if_neg h]
      exact dyn_near hη e hs hv h1 ho

theorem flTree_hasType {s : Store (geoLib ε)} (t : Target (geoLib ε)) : {τ : Ty} →
    (e : Expr (geoLib ε) τ) → {T : ETree (geoLib ε) τ} → FlTree F s e T → T.hasType t = e.hasType t
  | _, .leaf a c τ, _, h => by
    cases h
    rfl
  | _, .un a op e, _, h => by
    obtain ⟨c, x, z, h1, -, -, rfl⟩ := h
    exact flTree_hasType t e h1
  | _, .bin a op l r, _, h => by
    obtain ⟨c, d, x, y, z, h1, h2, -, -, -, rfl⟩ := h
    change (c.hasType t || d.hasType t) = (l.hasType t || r.hasType t)
    rw [flTree_hasType t l h1, flTree_hasType t r h2]
  | _, .proxy a e, _, h => by
    obtain ⟨c, -, rfl⟩ := h
    rfl

/-- `JacobianEvaluator`: the invariant of the induction. -/
theorem fwd_near {η : ℝ} (hη : 0 ≤ η) {s s' : Store (geoLib ε)} {t : Target (geoLib ε)} :
    {τ : Ty} → (e : Expr (geoLib ε) τ) → e.noProxy = true → LeavesOk η s s' e → {v : τ.Val} →
    e.eval (L := geoLib ε) s = some v → {T : ETree (geoLib ε) τ} → FlTree F s' e T →
    {o : Option (Matrix τ.Idx (Ty.Idx t.ty) ℝ)} → FlFwd F t T o →
    NearO (ampJ s (byObject t) e) (facJ F.u η (byObject t) e) ((ETree.mk s e).fwd t) o
  | _, .leaf a c τ, _, hs, v, hv, T, hT, o, ho => by
    cases hT
    simp only [FlFwd] at ho
    simp only [ampJ, facJ, ETree.mk, ETree.fwd]
    by_cases h : τ = t.ty ∧ c = t.cls
    · rw [dif_pos h] at ho
      rw [dif_pos h]
      by_cases h' : a = t.addr
      · rw [if_pos h'] at ho
        subst ho
        have d : (byObject t).leaf a c τ = true := by simp [byObject, h, h']
        rw [if_pos d, if_pos h']
        exact nearO_id h.1
      · rw [if_neg h'] at ho
        subst ho
        rw [if_neg h']
        trivial
    · rw [dif_neg h] at ho
      subst ho
      rw [dif_neg h]
      trivial
  | β, .un a op e, hp, hs, v, hv, T, hT, o, ho => by
    obtain ⟨c, x, x', v', h1, h2, rfl, hx, hop, i1, i2, i3, i4, j2, j3, j4⟩ := un_info hη op hs hv hT
    obtain ⟨o', ho', hq⟩ := ho
    simp only [ampJ, facJ, ETree.mk, ETree.fwd]
    have d : ¬ ((byObject t).node a = true) := by simp [byObject]
    rw [if_neg d, if_neg d]
    have ih := fwd_near hη e hp hs hx h1 ho'
    rw [h2] at hq
    have := stepUn_near (ε := ε) op i2 i1 i3 i4 j2 j3 j4 (ampJ_nonneg e) ih hq
    have e1 : (ETree.mk s e).val.bind ((geoLib ε).evalU op) = some v := hv
    have e2 : (ETree.mk s e).val = some x := hx
    rw [e1, e2]
    refine Eq.mp (congrArg (fun q => NearO _ _ q o) ?_) this
    cases (ETree.mk s e).fwd t <;> rfl
  | γ, .bin a op l r, hp, hs, v, hv, T, hT, o, ho => by
    obtain ⟨c, d, x, x', y, y', v', h1, h2, h3, h4, rfl, hx, hy, hop, i1, k1, i2, k2, i3, i4, k3, k4,
      j2, j3, j4⟩ := bin_info hη op hs hv hT
    have hp' : l.noProxy = true ∧ r.noProxy = true := by simpa [Expr.noProxy] using hp
    simp only [FlFwd] at ho
    simp only [ampJ, facJ, ETree.mk, ETree.fwd]
    have dn : ¬ ((byObject t).node a = true) := by simp [byObject]
    rw [if_neg dn, if_neg dn]
    have e1 : ((ETree.mk s l).val.bind fun x => (ETree.mk s r).val.bind fun y =>
      (geoLib ε).evalB op x y) = some v := hv
    have e2 : (ETree.mk s l).val = some x := hx
    have e3 : (ETree.mk s r).val = some y := hy
    rw [e1, e2, e3, mk_hasType (L := geoLib ε) s t l, mk_hasType (L := geoLib ε) s t r]
    rw [flTree_hasType t l h1, flTree_hasType t r h2, h3, h4] at ho
    have ih := fun {o} => fwd_near hη (t := t) (o := o) l hp'.1 hs.left hx h1
    have ih' := fun {o} => fwd_near hη (t := t) (o := o) r hp'.2 hs.right hy h2
    have key := fun {o o' p p' q} => stepBin_near (ε := ε) (n := Ty.Idx t.ty) (o := o) (o' := o') (p := p) (p' := p')
      (q := q) op i2 k2 i1 k1 i3 i4 k3 k4 j2 j3 j4 (ampJ_nonneg (s := s) (h := byObject t) l)
      (ampJ_nonneg (s := s) (h := byObject t) r) (φ := facJ F.u η (byObject t) l)
      (ψ := facJ F.u η (byObject t) r)
    split_ifs at ho ⊢
    · obtain ⟨ol, or, hol, hor, hq⟩ := ho
      refine Eq.mp (congrArg (fun q => NearO _ _ q o) ?_) (key (ih hol) (ih' hor) hq)
      cases (ETree.mk s l).fwd t <;> cases (ETree.mk s r).fwd t <;> rfl
    · obtain ⟨ol, hol, hq⟩ := ho
      refine Eq.mp (congrArg (fun q => NearO _ _ q o) ?_) (key (p := none) (p' := none) (ih hol) trivial hq)
      cases (ETree.mk s l).fwd t <;> rfl
    · obtain ⟨or, hor, hq⟩ := ho
      refine Eq.mp (congrArg (fun q => NearO _ _ q o) ?_) (key (o := none) (o' := none) trivial (ih' hor) hq)
      cases (ETree.mk s r).fwd t <;> rfl

/-- `TypedJacobianEvaluator`: the invariant of the induction. -/
theorem typed_near {η : ℝ} (hη : 0 ≤ η) {s s' : Store (geoLib ε)} {t : Target (geoLib ε)} :
    {τ : Ty} → (e : Expr (geoLib ε) τ) → LeavesOk η s s' e → {v : τ.Val} →
    e.eval (L := geoLib ε) s = some v → {T : ETree (geoLib ε) τ} → FlTree F s' e T →
    {J : Matrix τ.Idx (Ty.Idx t.ty) ℝ} → FlTyped F t T J →
    NearO (ampJ s (byType t) e) (facJ F.u η (byType t) e) (some ((ETree.mk s e).typed t)) (some J)
  | _, .leaf a c τ, hs, v, hv, T, hT, J, ho => by
    cases hT
    obtain ⟨h1, h2, rfl⟩ := ho
    simp only [ampJ, facJ, ETree.mk, ETree.typed]
    have d : (byType t).leaf a c τ = true := by simp [byType, h1, h2]
    rw [if_pos d, dif_pos ⟨h1, h2⟩]
    exact nearO_id h1
  | β, .un a op e, hs, v, hv, T, hT, J, ho => by
    obtain ⟨c, x, x', v', h1, h2, rfl, hx, hop, i1, i2, i3, i4, j2, j3, j4⟩ := un_info hη op hs hv hT
    obtain ⟨J', ho', hq⟩ := ho
    simp only [ampJ, facJ, ETree.mk, ETree.typed]
    have d : ¬ ((byType t).node a = true) := by simp [byType]
    rw [if_neg d, if_neg d]
    have ih := typed_near hη e hs hx h1 ho'
    rw [h2] at hq
    have := stepUn_near (ε := ε) op i2 i1 i3 i4 j2 j3 j4 (ampJ_nonneg e) ih hq
    have e1 : (ETree.mk s e).val.bind ((geoLib ε).evalU op) = some v := hv
    have e2 : (ETree.mk s e).val = some x := hx
    rw [e1, e2]
    exact this
  | γ, .bin a op l r, hs, v, hv, T, hT, J, ho => by
    obtain ⟨c, d, x, x', y, y', v', h1, h2, h3, h4, rfl, hx, hy, hop, i1, k1, i2, k2, i3, i4, k3, k4,
      j2, j3, j4⟩ := bin_info hη op hs hv hT
    simp only [FlTyped] at ho
    simp only [ampJ, facJ, ETree.mk, ETree.typed]
    have dn : ¬ ((byType t).node a = true) := by simp [byType]
    rw [if_neg dn, if_neg dn]
    have e1 : ((ETree.mk s l).val.bind fun x => (ETree.mk s r).val.bind fun y =>
      (geoLib ε).evalB op x y) = some v := hv
    have e2 : (ETree.mk s l).val = some x := hx
    have e3 : (ETree.mk s r).val = some y := hy
    rw [e1, e2, e3, mk_hasType (L := geoLib ε) s t l, mk_hasType (L := geoLib ε) s t r]
    rw [flTree_hasType t l h1, flTree_hasType t r h2, h3, h4] at ho
    have ih := fun {o} => typed_near hη (t := t) (J := o) l hs.left hx h1
    have ih' := fun {o} => typed_near hη (t := t) (J := o) r hs.right hy h2
    have key := fun {o o' p p' q} => stepBin_near (ε := ε) (n := Ty.Idx t.ty) (o := o) (o' := o') (p := p) (p' := p')
      (q := q) op i2 k2 i1 k1 i3 i4 k3 k4 j2 j3 j4 (ampJ_nonneg (s := s) (h := byType t) l)
      (ampJ_nonneg (s := s) (h := byType t) r) (φ := facJ F.u η (byType t) l)
      (ψ := facJ F.u η (byType t) r)
    split_ifs at ho ⊢
    · obtain ⟨K, K', hol, hor, hq⟩ := ho
      exact key (ih hol) (ih' hor) hq
    · obtain ⟨K, hol, hq⟩ := ho
      exact key (p := none) (p' := none) (ih hol) trivial hq
    · obtain ⟨K, hor, hq⟩ := ho
      exact key (o := none) (o' := none) trivial (ih' hor) hq
  | _, .proxy a e, hs, v, hv, T, hT, J, ho => by
    obtain ⟨c, -, rfl⟩ := hT
    exact ho.elim

/-- The blocks of the reverse evaluators and the computed ones, for an adjoint of size `S` with error
factor `b`. -/
def RevNear {ρ : Ty} (S b : ℝ) :
    List (ℝ × ℝ) → List (Block (geoLib ε) ρ) → List (FlBlock ρ) → Prop
  | [], [], [] => True
  | p :: ps, x :: xs, y :: ys => (∃ (σ : Ty) (J J' : Matrix ρ.Idx σ.Idx ℝ), x = ⟨σ, some J⟩ ∧
      y = ⟨σ, J'⟩ ∧ (∀ i, len (fun j => J i j) ≤ p.1 * S) ∧
      ∀ i, len (fun j => J' i j - J i j) ≤ (p.2 * b - 1) * (p.1 * S)) ∧ RevNear S b ps xs ys
  | _, _, _ => False

theorem revNear_append {ρ : Ty} {S b : ℝ} : {ps : List (ℝ × ℝ)} →
    {xs : List (Block (geoLib ε) ρ)} → {ys : List (FlBlock ρ)} → RevNear S b ps xs ys →
    {ps' : List (ℝ × ℝ)} → {xs' : List (Block (geoLib ε) ρ)} → {ys' : List (FlBlock ρ)} →
    RevNear S b ps' xs' ys' → RevNear S b (ps ++ ps') (xs ++ xs') (ys ++ ys')
  | [], [], [], _, _, _, _, h => h
  | _ :: _, _ :: _, _ :: _, h, _, _, _, h' => ⟨h.1, revNear_append h.2 h'⟩
  | [], _ :: _, _, h, _, _, _, _ => h.elim
  | [], [], _ :: _, h, _, _, _, _ => h.elim
  | _ :: _, [], _, h, _, _, _, _ => h.elim
  | _ :: _, _ :: _, [], h, _, _, _, _ => h.elim

theorem revNear_map {ρ : Ty} {S b g w : ℝ} : {ps : List (ℝ × ℝ)} →
    {xs : List (Block (geoLib ε) ρ)} → {ys : List (FlBlock ρ)} → RevNear (g * S) (w * b) ps xs ys →
    RevNear S b (ps.map fun p => (g * p.1, w * p.2)) xs ys
  | [], [], [], _ => trivial
  | p :: _, _ :: _, _ :: _, h => by
    obtain ⟨⟨σ, J, J', e1, e2, h1, h2⟩, h3⟩ := h
    refine ⟨⟨σ, J, J', e1, e2, fun i => ?_, fun i => ?_⟩, revNear_map h3⟩
    · rw [show g * p.1 * S = p.1 * (g * S) by ring]
      exact h1 i
    · rw [show g * p.1 * S = p.1 * (g * S) by ring, show w * p.2 * b = p.2 * (w * b) by ring]
      exact h2 i
  | [], _ :: _, _, h => h.elim
  | [], [], _ :: _, h => h.elim
  | _ :: _, [], _, h => h.elim
  | _ :: _, _ :: _, [], h => h.elim

/-- The reverse evaluators: the invariant of the induction. -/
theorem rev_near {η : ℝ} (hη : 0 ≤ η) {s s' : Store (geoLib ε)} {ρ : Ty} :
    {τ : Ty} → (e : Expr (geoLib ε) τ) → LeavesOk η s s' e → {v : τ.Val} →
    e.eval (L := geoLib ε) s = some v → {T : ETree (geoLib ε) τ} → FlTree F s' e T →
    {A A' : Matrix ρ.Idx τ.Idx ℝ} → {S b : ℝ} → 0 ≤ S → 1 ≤ b →
    (∀ i, len (fun j => A i j) ≤ S) → (∀ i, len (fun j => A' i j - A i j) ≤ (b - 1) * S) →
    {bs : List (FlBlock ρ)} → FlRev F T A' bs →
    RevNear S b (paths F.u η s e) ((ETree.mk s e).rev (some A)) bs
  | τ, .leaf a c _, hs, v, hv, T, hT, A, A', S, b, hS, hb, h1, h2, bs, h => by
    cases hT
    cases h
    refine ⟨⟨τ, A, A', rfl, rfl, fun i => ?_, fun i => ?_⟩, trivial⟩
    · rw [one_mul]
      exact h1 i
    · rw [one_mul, one_mul]
      exact h2 i
  | β, .un a op e, hs, v, hv, T, hT, A, A', S, b, hS, hb, h1, h2, bs, h => by
    obtain ⟨c, x, x', v', f1, f2, rfl, hx, hop, i1, i2, i3, i4, j2, j3, j4⟩ := un_info hη op hs hv hT
    obtain ⟨L', K, ⟨v₁, x₁, e1, e2, hL'⟩, hK, hr⟩ := h
    cases Option.some.inj e1
    cases Option.some.inj (f2.symm.trans e2)
    obtain ⟨L, hL, hn⟩ := jacUn_near (ε := ε) op i2 i1 i3 i4 j2 j3 j4 hL'
    have k := fun i => chain_row (F := F) hn (idx_card _) (idx_card _) hb hS (h1 i) (h2 i) hK
    have ih := rev_near hη e hs hx f1 (mul_nonneg hn.g0 hS)
      (one_le_mul' (one_le_mul' hn.one hb) (one_le_chain F)) (fun i => (k i).1) (fun i => (k i).2) hr
    rw [show locUn F.u op (factor F.u η e) * b * chainFactor F.u =
      (locUn F.u op (factor F.u η e) * chainFactor F.u) * b by ring] at ih
    have := revNear_map ih
    refine Eq.mp (congrArg (fun q => RevNear S b _ q bs) ?_) this
    have e3 : (ETree.mk s e).val.bind ((geoLib ε).evalU op) = some v := hv
    have e4 : (ETree.mk s e).val = some x := hx
    have e5 : nodeJac (L := geoLib ε) op (some v) (some x) = some L := hL
    simp only [ETree.mk, ETree.rev]
    rw [e3, e4, e5]
    rfl
  | γ, .bin a op l r, hs, v, hv, T, hT, A, A', S, b, hS, hb, h1, h2, bs, h => by
    obtain ⟨c, d, x, x', y, y', v', f1, f2, f3, f4, rfl, hx, hy, hop, i1, k1, i2, k2, i3, i4, k3, k4,
      j2, j3, j4⟩ := bin_info hη op hs hv hT
    obtain ⟨L₁, L₂, K₁, K₂, b₁, b₂, ⟨v₁, x₁, y₁, e1, e2, e3, hL₁⟩, ⟨v₂, x₂, y₂, g1, g2, g3, hL₂⟩, hK₁,
      hK₂, hr₁, hr₂, rfl⟩ := h
    cases Option.some.inj e1
    cases Option.some.inj (f3.symm.trans e2)
    cases Option.some.inj (f4.symm.trans e3)
    cases Option.some.inj g1
    cases Option.some.inj (f3.symm.trans g2)
    cases Option.some.inj (f4.symm.trans g3)
    obtain ⟨L, hL, hn⟩ := jacL_near (x := x) op k2 k3 k4 j2 j3 j4 hL₁
    obtain ⟨M, hM, hm⟩ := jacR_near (y := y) (v := v) (B := factor F.u η r) (T := amp s r) op i2 i3 i4
      hL₂
    have q := fun i => chain_row (F := F) hn (idx_card _) (idx_card _) hb hS (h1 i) (h2 i) hK₁
    have q' := fun i => chain_row (F := F) hm (idx_card _) (idx_card _) hb hS (h1 i) (h2 i) hK₂
    have ih := rev_near hη l hs.left hx f1 (mul_nonneg hn.g0 hS)
      (one_le_mul' (one_le_mul' hn.one hb) (one_le_chain F)) (fun i => (q i).1) (fun i => (q i).2) hr₁
    have ih' := rev_near hη r hs.right hy f2 (mul_nonneg hm.g0 hS)
      (one_le_mul' (one_le_mul' hm.one hb) (one_le_chain F)) (fun i => (q' i).1) (fun i => (q' i).2)
      hr₂
    rw [show ∀ w : ℝ, w * b * chainFactor F.u = (w * chainFactor F.u) * b by intro w; ring] at ih ih'
    have := revNear_append (revNear_map ih) (revNear_map ih')
    refine Eq.mp (congrArg (fun q => RevNear S b _ q (b₁ ++ b₂)) ?_) this
    have e4 : ((ETree.mk s l).val.bind fun x => (ETree.mk s r).val.bind fun y =>
      (geoLib ε).evalB op x y) = some v := hv
    have e5 : (ETree.mk s l).val = some x := hx
    have e6 : (ETree.mk s r).val = some y := hy
    have e7 : nodeJacL (L := geoLib ε) op (some v) (some x) (some y) = some L := hL
    have e8 : nodeJacR (L := geoLib ε) op (some v) (some x) (some y) = some M := hM
    simp only [ETree.mk, ETree.rev]
    rw [e4, e5, e6, e7, e8]
    rfl
  | _, .proxy a e, hs, v, hv, T, hT, A, A', S, b, hS, hb, h1, h2, bs, h => by
    obtain ⟨c, f1, rfl⟩ := hT
    exact rev_near (T := c) hη e hs hv f1 hS hb h1 h2 h

end WG.Round
