import Verif.Lemmas.RoundingJac
import Verif.Lemmas.Unique
import Verif.Spec.Regular

/-! # Computed Jacobians: existence, exact arithmetic -/

namespace WG.Round
open Matrix Spec

variable {ε : ℝ} {F : Fl}

/-! ### Outcomes exist -/

instance idxNonempty : (τ : Ty) → Nonempty τ.Idx
  | .vec .scalar => ⟨(0 : Fin 1)⟩
  | .vec .trans => ⟨(0 : Fin 3)⟩
  | .vec .relrot => ⟨(0 : Fin 3)⟩
  | .vec .twist => ⟨(.inl 0 : Fin 3 ⊕ Fin 3)⟩
  | .point => ⟨(0 : Fin 3)⟩
  | .rot _ => ⟨(0 : Fin 3)⟩
  | .rigid _ => ⟨(.inl 0 : Fin 3 ⊕ Fin 3)⟩

theorem flProd_exists {m n p : Type} [Fintype n] [Nonempty n] (A : Matrix m n ℝ) (B : Matrix n p ℝ) :
    ∃ C, FlProd F A B C := by
  choose C hC using fun i j => flDot_exists (F := F) (fun k => A i k) fun k => B k j
  exact ⟨C, fun i j => ⟨Finset.univ, fun k h => absurd (Finset.mem_univ k) h, hC i j⟩⟩

theorem flRotMatrix_exists {k : RotK} (h : k ≠ .aa) (x : k.Val) : ∃ M, FlRotMatrix F k x M := by
  cases k with
  | quat => exact flToMatrix_exists x
  | mat => exact ⟨_, rfl⟩
  | aa => exact absurd rfl h

theorem rotK_ne (k : RigK) : k.rotK ≠ .aa := by cases k <;> exact fun h => nomatch h

theorem flAdjoint_exists (k : RigK) (x : k.Val) : ∃ A, FlAdjoint F k x A := by
  obtain ⟨R, hR⟩ := flRotMatrix_exists (F := F) (rotK_ne k) (k.rot x)
  obtain ⟨C, hC⟩ := flProd_exists (F := F) (crossMatrix (k.trans x)) R
  exact ⟨_, R, C, hR, hC, rfl⟩

theorem flJacUn_exists {a b : Ty} (op : Un a b) (h : JacUn op) (v : b.Val) (x : a.Val) :
    ∃ J, FlJacUn F op v x J := by
  cases op with
  | minus k => exact ⟨_, rfl⟩
  | sqNorm k => exact ⟨_, rfl⟩
  | invRot k =>
    obtain ⟨M, hM⟩ := flRotMatrix_exists (F := F) h v
    exact ⟨_, M, hM, rfl⟩
  | invRigid k =>
    obtain ⟨M, hM⟩ := flAdjoint_exists (F := F) k v
    exact ⟨_, M, hM, rfl⟩
  | getRot k => exact ⟨_, rfl⟩
  | getTrans k => exact ⟨_, rfl⟩
  | convRot a b => exact ⟨_, rfl⟩
  | convRigid a b => exact ⟨_, rfl⟩
  | recast k => exact ⟨_, rfl⟩
  | _ => exact h.elim

theorem flJacL_exists {a b c : Ty} (op : Bin a b c) (h : CovBin op) (v : c.Val) (x : a.Val)
    (y : b.Val) : ∃ J, FlJacL F op v x y J := by
  cases op with
  | scaleDiv k => exact h.elim
  | divide => exact h.elim
  | flipQ => exact flToMatrix_exists y
  | flipRigid p q => exact flAdjoint_exists q y
  | _ => exact ⟨_, rfl⟩

theorem flJacR_exists {a b c : Ty} (op : Bin a b c) (h : CovBin op) (v : c.Val) (x : a.Val)
    (y : b.Val) : ∃ J, FlJacR F op v x y J := by
  cases op with
  | scaleDiv k => exact h.elim
  | divide => exact h.elim
  | composeQ => exact flToMatrix_exists x
  | composeRigid p q => exact flAdjoint_exists p x
  | rotateQ => exact flToMatrix_exists x
  | transform k => exact flRotMatrix_exists (rotK_ne k) _
  | _ => exact ⟨_, rfl⟩

theorem covUn_of_jacUn {a b : Ty} (op : Un a b) (h : JacUn op) : CovUn op := by
  cases op <;> first | exact h | trivial

theorem tree_exists (F : Fl) (s : Store (geoLib ε)) : {τ : Ty} → (e : Expr (geoLib ε) τ) →
    JacCovered e → ∃ T, FlTree F s e T
  | _, .leaf _ _ _, _ => ⟨_, rfl⟩
  | _, .un _ op e, h => by
    obtain ⟨c, hc⟩ := tree_exists F s e h.2
    obtain ⟨x, hx, -⟩ := tree_val e hc
    obtain ⟨z, hz⟩ := flUn_exists (F := F) op (covUn_of_jacUn op h.1) x
    exact ⟨_, c, x, z, hc, hx, hz, rfl⟩
  | _, .bin _ op l r, h => by
    obtain ⟨c, hc⟩ := tree_exists F s l h.2.1
    obtain ⟨d, hd⟩ := tree_exists F s r h.2.2
    obtain ⟨x, hx, -⟩ := tree_val l hc
    obtain ⟨y, hy, -⟩ := tree_val r hd
    obtain ⟨z, hz⟩ := flBin_exists (F := F) op h.1 x y
    exact ⟨_, c, d, x, y, z, hc, hd, hx, hy, hz, rfl⟩
  | _, .proxy _ e, h => by
    obtain ⟨c, hc⟩ := tree_exists F s e h
    exact ⟨_, c, hc, rfl⟩

theorem stepUn_exists {α β : Ty} {n : Type} (op : Un α β) (h : JacUn op) (v : β.Val) (x : α.Val) :
    (o' : Option (Matrix α.Idx n ℝ)) → ∃ o, FlStepUn F op (some v) (some x) o' o ∧
      (o'.isSome → o.isSome)
  | none => ⟨none, rfl, id⟩
  | some J => by
    obtain ⟨L, hL⟩ := flJacUn_exists (F := F) op h v x
    obtain ⟨K, hK⟩ := flProd_exists (F := F) L J
    exact ⟨_, ⟨L, K, ⟨_, _, rfl, rfl, hL⟩, hK, rfl⟩, fun _ => rfl⟩

theorem stepBin_exists {α β γ : Ty} {n : Type} (op : Bin α β γ) (h : CovBin op) (v : γ.Val)
    (x : α.Val) (y : β.Val) (o' : Option (Matrix α.Idx n ℝ)) (p' : Option (Matrix β.Idx n ℝ)) :
    ∃ o, FlStepBin F op (some v) (some x) (some y) o' p' o ∧ (o'.isSome ∨ p'.isSome → o.isSome) := by
  obtain ⟨L, hL⟩ := flJacL_exists (F := F) op h v x y
  obtain ⟨R, hR⟩ := flJacR_exists (F := F) op h v x y
  have hL' : FlNodeJacL F op (some v) (some x) (some y) L := ⟨_, _, _, rfl, rfl, rfl, hL⟩
  have hR' : FlNodeJacR F op (some v) (some x) (some y) R := ⟨_, _, _, rfl, rfl, rfl, hR⟩
  rcases o' with _ | J <;> rcases p' with _ | J'
  · exact ⟨none, rfl, by simp⟩
  · obtain ⟨K, hK⟩ := flProd_exists (F := F) R J'
    exact ⟨_, ⟨R, K, hR', hK, rfl⟩, fun _ => rfl⟩
  · obtain ⟨K, hK⟩ := flProd_exists (F := F) L J
    exact ⟨_, ⟨L, K, hL', hK, rfl⟩, fun _ => rfl⟩
  · obtain ⟨K, hK⟩ := flProd_exists (F := F) L J
    obtain ⟨K', hK'⟩ := flProd_exists (F := F) R J'
    exact ⟨_, ⟨L, R, K, K', hL', hR', hK, hK', rfl⟩, fun _ => rfl⟩

theorem dyn_exists {s : Store (geoLib ε)} {t : ℕ} {σ : Ty} : {τ : Ty} → (e : Expr (geoLib ε) τ) →
    JacCovered e → (∀ o ∈ objects e, o.addr = t → o.ty = σ) → t ∉ nodeAddrs e →
    {T : ETree (geoLib ε) τ} → FlTree F s e T → ∃ o, FlDyn F t σ T o
  | _, .leaf a c τ, _, ho, hn, T, hT => by
    cases hT
    simp only [FlDyn]
    by_cases h : a = t
    · simp only [if_pos h]
      exact ⟨_, ho ⟨a, c, τ⟩ (List.mem_singleton.mpr rfl) h, rfl⟩
    · simp only [if_neg h]
      exact ⟨_, rfl⟩
  | _, .un a op e, hc, ho, hn, T, hT => by
    obtain ⟨c, x, z, h1, h2, h3, rfl⟩ := hT
    have hn' : t ≠ a ∧ t ∉ nodeAddrs e := ⟨fun h => hn (h ▸ List.mem_cons_self),
      fun h => hn (List.mem_cons_of_mem _ h)⟩
    obtain ⟨o', i⟩ := dyn_exists e hc.2 ho hn'.2 h1
    obtain ⟨o, j, -⟩ := stepUn_exists (F := F) op hc.1 z x o'
    refine ⟨o, ?_⟩
    simp only [FlDyn, if_neg hn'.1.symm]
    exact ⟨o', i, h2 ▸ j⟩
  | _, .bin a op l r, hc, ho, hn, T, hT => by
    obtain ⟨c, d, x, y, z, h1, h2, h3, h4, h5, rfl⟩ := hT
    have hn' : t ≠ a ∧ t ∉ nodeAddrs l ∧ t ∉ nodeAddrs r := ⟨fun h => hn (h ▸ List.mem_cons_self),
      fun h => hn (List.mem_cons_of_mem _ (List.mem_append_left _ h)),
      fun h => hn (List.mem_cons_of_mem _ (List.mem_append_right _ h))⟩
    obtain ⟨ol, i⟩ := dyn_exists l hc.2.1 (fun o h => ho o (List.mem_append_left _ h)) hn'.2.1 h1
    obtain ⟨or, j⟩ := dyn_exists r hc.2.2 (fun o h => ho o (List.mem_append_right _ h)) hn'.2.2 h2
    obtain ⟨o, k, -⟩ := stepBin_exists (F := F) op hc.1 z x y ol or
    refine ⟨o, ?_⟩
    simp only [FlDyn, if_neg hn'.1.symm]
    exact ⟨ol, or, i, j, h3 ▸ h4 ▸ k⟩
  | _, .proxy a e, hc, ho, hn, T, hT => by
    obtain ⟨c, h1, rfl⟩ := hT
    have hn' : t ≠ a ∧ t ∉ nodeAddrs e := ⟨fun h => hn (h ▸ List.mem_cons_self),
      fun h => hn (List.mem_cons_of_mem _ h)⟩
    obtain ⟨o', i⟩ := dyn_exists e hc ho hn'.2 h1
    refine ⟨o', ?_⟩
    simp only [FlDyn, if_neg hn'.1.symm]
    exact i

theorem fwd_exists {s : Store (geoLib ε)} {t : Target (geoLib ε)} : {τ : Ty} →
    (e : Expr (geoLib ε) τ) → JacCovered e → e.noProxy = true → e.hasType t = true →
    {T : ETree (geoLib ε) τ} → FlTree F s e T → ∃ o, FlFwd F t T o
  | _, .leaf a c τ, _, _, hn, T, hT => by
    cases hT
    simp only [FlFwd]
    by_cases h : τ = t.ty ∧ c = t.cls
    · simp only [dif_pos h]
      by_cases h' : a = t.addr
      · simp only [if_pos h']
        exact ⟨_, rfl⟩
      · simp only [if_neg h']
        exact ⟨_, rfl⟩
    · simp only [dif_neg h]
      exact ⟨_, rfl⟩
  | _, .un a op e, hc, hp, hn, T, hT => by
    obtain ⟨c, x, z, h1, h2, h3, rfl⟩ := hT
    obtain ⟨o', i⟩ := fwd_exists e hc.2 hp hn h1
    obtain ⟨o, j, -⟩ := stepUn_exists (F := F) op hc.1 z x o'
    exact ⟨o, o', i, h2 ▸ j⟩
  | _, .bin a op l r, hc, hp, hn, T, hT => by
    obtain ⟨c, d, x, y, z, h1, h2, h3, h4, h5, rfl⟩ := hT
    simp only [Expr.noProxy, Bool.and_eq_true] at hp
    have tl := flTree_hasType t l h1
    have tr := flTree_hasType t r h2
    simp only [FlFwd, tl, tr, h3, h4]
    cases el : l.hasType t <;> cases er : r.hasType t
    · simp [Expr.hasType, el, er] at hn
    · obtain ⟨or, j⟩ := fwd_exists r hc.2.2 hp.2 er h2
      obtain ⟨o, k, -⟩ := stepBin_exists (F := F) op hc.1 z x y none or
      exact ⟨o, by simpa using ⟨or, j, k⟩⟩
    · obtain ⟨ol, i⟩ := fwd_exists l hc.2.1 hp.1 el h1
      obtain ⟨o, k, -⟩ := stepBin_exists (F := F) op hc.1 z x y ol none
      exact ⟨o, by simpa using ⟨ol, i, k⟩⟩
    · obtain ⟨ol, i⟩ := fwd_exists l hc.2.1 hp.1 el h1
      obtain ⟨or, j⟩ := fwd_exists r hc.2.2 hp.2 er h2
      obtain ⟨o, k, -⟩ := stepBin_exists (F := F) op hc.1 z x y ol or
      exact ⟨o, by simpa using ⟨ol, i, or, j, k⟩⟩
  | _, .proxy _ _, _, hp, _, _, _ => nomatch hp

theorem typed_exists {s : Store (geoLib ε)} {t : Target (geoLib ε)} : {τ : Ty} →
    (e : Expr (geoLib ε) τ) → JacCovered e → e.hasType t = true →
    {T : ETree (geoLib ε) τ} → FlTree F s e T → ∃ J, FlTyped F t T J
  | _, .leaf a c τ, _, hn, T, hT => by
    cases hT
    simp only [Expr.hasType, Bool.and_eq_true, decide_eq_true_eq] at hn
    exact ⟨_, hn.1, hn.2, rfl⟩
  | _, .un a op e, hc, hn, T, hT => by
    obtain ⟨c, x, z, h1, h2, h3, rfl⟩ := hT
    obtain ⟨J', i⟩ := typed_exists e hc.2 hn h1
    obtain ⟨o, j, k⟩ := stepUn_exists (F := F) op hc.1 z x (some J')
    obtain ⟨J, rfl⟩ := Option.isSome_iff_exists.mp (k rfl)
    exact ⟨J, J', i, h2 ▸ j⟩
  | _, .bin a op l r, hc, hn, T, hT => by
    obtain ⟨c, d, x, y, z, h1, h2, h3, h4, h5, rfl⟩ := hT
    have tl := flTree_hasType t l h1
    have tr := flTree_hasType t r h2
    simp only [FlTyped, tl, tr, h3, h4]
    cases el : l.hasType t <;> cases er : r.hasType t
    · simp [Expr.hasType, el, er] at hn
    · obtain ⟨or, j⟩ := typed_exists r hc.2.2 er h2
      obtain ⟨o, k, k'⟩ := stepBin_exists (F := F) op hc.1 z x y none (some or)
      obtain ⟨J, rfl⟩ := Option.isSome_iff_exists.mp (k' (.inr rfl))
      exact ⟨J, by simpa using ⟨or, j, k⟩⟩
    · obtain ⟨ol, i⟩ := typed_exists l hc.2.1 el h1
      obtain ⟨o, k, k'⟩ := stepBin_exists (F := F) op hc.1 z x y (some ol) none
      obtain ⟨J, rfl⟩ := Option.isSome_iff_exists.mp (k' (.inl rfl))
      exact ⟨J, by simpa using ⟨ol, i, k⟩⟩
    · obtain ⟨ol, i⟩ := typed_exists l hc.2.1 el h1
      obtain ⟨or, j⟩ := typed_exists r hc.2.2 er h2
      obtain ⟨o, k, k'⟩ := stepBin_exists (F := F) op hc.1 z x y (some ol) (some or)
      obtain ⟨J, rfl⟩ := Option.isSome_iff_exists.mp (k' (.inl rfl))
      exact ⟨J, by simpa using ⟨ol, i, or, j, k⟩⟩
  | _, .proxy _ _, _, hp, _, _ => nomatch hp

theorem rev_exists {s : Store (geoLib ε)} {ρ : Ty} : {τ : Ty} → (e : Expr (geoLib ε) τ) →
    JacCovered e → {T : ETree (geoLib ε) τ} → FlTree F s e T → (A : Matrix ρ.Idx τ.Idx ℝ) →
    ∃ bs, FlRev F T A bs
  | _, .leaf a c τ, _, T, hT, A => by
    cases hT
    exact ⟨_, rfl⟩
  | _, .un a op e, hc, T, hT, A => by
    obtain ⟨c, x, z, h1, h2, h3, rfl⟩ := hT
    obtain ⟨L, hL⟩ := flJacUn_exists (F := F) op hc.1 z x
    obtain ⟨K, hK⟩ := flProd_exists (F := F) A L
    obtain ⟨bs, i⟩ := rev_exists e hc.2 h1 K
    exact ⟨bs, L, K, ⟨_, _, rfl, h2, hL⟩, hK, i⟩
  | _, .bin a op l r, hc, T, hT, A => by
    obtain ⟨c, d, x, y, z, h1, h2, h3, h4, h5, rfl⟩ := hT
    obtain ⟨L, hL⟩ := flJacL_exists (F := F) op hc.1 z x y
    obtain ⟨R, hR⟩ := flJacR_exists (F := F) op hc.1 z x y
    obtain ⟨K, hK⟩ := flProd_exists (F := F) A L
    obtain ⟨K', hK'⟩ := flProd_exists (F := F) A R
    obtain ⟨b, i⟩ := rev_exists l hc.2.1 h1 K
    obtain ⟨b', j⟩ := rev_exists r hc.2.2 h2 K'
    exact ⟨_, L, R, K, K', b, b', ⟨_, _, _, rfl, h3, h4, hL⟩, ⟨_, _, _, rfl, h3, h4, hR⟩, hK, hK', i, j,
      rfl⟩
  | _, .proxy _ e, hc, T, hT, A => by
    obtain ⟨c, h1, rfl⟩ := hT
    exact rev_exists e hc h1 A

/-! ### Exact arithmetic -/

theorem flProd_exact (hu : F.u = 0) {m n p : Type} [Fintype m] [Fintype n] [Fintype p]
    {A : Matrix m n ℝ} {B : Matrix n p ℝ}
    {C : Matrix m p ℝ} (h : FlProd F A B C) : C = A * B := by
  funext i j
  have := prod_entry h i j
  rw [growth_zero hu, zero_mul] at this
  exact sub_eq_zero.mp (abs_nonpos_iff.mp this)

theorem flRotMatrix_exact (hu : F.u = 0) {k : RotK} {x : k.Val} {M : M3} (h : FlRotMatrix F k x M) :
    M = k.matrix x := by
  cases k with
  | quat => exact flToMatrix_exact hu h
  | mat => exact h
  | aa => exact h.elim

theorem flAdjoint_exact (hu : F.u = 0) {k : RigK} {x : k.Val} {A : M6} (h : FlAdjoint F k x A) :
    A = adjoint (k.rotMatrix x) (k.trans x) := by
  obtain ⟨R, C, hR, hC, rfl⟩ := h
  rw [flProd_exact hu hC, flRotMatrix_exact hu hR, matrix_rot]
  rfl

theorem flJacUn_exact (hu : F.u = 0) {a b : Ty} (op : Un a b) {v : b.Val} {x : a.Val}
    {J : Matrix b.Idx a.Idx ℝ} (h : FlJacUn F op v x J) : jacUn ε op v x = some J := by
  cases op with
  | sqNorm k =>
    refine congrArg some (Eq.trans ?_ h.symm)
    refine congrArg (rowMat (n := k.Idx)) (funext fun j => ?_)
    rw [rnd_exact hu]
  | invRot k =>
    obtain ⟨M, hM, rfl⟩ := h
    rw [flRotMatrix_exact hu hM]
    rfl
  | invRigid k =>
    obtain ⟨M, hM, rfl⟩ := h
    rw [flAdjoint_exact hu hM]
    rfl
  | minus k => exact congrArg some h.symm
  | getRot k => exact congrArg some h.symm
  | getTrans k => exact congrArg some h.symm
  | convRot a b => exact congrArg some h.symm
  | convRigid a b => exact congrArg some h.symm
  | recast k => exact congrArg some h.symm
  | _ => exact h.elim

theorem flJacL_exact (hu : F.u = 0) {a b c : Ty} (op : Bin a b c) {v : c.Val} {x : a.Val} {y : b.Val}
    {J : Matrix c.Idx a.Idx ℝ} (h : FlJacL F op v x y J) : jacL op v x y = some J := by
  cases op with
  | scaleDiv k => exact h.elim
  | divide => exact h.elim
  | flipQ => exact congrArg some (flToMatrix_exact hu h).symm
  | flipRigid p q => exact congrArg some (flAdjoint_exact hu h).symm
  | _ => exact congrArg some (Eq.symm h)

theorem flJacR_exact (hu : F.u = 0) {a b c : Ty} (op : Bin a b c) {v : c.Val} {x : a.Val} {y : b.Val}
    {J : Matrix c.Idx b.Idx ℝ} (h : FlJacR F op v x y J) : jacR op v x y = some J := by
  cases op with
  | scaleDiv k => exact h.elim
  | divide => exact h.elim
  | composeQ => exact congrArg some (flToMatrix_exact hu h).symm
  | composeRigid p q => exact congrArg some (flAdjoint_exact hu h).symm
  | rotateQ => exact congrArg some (flToMatrix_exact hu h).symm
  | transform k =>
    refine congrArg some (Eq.symm ?_)
    rw [← matrix_rot]
    exact flRotMatrix_exact hu h
  | _ => exact congrArg some (Eq.symm h)

/-- The exact result is the computed one. -/
def SameO {m n : Type} : Option (OMat m n) → Option (Matrix m n ℝ) → Prop
  | none, none => True
  | some (some J), some J' => J = J'
  | _, _ => False

theorem SameO.cases {m n : Type} {o : Option (OMat m n)} {o' : Option (Matrix m n ℝ)}
    (h : SameO o o') : (o = none ∧ o' = none) ∨ ∃ J, o = some (some J) ∧ o' = some J := by
  rcases o with _ | _ | J <;> rcases o' with _ | J'
  · exact .inl ⟨rfl, rfl⟩
  · exact h.elim
  · exact h.elim
  · exact h.elim
  · exact h.elim
  · cases h
    exact .inr ⟨J, rfl, rfl⟩

theorem sameO_id {τ σ : Ty} (h : τ = σ) :
    SameO (some (idBlock (L := geoLib ε) h)) (some (idMat h)) := by
  subst h
  rfl

section
variable {α β γ : Ty} {n : Type} [Fintype n]

theorem nodeJac_exact (hu : F.u = 0) (op : Un α β) {v : Option β.Val} {x : Option α.Val}
    {J : Matrix β.Idx α.Idx ℝ} (h : FlNodeJac F op v x J) : nodeJac (L := geoLib ε) op v x = some J := by
  obtain ⟨v', x', rfl, rfl, h⟩ := h
  exact flJacUn_exact hu op h

theorem nodeJacL_exact (hu : F.u = 0) (op : Bin α β γ) {v : Option γ.Val} {x : Option α.Val}
    {y : Option β.Val} {J : Matrix γ.Idx α.Idx ℝ} (h : FlNodeJacL F op v x y J) :
    nodeJacL (L := geoLib ε) op v x y = some J := by
  obtain ⟨v', x', y', rfl, rfl, rfl, h⟩ := h
  exact flJacL_exact hu op h

theorem nodeJacR_exact (hu : F.u = 0) (op : Bin α β γ) {v : Option γ.Val} {x : Option α.Val}
    {y : Option β.Val} {J : Matrix γ.Idx β.Idx ℝ} (h : FlNodeJacR F op v x y J) :
    nodeJacR (L := geoLib ε) op v x y = some J := by
  obtain ⟨v', x', y', rfl, rfl, rfl, h⟩ := h
  exact flJacR_exact hu op h

theorem stepUn_exact (hu : F.u = 0) (op : Un α β) {v : Option β.Val} {x : Option α.Val}
    {o : Option (OMat α.Idx n)} {o' : Option (Matrix α.Idx n ℝ)} (h : SameO o o')
    {q : Option (Matrix β.Idx n ℝ)} (hq : FlStepUn F op v x o' q) :
    SameO (match o with
      | some J => some ((nodeJac (L := geoLib ε) op v x).mul J)
      | none => none) q := by
  rcases h.cases with ⟨rfl, rfl⟩ | ⟨J, rfl, rfl⟩
  · cases hq
    trivial
  · obtain ⟨L, K, hL, hK, rfl⟩ := hq
    simp only [nodeJac_exact (ε := ε) hu op hL]
    exact (flProd_exact hu hK).symm

theorem stepBin_exact (hu : F.u = 0) (op : Bin α β γ) {v : Option γ.Val} {x : Option α.Val}
    {y : Option β.Val} {o : Option (OMat α.Idx n)} {o' : Option (Matrix α.Idx n ℝ)} (h : SameO o o')
    {p : Option (OMat β.Idx n)} {p' : Option (Matrix β.Idx n ℝ)} (h' : SameO p p')
    {q : Option (Matrix γ.Idx n ℝ)} (hq : FlStepBin F op v x y o' p' q) :
    SameO (match o, p with
      | some J, some K => some ((nodeJacL (L := geoLib ε) op v x y).mul J +
          (nodeJacR (L := geoLib ε) op v x y).mul K)
      | some J, none => some ((nodeJacL (L := geoLib ε) op v x y).mul J)
      | none, some K => some ((nodeJacR (L := geoLib ε) op v x y).mul K)
      | none, none => none) q := by
  rcases h.cases with ⟨rfl, rfl⟩ | ⟨J, rfl, rfl⟩ <;> rcases h'.cases with ⟨rfl, rfl⟩ | ⟨J', rfl, rfl⟩
  · cases hq
    trivial
  · obtain ⟨L, K, hL, hK, rfl⟩ := hq
    simp only [nodeJacR_exact (ε := ε) hu op hL]
    exact (flProd_exact hu hK).symm
  · obtain ⟨L, K, hL, hK, rfl⟩ := hq
    simp only [nodeJacL_exact (ε := ε) hu op hL]
    exact (flProd_exact hu hK).symm
  · obtain ⟨L, L', K, K', hL, hL', hK, hK', rfl⟩ := hq
    simp only [nodeJacL_exact (ε := ε) hu op hL, nodeJacR_exact (ε := ε) hu op hL']
    change L * J + L' * J' = Matrix.of _
    rw [flProd_exact hu hK, flProd_exact hu hK']
    funext i j
    exact (rnd_exact hu _).symm

end

theorem tree_exact (hu : F.u = 0) {s : Store (geoLib ε)} : {τ : Ty} → (e : Expr (geoLib ε) τ) →
    {T : ETree (geoLib ε) τ} → FlTree F s e T → T = ETree.mk s e
  | _, .leaf _ _ _, _, h => h
  | _, .un a op e, _, h => by
    obtain ⟨c, x, z, h1, h2, h3, rfl⟩ := h
    cases tree_exact hu e h1
    have : (ETree.mk s e).val.bind ((geoLib ε).evalU op) = some z := by
      rw [h2]
      exact flUn_exact hu op h3
    simp only [ETree.mk, this]
  | _, .bin a op l r, _, h => by
    obtain ⟨c, d, x, y, z, h1, h2, h3, h4, h5, rfl⟩ := h
    cases tree_exact hu l h1
    cases tree_exact hu r h2
    have : ((ETree.mk s l).val.bind fun x => (ETree.mk s r).val.bind fun y =>
        (geoLib ε).evalB op x y) = some z := by
      rw [h3, h4]
      exact flBin_exact hu op h5
    simp only [ETree.mk, this]
  | _, .proxy _ e, _, h => by
    obtain ⟨c, h1, rfl⟩ := h
    cases tree_exact hu e h1
    rfl

theorem dyn_exact (hu : F.u = 0) {t : ℕ} {σ : Ty} : {τ : Ty} → (T : ETree (geoLib ε) τ) →
    {o : Option (Matrix τ.Idx σ.Idx ℝ)} → FlDyn F t σ T o → SameO (T.dyn t σ) o
  | _, .leaf a c τ v, o, h => by
    simp only [FlDyn] at h
    simp only [ETree.dyn]
    split_ifs at h with h1
    · obtain ⟨e, rfl⟩ := h
      rw [if_pos h1, dif_pos e]
      exact sameO_id e
    · cases h
      rw [if_neg h1]
      trivial
  | _, .un a op e v, o, h => by
    simp only [FlDyn] at h
    simp only [ETree.dyn]
    split_ifs at h with h1
    · obtain ⟨e, rfl⟩ := h
      rw [if_pos h1, dif_pos e]
      exact sameO_id e
    · rw [if_neg h1]
      obtain ⟨o', i, j⟩ := h
      refine Eq.mp (congrArg (fun o' => SameO o' o) ?_) (stepUn_exact (ε := ε) hu op (dyn_exact hu e i) j)
      cases e.dyn t σ <;> rfl
  | _, .bin a op l r v, o, h => by
    simp only [FlDyn] at h
    simp only [ETree.dyn]
    split_ifs at h with h1
    · obtain ⟨e, rfl⟩ := h
      rw [if_pos h1, dif_pos e]
      exact sameO_id e
    · rw [if_neg h1]
      obtain ⟨ol, or, i, j, k⟩ := h
      refine Eq.mp (congrArg (fun o' => SameO o' o) ?_)
        (stepBin_exact (ε := ε) hu op (dyn_exact hu l i) (dyn_exact hu r j) k)
      cases l.dyn t σ <;> cases r.dyn t σ <;> rfl
  | _, .proxy a e, o, h => by
    simp only [FlDyn] at h
    simp only [ETree.dyn]
    split_ifs at h with h1
    · obtain ⟨e, rfl⟩ := h
      rw [if_pos h1, dif_pos e]
      exact sameO_id e
    · rw [if_neg h1]
      exact dyn_exact hu e h

theorem fwd_exact (hu : F.u = 0) {t : Target (geoLib ε)} : {τ : Ty} → (T : ETree (geoLib ε) τ) →
    {o : Option (Matrix τ.Idx (Ty.Idx t.ty) ℝ)} → FlFwd F t T o → SameO (T.fwd t) o
  | _, .leaf a c τ v, o, h => by
    simp only [FlFwd] at h
    simp only [ETree.fwd]
    split_ifs at h with h1 h2
    · cases h
      rw [dif_pos h1, if_pos h2]
      exact sameO_id h1.1
    · cases h
      rw [dif_pos h1, if_neg h2]
      trivial
    · cases h
      rw [dif_neg h1]
      trivial
  | _, .un a op e v, o, h => by
    obtain ⟨o', i, j⟩ := h
    simp only [ETree.fwd]
    refine Eq.mp (congrArg (fun o' => SameO o' o) ?_) (stepUn_exact (ε := ε) hu op (fwd_exact hu e i) j)
    cases e.fwd t <;> rfl
  | _, .bin a op l r v, o, h => by
    simp only [FlFwd] at h
    simp only [ETree.fwd]
    split_ifs at h with h1 h2 h3
    · rw [if_pos h1]
      obtain ⟨ol, or, i, j, k⟩ := h
      refine Eq.mp (congrArg (fun o' => SameO o' o) ?_)
        (stepBin_exact (ε := ε) hu op (fwd_exact hu l i) (fwd_exact hu r j) k)
      cases l.fwd t <;> cases r.fwd t <;> rfl
    · rw [if_neg h1, if_pos h2]
      obtain ⟨ol, i, k⟩ := h
      have := stepBin_exact (ε := ε) hu op (fwd_exact hu l i) (p := none) (p' := none) trivial k
      refine Eq.mp (congrArg (fun o' => SameO o' o) ?_) this
      cases l.fwd t <;> rfl
    · rw [if_neg h1, if_neg h2, if_pos h3]
      obtain ⟨or, i, k⟩ := h
      have := stepBin_exact (ε := ε) hu op (o := none) (o' := none) trivial (fwd_exact hu r i) k
      refine Eq.mp (congrArg (fun o' => SameO o' o) ?_) this
      cases r.fwd t <;> rfl
  | _, .proxy a e, o, h => by
    simp only [FlFwd] at h
    simp only [ETree.fwd]
    split_ifs at h with h1
    · obtain ⟨e, rfl⟩ := h
      rw [if_pos h1, dif_pos e]
      exact sameO_id e
    · rw [if_neg h1]
      exact dyn_exact hu e h

theorem typed_exact (hu : F.u = 0) {t : Target (geoLib ε)} : {τ : Ty} → (T : ETree (geoLib ε) τ) →
    {J : Matrix τ.Idx (Ty.Idx t.ty) ℝ} → FlTyped F t T J → T.typed t = some J
  | _, .leaf a c τ v, J, h => by
    obtain ⟨h1, h2, rfl⟩ := h
    simp only [ETree.typed]
    rw [dif_pos ⟨h1, h2⟩]
    rfl
  | _, .un a op e v, J, h => by
    obtain ⟨J', i, L, K, hL, hK, e1⟩ := h
    cases Option.some.inj e1
    simp only [ETree.typed, nodeJac_exact (ε := ε) hu op hL, typed_exact hu e i]
    exact congrArg some (flProd_exact hu hK).symm
  | _, .bin a op l r v, J, h => by
    simp only [FlTyped] at h
    simp only [ETree.typed]
    split_ifs at h with h1 h2 h3
    · rw [if_pos h1]
      obtain ⟨K₁, K₂, i, j, L, L', K, K', hL, hL', hK, hK', e1⟩ := h
      cases Option.some.inj e1
      simp only [nodeJacL_exact (ε := ε) hu op hL, nodeJacR_exact (ε := ε) hu op hL',
        typed_exact hu l i, typed_exact hu r j]
      refine congrArg some (?_ : L * K₁ + L' * K₂ = Matrix.of _)
      rw [flProd_exact hu hK, flProd_exact hu hK']
      funext i j
      exact (rnd_exact hu _).symm
    · rw [if_neg h1, if_pos h2]
      obtain ⟨J', i, L, K, hL, hK, e1⟩ := h
      cases Option.some.inj e1
      simp only [nodeJacL_exact (ε := ε) hu op hL, typed_exact hu l i]
      exact congrArg some (flProd_exact hu hK).symm
    · rw [if_neg h1, if_neg h2, if_pos h3]
      obtain ⟨J', i, L, K, hL, hK, e1⟩ := h
      cases Option.some.inj e1
      simp only [nodeJacR_exact (ε := ε) hu op hL, typed_exact hu r i]
      exact congrArg some (flProd_exact hu hK).symm
  | _, .proxy _ _, _, h => h.elim

theorem rev_exact (hu : F.u = 0) {ρ : Ty} : {τ : Ty} → (T : ETree (geoLib ε) τ) →
    {A : Matrix ρ.Idx τ.Idx ℝ} → {bs : List (FlBlock ρ)} → FlRev F T A bs →
    T.rev (L := geoLib ε) (ρ := ρ) (some A) = bs.map fun b => ⟨b.1, some b.2⟩
  | _, .leaf a c τ v, A, bs, h => by
    cases h
    rfl
  | _, .un a op e v, A, bs, h => by
    obtain ⟨L, K, hL, hK, i⟩ := h
    simp only [ETree.rev, nodeJac_exact (ε := ε) hu op hL, ← rev_exact hu e i, flProd_exact hu hK]
    rfl
  | _, .bin a op l r v, A, bs, h => by
    obtain ⟨L, L', K, K', b, b', hL, hL', hK, hK', i, j, rfl⟩ := h
    simp only [ETree.rev, nodeJacL_exact (ε := ε) hu op hL, nodeJacR_exact (ε := ε) hu op hL',
      List.map_append, ← rev_exact hu l i, ← rev_exact hu r j, flProd_exact hu hK, flProd_exact hu hK']
    rfl
  | _, .proxy _ e, A, bs, h => rev_exact hu e h

/-! ### Expressions that do not contain the target -/

theorem hasType_false {s : Store (geoLib ε)} {t : Target (geoLib ε)} : {τ : Ty} →
    (e : Expr (geoLib ε) τ) → e.noProxy = true → e.hasType t = false → ampJ s (byObject t) e = 0
  | _, .leaf a c τ, _, h => by
    have : (byObject t).leaf a c τ = false := by
      change (_ && _ : Bool) = false
      rw [show (decide (τ = t.ty) && decide (c = t.cls)) = false from h, Bool.false_and]
    simp [ampJ, this]
  | _, .un a op e, hp, h => by
    simp [ampJ, byObject] at *
    exact .inr (hasType_false e hp h)
  | _, .bin a op l r, hp, h => by
    simp only [Expr.noProxy, Bool.and_eq_true] at hp
    simp only [Expr.hasType, Bool.or_eq_false_iff] at h
    have h1 := hasType_false (s := s) l hp.1 h.1
    have h2 := hasType_false (s := s) r hp.2 h.2
    rw [ampJ, h1, h2, mul_zero, mul_zero, add_zero]
    rfl
  | _, .proxy _ _, hp, _ => nomatch hp

theorem fwd_none {s : Store (geoLib ε)} {t : Target (geoLib ε)} : {τ : Ty} →
    (e : Expr (geoLib ε) τ) → e.noProxy = true → (ETree.mk s e).fwd t = none →
    ampJ s (byObject t) e = 0
  | _, .leaf a c τ, _, h => by
    have : (byObject t).leaf a c τ = false := by
      simp only [ETree.mk, ETree.fwd] at h
      split_ifs at h with h1 h2
      · simp [byObject, h2]
      · simp only [byObject, Bool.and_eq_false_iff, decide_eq_false_iff_not]
        exact .inl (not_and_or.mp h1)
    simp [ampJ, this]
  | _, .un a op e, hp, h => by
    have h0 : (ETree.mk s e).fwd t = none := by
      simp only [ETree.mk, ETree.fwd] at h
      rcases h' : (ETree.mk s e).fwd t with _ | J
      · rfl
      · rw [h'] at h
        cases h
    have := fwd_none e hp h0
    rw [ampJ, this, mul_zero]
    rfl
  | _, .bin a op l r, hp, h => by
    simp only [Expr.noProxy, Bool.and_eq_true] at hp
    have fl := hasType_false (s := s) (t := t) l hp.1
    have fr := hasType_false (s := s) (t := t) r hp.2
    have nl := fwd_none (s := s) (t := t) l hp.1
    have nr := fwd_none (s := s) (t := t) r hp.2
    rw [← mk_hasType s] at fl fr
    have key : ampJ s (byObject t) l = 0 ∧ ampJ s (byObject t) r = 0 := by
      simp only [ETree.mk, ETree.fwd] at h
      cases el : (ETree.mk s l).hasType t <;> cases er : (ETree.mk s r).hasType t
      · exact ⟨fl el, fr er⟩
      · refine ⟨fl el, nr ?_⟩
        rcases h' : (ETree.mk s r).fwd t with _ | J
        · rfl
        · simp [el, er, h'] at h
      · refine ⟨nl ?_, fr er⟩
        rcases h' : (ETree.mk s l).fwd t with _ | J
        · rfl
        · simp [el, er, h'] at h
      · rcases h1 : (ETree.mk s l).fwd t with _ | J <;> rcases h2 : (ETree.mk s r).fwd t with _ | K
        · exact ⟨nl h1, nr h2⟩
        all_goals simp [el, er, h1, h2] at h
    rw [ampJ, key.1, key.2, mul_zero, mul_zero, add_zero]
    rfl
  | _, .proxy _ _, hp, _ => nomatch hp

theorem dyn_none {s : Store (geoLib ε)} {t : ℕ} {σ : Ty} : {τ : Ty} →
    (e : Expr (geoLib ε) τ) → (ETree.mk s e).dyn t σ = none → ampJ s (byAddr t) e = 0
  | _, .leaf a c τ, h => by
    simp only [ETree.mk, ETree.dyn] at h
    split_ifs at h with h1
    have : (byAddr t).leaf a c τ = false := by simpa [byAddr] using h1
    simp [ampJ, this]
  | _, .un a op e, h => by
    simp only [ETree.mk, ETree.dyn] at h
    split_ifs at h with h1
    have d : ¬ ((byAddr t).node a = true) := by simpa [byAddr] using h1
    have h0 : (ETree.mk s e).dyn t σ = none := by
      rcases h' : (ETree.mk s e).dyn t σ with _ | J
      · exact h'
      · rw [h'] at h
        cases h
    rw [ampJ, dyn_none e h0, mul_zero, if_neg d]
  | _, .bin a op l r, h => by
    simp only [ETree.mk, ETree.dyn] at h
    split_ifs at h with h1
    have d : ¬ ((byAddr t).node a = true) := by simpa [byAddr] using h1
    have h0 : (ETree.mk s l).dyn t σ = none ∧ (ETree.mk s r).dyn t σ = none := by
      rcases h' : (ETree.mk s l).dyn t σ with _ | J <;> rcases h'' : (ETree.mk s r).dyn t σ with _ | J
      · exact ⟨h', h''⟩
      all_goals simp [h', h''] at h
    rw [ampJ, dyn_none l h0.1, dyn_none r h0.2, mul_zero, mul_zero, add_zero, if_neg d]
  | _, .proxy a e, h => by
    simp only [ETree.mk, ETree.dyn] at h
    split_ifs at h with h1
    have d : ¬ ((byAddr t).node a = true) := by simpa [byAddr] using h1
    rw [ampJ, dyn_none e h, if_neg d]

/-- From the invariant of the inductions to the returned matrix. -/
theorem NearO.getD {m n : Type} [Fintype m] {S φ : ℝ} {o : Option (OMat m n)}
    {o' : Option (Matrix m n ℝ)} (h : NearO S φ o o') (h0 : o = none → S = 0) :
    ∃ J, orZero o = some J ∧ (∀ j, len (fun i => J i j) ≤ S) ∧ Columns ((φ - 1) * S) J (o'.getD 0) := by
  rcases h.none_iff with ⟨rfl, rfl⟩ | ⟨J, J', rfl, rfl⟩
  · refine ⟨0, rfl, fun j => ?_, fun j => ?_⟩
    · rw [h0 rfl]
      exact len_zero.le
    · rw [h0 rfl, mul_zero]
      refine le_of_eq (Eq.trans (congrArg len (funext fun i => ?_)) len_zero)
      exact sub_self _
  · exact ⟨J, rfl, h.2.1, h.2.2⟩

/-! ### The evaluator chosen by `jacobian(x)` -/

theorem facJ_type (u η : ℝ) (t : Target (geoLib ε)) : {τ : Ty} → (e : Expr (geoLib ε) τ) →
    facJ u η (byType t) e = facJ u η (byObject t) e
  | _, .leaf _ _ _ => rfl
  | _, .un _ op e => by
    simp only [facJ, facJ_type u η t e]
    rfl
  | _, .bin _ op l r => by
    simp only [facJ, facJ_type u η t l, facJ_type u η t r]
    rfl
  | _, .proxy _ e => by
    simp only [facJ, facJ_type u η t e]
    rfl

theorem ampJ_type (s : Store (geoLib ε)) (t : Target (geoLib ε)) : {τ : Ty} →
    (e : Expr (geoLib ε) τ) → (∀ o ∈ objects e, o.ty = t.ty → o.cls = t.cls → o = t) →
    ampJ s (byType t) e = ampJ s (byObject t) e
  | _, .leaf a c τ, h => by
    have h' := h ⟨a, c, τ⟩ (List.mem_singleton.mpr rfl)
    have : (byType t).leaf a c τ = (byObject t).leaf a c τ := by
      by_cases h1 : τ = t.ty ∧ c = t.cls
      · have := h' h1.1 h1.2
        subst this
        simp [byType, byObject]
      · rw [not_and_or] at h1
        rcases h1 with h1 | h1 <;> simp [byType, byObject, h1]
    simp only [ampJ, this]
  | _, .un _ op e, h => by
    simp only [ampJ, ampJ_type s t e h]
    rfl
  | _, .bin _ op l r, h => by
    simp only [ampJ, ampJ_type s t l fun o ho => h o (List.mem_append_left _ ho),
      ampJ_type s t r fun o ho => h o (List.mem_append_right _ ho)]
    rfl
  | _, .proxy _ e, h => by
    simp only [ampJ, ampJ_type s t e h]
    rfl

/-! ### Every covered expression is defined -/

/-- Arithmetic without rounding. -/
def noRounding : Fl := ⟨0, id, fun x => by simp, fun _ => rfl⟩

theorem eval_covered (s : Store (geoLib ε)) {τ : Ty} (e : Expr (geoLib ε) τ) (h : JacCovered e) :
    ∃ v, e.eval (L := geoLib ε) s = some v := by
  obtain ⟨T, hT⟩ := tree_exists noRounding s e h
  obtain ⟨z, hz, -⟩ := tree_val e hT
  rw [tree_exact rfl e hT] at hz
  exact ⟨z, hz⟩

theorem regular_covered (s : Store (geoLib ε)) : {τ : Ty} → (e : Expr (geoLib ε) τ) → JacCovered e →
    (∀ o ∈ e.leaves, Valid o.ty (s o.addr o.ty)) → RegularAt ε s e
  | _, .leaf a c τ, _, h => h ⟨a, c, τ⟩ (List.mem_singleton.mpr rfl)
  | _, .un _ op e, hc, h => by
    refine ⟨regular_covered s e hc.2 h, fun x _ => ?_⟩
    obtain ⟨h1, -⟩ := hc
    cases op <;> first | trivial | exact h1.elim
  | _, .bin _ op l r, hc, h => by
    refine ⟨regular_covered s l hc.2.1 fun o ho => h o (List.mem_append_left _ ho),
      regular_covered s r hc.2.2 fun o ho => h o (List.mem_append_right _ ho), fun x y _ _ => ?_⟩
    obtain ⟨h1, -⟩ := hc
    cases op <;> first | trivial | exact h1.elim
  | _, .proxy _ e, hc, h => regular_covered s e hc h

/-! ### Blocks of the reverse evaluator -/

theorem paths_length (u η : ℝ) (s : Store (geoLib ε)) : {τ : Ty} → (e : Expr (geoLib ε) τ) →
    (paths u η s e).length = e.leaves.length
  | _, .leaf _ _ _ => rfl
  | _, .un _ op e => by
    simp only [paths, List.length_map, Expr.leaves]
    exact paths_length u η s e
  | _, .bin _ op l r => by
    simp only [paths, List.length_append, List.length_map, Expr.leaves]
    rw [paths_length u η s l, paths_length u η s r]
  | _, .proxy _ e => paths_length u η s e

theorem rev_types {ρ : Ty} (s : Store (geoLib ε)) : {τ : Ty} → (e : Expr (geoLib ε) τ) →
    (A : OMat ρ.Idx τ.Idx) →
    ((ETree.mk s e).rev (L := geoLib ε) (ρ := ρ) A).map (·.1) = e.leaves.map (·.ty)
  | _, .leaf _ _ _, _ => rfl
  | _, .un _ op e, A => rev_types s e _
  | _, .bin _ op l r, A => by
    simp only [ETree.mk, ETree.rev, List.map_append, Expr.leaves]
    rw [← rev_types s l, ← rev_types s r]
  | _, .proxy _ e, A => rev_types s e A

theorem RevNear.lengths {ρ : Ty} {S b : ℝ} : {ps : List (ℝ × ℝ)} → {xs : List (Block (geoLib ε) ρ)} →
    {ys : List (FlBlock ρ)} → RevNear S b ps xs ys → xs.length = ps.length ∧ ys.length = ps.length
  | [], [], [], _ => ⟨rfl, rfl⟩
  | _ :: _, _ :: _, _ :: _, h => by
    have := lengths h.2
    simp only [List.length_cons]
    omega
  | [], _ :: _, _, h => h.elim
  | [], [], _ :: _, h => h.elim
  | _ :: _, [], _, h => h.elim
  | _ :: _, _ :: _, [], h => h.elim

theorem RevNear.get {ρ : Ty} {S b : ℝ} : {ps : List (ℝ × ℝ)} → {xs : List (Block (geoLib ε) ρ)} →
    {ys : List (FlBlock ρ)} → RevNear S b ps xs ys → ∀ (i : ℕ) (p : ℝ × ℝ), ps[i]? = some p →
    ∃ (σ : Ty) (J J' : Matrix ρ.Idx σ.Idx ℝ), xs[i]? = some ⟨σ, some J⟩ ∧ ys[i]? = some ⟨σ, J'⟩ ∧
      (∀ r, len (fun j => J r j) ≤ p.1 * S) ∧
      ∀ r, len (fun j => J' r j - J r j) ≤ (p.2 * b - 1) * (p.1 * S)
  | [], [], [], _, i, p, hp => by simp at hp
  | q :: ps, x :: xs, y :: ys, h, 0, p, hp => by
    obtain ⟨⟨σ, J, J', rfl, rfl, h1, h2⟩, -⟩ := h
    cases hp
    exact ⟨σ, J, J', rfl, rfl, h1, h2⟩
  | q :: ps, x :: xs, y :: ys, h, i + 1, p, hp => get h.2 i p hp
  | [], _ :: _, _, h, _, _, _ => h.elim
  | [], [], _ :: _, h, _, _, _ => h.elim
  | _ :: _, [], _, h, _, _, _ => h.elim
  | _ :: _, _ :: _, [], h, _, _, _ => h.elim

end WG.Round
