import Verif.Lemmas.NeutralMeans
import Verif.Lemmas.NeutralPlain

/-! # Expressions with Identity and Zero mean what they say: unary operations and the induction -/

namespace WG
open Matrix Spec

variable {ε : ℝ} {s : Memory}

/-! ## Vector operations on leaves -/

theorem acc_neg {k : VK} {x : k.Idx → ℝ} (s : Memory) (t : Tree ε) (h : Good s t (.vec k x)) :
    Acc s (elab1 .minus t) (.vec k (-x)) := by
  obtain ⟨p, rfl, e⟩ := h.vec
  exact acc_un (.minus _) rfl e rfl trivial rfl

theorem acc_sqNorm {k : VK} (hk : k ≠ .scalar) {x : k.Idx → ℝ} (s : Memory) (t : Tree ε) (h : Good s t (.vec k x)) :
    Acc s (elab1 .sqNorm t) (.vec .scalar fun _ => x ⬝ᵥ x) := by
  obtain ⟨p, rfl, e⟩ := h.vec
  exact acc_un (.sqNorm _) (elab1_sqNorm hk _) e rfl trivial rfl

theorem acc_norm {k : VK} (hk : k ≠ .scalar) {x : k.Idx → ℝ} (s : Memory) (t : Tree ε) (h : Good s t (.vec k x)) :
    Acc s (elab1 .norm t) (.vec .scalar fun _ => √(x ⬝ᵥ x)) := by
  obtain ⟨p, rfl, e⟩ := h.vec
  exact acc_un (.norm _) (elab1_norm hk _) e rfl trivial rfl

theorem acc_normalize {k : VK} (hk : k ≠ .scalar) {x : k.Idx → ℝ} (s : Memory) (t : Tree ε) (h : Good s t (.vec k x)) :
    Acc s (elab1 .normalize t) (.vec k ((√(x ⬝ᵥ x))⁻¹ • x)) := by
  obtain ⟨p, rfl, e⟩ := h.vec
  refine acc_un (.normalize _) (elab1_normalize hk _) e rfl trivial ?_
  refine congrArg (Obj.vec k) ?_
  unfold vNormalize vSqNorm
  split_ifs with h0
  · funext i
    simp [vNorm, vSqNorm, div_eq_inv_mul]
  · have h0' : x = 0 := dot_self_eq_zero.mp (le_antisymm (not_lt.mp h0) (dot_self_nonneg x))
    rw [h0', smul_zero]

theorem acc_acos {x : VK.scalar.Idx → ℝ} (h1 : -1 ≤ x 0) (h2 : x 0 ≤ 1) (s : Memory) (t : Tree ε)
    (h : Good s t (.vec .scalar x)) :
    Acc s (elab1 .acos t) (.vec .scalar fun _ => Real.arccos (x 0)) := by
  obtain ⟨p, rfl, e⟩ := h.vec
  refine acc_un .acos rfl e (z := fun _ => Real.arccos (x 0)) ?_ trivial rfl
  change (sACos (x 0)).map sc = _
  unfold sACos racos
  rw [if_pos ⟨h1, h2⟩]; rfl

theorem acc_product {x y : VK.scalar.Idx → ℝ} (s : Memory) (t u : Tree ε)
    (h : Good s t (.vec .scalar x)) (h' : Good s u (.vec .scalar y)) :
    Acc s (elab2 .product t u) (.vec .scalar (x 0 • y)) := by
  obtain ⟨p, rfl, e⟩ := h.vec
  obtain ⟨q, rfl, e'⟩ := h'.vec
  refine acc_bin .product rfl e e' rfl trivial (congrArg (Obj.vec _) ?_)
  exact vec_scalar_ext rfl

theorem acc_productR {x y : VK.scalar.Idx → ℝ} (s : Memory) (t u : Tree ε)
    (h : Good s t (.vec .scalar x)) (h' : Good s u (.vec .scalar y)) :
    Acc s (elab2 .product t u) (.vec .scalar (y 0 • x)) := by
  obtain ⟨p, rfl, e⟩ := h.vec
  obtain ⟨q, rfl, e'⟩ := h'.vec
  refine acc_bin .product rfl e e' rfl trivial (congrArg (Obj.vec _) ?_)
  exact vec_scalar_ext (mul_comm _ _)

theorem acc_scale {k : VK} {x : VK.scalar.Idx → ℝ} {y : k.Idx → ℝ} (s : Memory) (t u : Tree ε)
    (h : Good s t (.vec .scalar x)) (h' : Good s u (.vec k y)) :
    Acc s (elab2 .scale t u) (.vec k (x 0 • y)) := by
  obtain ⟨p, rfl, e⟩ := h.vec
  obtain ⟨q, rfl, e'⟩ := h'.vec
  cases k <;> exact acc_bin (.scale _) rfl e e' rfl trivial rfl

theorem acc_scaleR {k : VK} {x : VK.scalar.Idx → ℝ} {y : k.Idx → ℝ} (s : Memory) (t u : Tree ε)
    (h : Good s t (.vec k y)) (h' : Good s u (.vec .scalar x)) :
    Acc s (elab2 .scaleR t u) (.vec k (x 0 • y)) := by
  obtain ⟨p, rfl, e⟩ := h.vec
  obtain ⟨q, rfl, e'⟩ := h'.vec
  cases k <;>
  · refine acc_bin (.scaleR _) rfl e e' rfl trivial (congrArg (Obj.vec _) ?_)
    funext i
    exact mul_comm _ _

theorem acc_divide {x y : VK.scalar.Idx → ℝ} (h0 : y 0 ≠ 0) (s : Memory) (t u : Tree ε)
    (h : Good s t (.vec .scalar x)) (h' : Good s u (.vec .scalar y)) :
    Acc s (elab2 .divide t u) (.vec .scalar ((y 0)⁻¹ • x)) := by
  obtain ⟨p, rfl, e⟩ := h.vec
  obtain ⟨q, rfl, e'⟩ := h'.vec
  refine acc_bin .divide rfl e e' (z := (y 0)⁻¹ • x) ?_ trivial rfl
  change (sDivide (x 0) (y 0)).map sc = _
  unfold sDivide rdiv
  rw [if_neg h0]
  refine congrArg some (vec_scalar_ext ?_)
  exact div_eq_inv_mul _ _

theorem acc_scaleDiv {k : VK} {x : k.Idx → ℝ} {y : VK.scalar.Idx → ℝ} (h0 : y 0 ≠ 0) (s : Memory)
    (t u : Tree ε) (h : Good s t (.vec k x)) (h' : Good s u (.vec .scalar y)) :
    Acc s (elab2 .scaleDiv t u) (.vec k ((y 0)⁻¹ • x)) := by
  obtain ⟨p, rfl, e⟩ := h.vec
  obtain ⟨q, rfl, e'⟩ := h'.vec
  cases k <;>
  · refine acc_bin (.scaleDiv _) rfl e e' (z := (y 0)⁻¹ • x) ?_ trivial rfl
    change vScaleDiv x (y 0) = _
    unfold vScaleDiv
    rw [if_neg h0]
    refine congrArg some ?_
    funext i
    exact div_eq_inv_mul _ _

/-! ## Unary operations -/

section
variable {t u : XTree ε} {m n : Bool}

/-- An overload giving an Identity or Zero. -/
theorem xgood_const {a b : XTy} {p : Expr (xLib ε) a} {o : Obj} (op : XUn a b)
    (hb : b.wrapper = true) (hz : b.zeroScalar = false) (h : XGood s ⟨a, p⟩ o)
    (hop : ∀ v, ∃ w, evalXUn ε op v = some w) :
    XGood s ⟨b, .un (L := xLib ε) 0 op p⟩ (neutralObj b.leaf) := by
  obtain ⟨-, v, h1, -⟩ := h
  obtain ⟨w, hw⟩ := hop v
  refine xgood_wrapper hb hz (v := w) ?_
  change (value (xmem ε s) p).bind _ = _
  rw [show value (xmem ε s) p = some v from h1]; exact hw

theorem xneg {k : VK} {x : k.Idx → ℝ} (h : XGood s t (.vec k x)) (hm : t.1.wrapper = m) :
    XAcc s (xelab1 .minus t) (.vec k (-x)) m := by
  subst hm
  rcases h.vec with ⟨p, rfl⟩ | ⟨p, rfl, rfl, hs⟩
  · exact xacc1_plain acc_neg h
  · rw [neg_zero]
    exact ⟨_, by cases k <;> rfl, xgood_const (.minusZero _) rfl h.1 h fun v => ⟨_, rfl⟩, rfl⟩

theorem xsqNorm {k : VK} (hk : k ≠ .scalar) {x : k.Idx → ℝ} (h : XGood s t (.vec k x)) :
    XAcc s (xelab1 .sqNorm t) (.vec .scalar fun _ => x ⬝ᵥ x) false := by
  rcases h.vec with ⟨p, rfl⟩ | ⟨p, rfl, rfl, hs⟩ <;>
  · have e := xacc1_plain (acc_sqNorm hk) h.conv
    cases k <;> first | exact absurd rfl hk | exact xacc_value1 (p := p) (.sqNorm _) e

theorem xnorm {k : VK} (hk : k ≠ .scalar) {x : k.Idx → ℝ} (h : XGood s t (.vec k x)) :
    XAcc s (xelab1 .norm t) (.vec .scalar fun _ => √(x ⬝ᵥ x)) false := by
  rcases h.vec with ⟨p, rfl⟩ | ⟨p, rfl, rfl, hs⟩ <;>
  · have e := xacc1_plain (acc_norm hk) h.conv
    cases k <;> first | exact absurd rfl hk | exact xacc_value1 (p := p) (.norm _) e

theorem xnormalize {k : VK} (hk : k ≠ .scalar) {x : k.Idx → ℝ} (h : XGood s t (.vec k x)) :
    XAcc s (xelab1 .normalize t) (.vec k ((√(x ⬝ᵥ x))⁻¹ • x)) false := by
  rcases h.vec with ⟨p, rfl⟩ | ⟨p, rfl, rfl, hs⟩ <;>
  · have e := xacc1_plain (acc_normalize hk) h.conv
    cases k <;> first | exact absurd rfl hk | exact xacc_value1 (p := p) (.normalize _) e

theorem xacos {x : VK.scalar.Idx → ℝ} (h1 : -1 ≤ x 0) (h2 : x 0 ≤ 1)
    (h : XGood s t (.vec .scalar x)) :
    XAcc s (xelab1 .acos t) (.vec .scalar fun _ => Real.arccos (x 0)) false := by
  rcases h.vec with ⟨p, rfl⟩ | ⟨p, rfl, rfl, hs⟩
  · have e := xacc1_plain (acc_acos h1 h2) h.conv
    exact xacc_value1 (p := p) .acos e
  · exact absurd rfl hs

theorem xinvRot {R : M3} (h : XGood s t (.rot R)) (hm : t.1.wrapper = m) :
    XAcc s (xelab1 .inverse t) (.rot R⁻¹) m := by
  subst hm
  rcases h.rot with ⟨k, p, rfl⟩ | ⟨k, p, rfl, rfl⟩
  · exact xacc1_plain (fun s x => acc_invRot) h
  · rw [inv_one]
    exact ⟨_, rfl, xgood_const (.invId _) rfl rfl h fun v => ⟨_, rfl⟩, rfl⟩

theorem xinvMotion {T S : Rigid} (hS : T.comp S = Rigid.id) (h : XGood s t (.motion T))
    (hm : t.1.wrapper = m) : XAcc s (xelab1 .inverse t) (.motion S) m := by
  subst hm
  rcases h.motion with ⟨k, p, rfl⟩ | ⟨k, p, rfl, rfl⟩
  · exact xacc1_plain (fun s x h => acc_invMotion h hS) h
  · rw [Rigid.id_comp] at hS
    subst hS
    exact ⟨_, rfl, xgood_const (.invId _) rfl rfl h fun v => ⟨_, rfl⟩, rfl⟩

theorem motion_exp_zero {T : Rigid} (hT : T.hom = NormedSpace.exp (twistMat 0)) : T = Rigid.id := by
  obtain ⟨h1, h2⟩ := (motion_exp_iff T 0).mp hT
  refine Rigid.ext' (h1.trans ?_) (h2.trans ?_)
  · exact rodr_zero
  · exact mulVec_zero _

theorem exp_hat_zero : NormedSpace.exp (hat 0) = 1 := by rw [← rodr_exp, rodr_zero]

theorem xexpRot (hε : 0 < ε) {φ : V3} (hr : φ = 0 ∨ ε < sqLen φ ^ 2)
    (h : XGood s t (.vec .relrot φ)) (hm : t.1.wrapper = m) :
    XAcc s (xelab1 .expMap t) (.rot (NormedSpace.exp (hat φ))) m := by
  subst hm
  rcases h.vec with ⟨p, rfl⟩ | ⟨p, rfl, rfl, hs⟩
  · exact xacc1_plain (fun s x h => acc_expRot hε h hr) h
  · rw [exp_hat_zero]
    exact ⟨_, rfl, xgood_const .expZeroRot rfl rfl h fun v => ⟨_, rfl⟩, rfl⟩

theorem xexpMotion (hε : 0 < ε) {ξ : Twist} {T : Rigid} (hT : T.hom = NormedSpace.exp (twistMat ξ))
    (hr : angular ξ = 0 ∨ ε < sqLen (angular ξ)) (h : XGood s t (.vec .twist ξ))
    (hm : t.1.wrapper = m) : XAcc s (xelab1 .expMap t) (.motion T) m := by
  subst hm
  rcases h.vec with ⟨p, rfl⟩ | ⟨p, rfl, rfl, hs⟩
  · exact xacc1_plain (fun s x h => acc_expMotion hε h hT hr) h
  · rw [motion_exp_zero hT]
    exact ⟨_, rfl, xgood_const .expZeroTwist rfl rfl h fun v => ⟨_, rfl⟩, rfl⟩

theorem xlogRot (hε : 0 < ε) {φ : V3} (hπ : sqLen φ < Real.pi ^ 2) (hr : φ = 0 ∨ ε < sqLen φ)
    (h : XGood s t (.rot (NormedSpace.exp (hat φ)))) (hm : t.1.wrapper = m) :
    XAcc s (xelab1 .logMap t) (.vec .relrot φ) m := by
  subst hm
  rcases h.rot with ⟨k, p, rfl⟩ | ⟨k, p, rfl, h1⟩
  · exact xacc1_plain (fun s x h => acc_logRot hε h hπ hr) h
  · have h2 := logMat_exp hε hπ hr
    rw [h1, logMat_one hε] at h2
    cases h2
    exact ⟨_, rfl, xgood_const (.logIdRot _) rfl rfl h fun v => ⟨_, rfl⟩, rfl⟩

theorem xlogMotion (hε : 0 < ε) {T : Rigid} {ξ : Twist} (hT : T.hom = NormedSpace.exp (twistMat ξ))
    (hπ : sqLen (angular ξ) < Real.pi ^ 2) (hr : angular ξ = 0 ∨ ε < sqLen (angular ξ))
    (h : XGood s t (.motion T)) (hm : t.1.wrapper = m) :
    XAcc s (xelab1 .logMap t) (.vec .twist ξ) m := by
  subst hm
  rcases h.motion with ⟨k, p, rfl⟩ | ⟨k, p, rfl, rfl⟩
  · exact xacc1_plain (fun s x h => acc_logMotion hε h hT hπ hr) h
  · have h2 := logRigid_motion hε hT hπ hr
    have h3 := logRigid_motion (T := Rigid.id) (ξ := 0) hε
      ((motion_exp_iff Rigid.id 0).mpr ⟨rodr_zero.symm, (mulVec_zero _).symm⟩)
      (by
        change sqLen (angular 0) < _
        have : angular (0 : Twist) = 0 := rfl
        rw [this]
        simp [sqLen, Real.pi_pos]) (Or.inl rfl)
    cases h2.symm.trans h3
    exact ⟨_, rfl, xgood_const (.logIdRigid _) rfl rfl h fun v => ⟨_, rfl⟩, rfl⟩

theorem xrotation (hε : 0 < ε) {T : Rigid} (h : XGood s t (.motion T)) (hm : t.1.wrapper = false) :
    XAcc s (xelab1 .rotation t) (.rot T.R) false := by
  rcases h.motion with ⟨k, p, rfl⟩ | ⟨k, p, rfl, rfl⟩
  · exact xacc1_plain (fun s x => acc_rotation hε) h
  · cases hm

theorem xtranslation (hε : 0 < ε) {T : Rigid} (h : XGood s t (.motion T))
    (hm : t.1.wrapper = false) : XAcc s (xelab1 .translation t) (.vec .trans T.t) false := by
  rcases h.motion with ⟨k, p, rfl⟩ | ⟨k, p, rfl, rfl⟩
  · exact xacc1_plain (fun s x => acc_translation hε) h
  · cases hm

theorem xtranslationRot (hε : 0 < ε) {R : M3} (h : XGood s t (.rot R)) :
    XAcc s (xelab1 .translation t) (.vec .trans 0) false := by
  rcases h.rot with ⟨k, p, rfl⟩ | ⟨k, p, rfl, rfl⟩
  · exact xacc1_plain (fun s x => acc_translationRot hε) h
  · have e := xacc1_plain (fun s x => acc_translationRot hε) h.conv
    cases k <;> exact xacc_value1 (p := p) (.zeroTrans _) e

theorem firstConv1_stay {A B : Type} {f : A → Option B} {a : A} {l : List A} {b : B}
    (h : f a = some b) : firstConv1 f a l = some b := by
  unfold firstConv1
  rw [List.findSome?_cons, h]

/-- Conversion of the result, for leaf classes. -/
theorem xto_plain {a τ : Ty} {p : Expr (xLib ε) (.plain a)} {o : Obj} (h : XGood s ⟨.plain a, p⟩ o)
    (hk : o.kindOk τ) : XAcc s (xelabTo τ ⟨.plain a, p⟩) o false := by
  by_cases ht : a = τ
  · subst ht
    exact ⟨⟨.plain a, p⟩, by simp [xelabTo], h, rfl⟩
  · obtain ⟨-, v, h1, h2, h3⟩ := h
    have hg0 : Good (ε := ε) (hold s (a := a) (b := a) v v) (hole ε 0 a) o := hold_left h2 h3
    obtain ⟨y, hy, hg⟩ := acc_to hg0 hk
    have hy' : (conv1 a τ).map (fun op => (⟨τ, .un 0 op (hole ε 0 a).2⟩ : Tree ε)) = some y := by
      rw [← hy]; unfold elabTo; rw [dif_neg (show ¬(hole ε 0 a).1 = τ from ht)]; rfl
    obtain ⟨op, hop, rfl⟩ := Option.map_eq_some_iff.mp hy'
    refine ⟨fill p p ⟨τ, .un 0 op (hole ε 0 a).2⟩, ?_, fill_good h1 h1 hg, rfl⟩
    have e : convX (.plain a) τ = some (.value (a := .plain a) op) := by
      change (conv1 a τ).map _ = _
      rw [hop]; rfl
    have hne : ¬(⟨.plain a, p⟩ : XTree ε).1 = .plain τ := fun h => ht (by cases h; rfl)
    unfold xelabTo
    rw [dif_neg hne]
    refine firstConv1_stay ?_
    change (convX (.plain a) τ).map (fun op => (⟨.plain τ, .un (L := xLib ε) 0 op p⟩ : XTree ε)) =
      some (⟨.plain τ, .un (L := xLib ε) 0 (.value (a := .plain a) op)
      ((two p p 0 a).getD (.leaf (L := xLib ε) 0 0 (.plain a)))⟩ : XTree ε)
    rw [e]
    simp [two]

theorem xto {o : Obj} {τ : Ty} (h : XGood s t o) (hk : o.kindOk τ) : XAcc s (xelabTo τ t) o false := by
  cases o with
  | vec k x =>
    cases hk
    rcases h.vec with ⟨p, rfl⟩ | ⟨p, rfl, rfl, hs⟩
    · exact xto_plain h rfl
    · exact ⟨_, by cases k <;> first | rfl | exact absurd rfl hs, h.conv, rfl⟩
  | point x =>
    cases hk
    rcases h.point with ⟨p, rfl⟩ | ⟨p, rfl, rfl⟩
    · exact xto_plain h rfl
    · exact ⟨_, rfl, h.conv, rfl⟩
  | rot R =>
    rcases h.rot with ⟨k, p, rfl⟩ | ⟨k, p, rfl, rfl⟩
    · exact xto_plain h hk
    · obtain ⟨l, rfl⟩ := hk
      have e := xto_plain (τ := .rot l) h.conv ⟨l, rfl⟩
      cases k <;> cases l <;> first | exact ⟨_, rfl, h.conv, rfl⟩ | exact e
  | motion T =>
    rcases h.motion with ⟨k, p, rfl⟩ | ⟨k, p, rfl, rfl⟩
    · exact xto_plain h hk
    · obtain ⟨l, rfl⟩ := hk
      have e := xto_plain (τ := .rigid l) h.conv ⟨l, rfl⟩
      cases k <;> cases l <;> first | exact ⟨_, rfl, h.conv, rfl⟩ | exact e

end

/-! ## The induction -/

theorem XGood.leaf_vec {t : XTree ε} {k : VK} {x : k.Idx → ℝ} (h : XGood s t (.vec k x)) :
    t.1.leaf = .vec k := by
  rcases h.vec with ⟨p, rfl⟩ | ⟨p, rfl, -⟩ <;> rfl

theorem XGood.leaf_point {t : XTree ε} {x : V3} (h : XGood s t (.point x)) : t.1.leaf = .point := by
  rcases h.point with ⟨p, rfl⟩ | ⟨p, rfl, -⟩ <;> rfl

theorem XGood.leaf_rot {t : XTree ε} {R : M3} (h : XGood s t (.rot R)) : ∃ k, t.1.leaf = .rot k := by
  rcases h.rot with ⟨k, p, rfl⟩ | ⟨k, p, rfl, -⟩ <;> exact ⟨k, rfl⟩

theorem XGood.leaf_motion {t : XTree ε} {T : Rigid} (h : XGood s t (.motion T)) :
    ∃ k, t.1.leaf = .rigid k := by
  rcases h.motion with ⟨k, p, rfl⟩ | ⟨k, p, rfl, -⟩ <;> exact ⟨k, rfl⟩

theorem xplain {t : XTree ε} {k : VK} {x : k.Idx → ℝ} (h : XGood s t (.vec k x))
    (hm : t.1.wrapper = false) : ∃ p, t = ⟨.plain (.vec k), p⟩ := by
  rcases h.vec with ⟨p, rfl⟩ | ⟨p, rfl, -⟩
  · exact ⟨p, rfl⟩
  · cases hm

theorem xrot_rotation {t : XTree ε} {R : M3} (h : XGood s t (.rot R)) : IsRotation R := by
  obtain ⟨-, v, -, h2, h3⟩ := h
  generalize t.1.leaf = τ, t.1.content v = w at h2 h3
  cases τ with
  | rot k => cases h3; exact rotDen_rotation h2
  | _ => cases h3

theorem xmotion_rotation {t : XTree ε} {T : Rigid} (h : XGood s t (.motion T)) : IsRotation T.R := by
  obtain ⟨-, v, -, h2, h3⟩ := h
  generalize t.1.leaf = τ, t.1.content v = w at h2 h3
  cases τ with
  | rigid k =>
    cases h3
    have := validRigid_rotation k w h2
    rwa [rigidDen_eq k w h2]
  | _ => cases h3

theorem NExpr.elab_un {op : UOp} {e : NExpr}
    (h : literal e = false ∨ (op ≠ .rotation ∧ op ≠ .translation)) :
    NExpr.elab ε (.un op e) = (e.elab ε).bind (xelabUn op) := by
  cases e with
  | neutral a c τ =>
    rcases h with h | ⟨h1, h2⟩
    · cases h
    · cases op <;> first | rfl | exact absurd rfl h1 | exact absurd rfl h2
  | _ => cases op <;> rfl

theorem form_neutral {a c : ℕ} {τ : Ty} {f : Kind × Bool} (h : form (.neutral a c τ) = some f) :
    f = (.ofTy τ, true) ∧ τ ≠ .vec .scalar := by
  unfold form at h
  split_ifs at h with h0
  cases h
  exact ⟨rfl, h0⟩

theorem kindOf_obj (τ : Ty) (v : τ.Val) : Kind.of (obj τ v) = .ofTy τ := by cases τ <;> rfl

theorem means_xacc (hε : 0 < ε) {N : ℕ → ℕ} (hN : HoldsNeutral s N) (e : NExpr) {o : Obj}
    {f : Kind × Bool} (h : Means ε s (spell N e) o) (hf : form e = some f) :
    XAcc s (e.elab ε) o f.2 ∧ Kind.of o = f.1 := by
  induction e generalizing o f with
  | leaf a c τ =>
    cases h with
    | leaf _ _ _ hv =>
      cases hf
      exact ⟨⟨_, rfl, ⟨rfl, s a τ, rfl, hv, rfl⟩, rfl⟩, kindOf_obj _ _⟩
  | neutral a c τ =>
    obtain ⟨rfl, h0⟩ := form_neutral hf
    change Means ε s (.leaf (N a) c τ) o at h
    cases h with
    | leaf _ _ _ hv =>
      refine ⟨?_, kindOf_obj _ _⟩
      rw [(hN a τ).2]
      rcases τ with (_ | _ | _ | _) | _ | k | k
      · exact absurd rfl h0
      all_goals exact ⟨_, rfl, xgood_wrapper rfl rfl rfl, rfl⟩
  | dynamic a e ih =>
    change Means ε s (.dynamic a (spell N e)) o at h
    cases h with
    | dynamic _ hwr h =>
      obtain ⟨x, hx, hx'⟩ := Option.bind_eq_some_iff.mp (show (form e).bind _ = _ from hf)
      split_ifs at hx' with h2
      cases hx'
      obtain ⟨i1, i2⟩ := ih h hx
      refine ⟨?_, i2⟩
      obtain ⟨t, ht, hg, hw⟩ := i1
      refine ⟨⟨t.1, .proxy (L := xLib ε) a t.2⟩, ?_, ?_, hw⟩
      · have he := elab_embed (ε := ε) (spell N e)
        rw [embed_spell e (by simpa using h2), ht] at he
        obtain ⟨y, hy, rfl⟩ := Option.map_eq_some_iff.mp he.symm
        change (e.elab ε).bind _ = _
        rw [ht]
        change (if dynamicCompiles (xKinds ε) (inject y.2) then _ else none) = _
        rw [compiles_inject, dynamicCompiles_eq hy, if_pos hwr]
      · obtain ⟨v, h1, h3⟩ := hg
        exact ⟨v, h1, h3⟩
  | un op e ih =>
    change Means ε s (.un op (spell N e)) o at h
    obtain ⟨x, hx, hx'⟩ := Option.bind_eq_some_iff.mp (show (form e).bind _ = _ from hf)
    obtain ⟨κ, n⟩ := x
    cases h with
    | evalTo τ h hk =>
      obtain ⟨i1, rfl⟩ := ih h hx
      rw [NExpr.elab_un (Or.inr ⟨by simp, by simp⟩)]
      have hk' : Kind.of o = .ofTy τ := by
        cases o with
        | vec => cases hk; rfl
        | point => cases hk; rfl
        | rot => obtain ⟨l, rfl⟩ := hk; rfl
        | motion => obtain ⟨l, rfl⟩ := hk; rfl
      have hf : (if Kind.of o = .ofTy τ then some (Kind.of o, false) else none) = some f := hx'
      rw [if_pos hk'] at hf
      cases hf
      exact ⟨i1.bind1 fun t ht _ => xto ht hk, rfl⟩
    | rotation h =>
      obtain ⟨i1, rfl⟩ := ih h hx
      have hf : (if n && !literal e then none else some (Kind.rot, n)) = some f := hx'
      split_ifs at hf with hn
      cases hf
      by_cases hl : literal e = true
      · cases e with
        | neutral a c τ =>
          obtain ⟨h1, h2⟩ := form_neutral hx
          obtain rfl : n = true := congrArg Prod.snd h1
          change Means ε s (.leaf (N a) c τ) _ at h
          generalize hgen : Obj.motion _ = o at h
          cases h with
          | leaf _ _ _ hv =>
            rw [(hN a τ).2] at hgen
            cases τ with
            | rigid k =>
              cases hgen
              exact ⟨⟨_, rfl, xgood_wrapper rfl rfl rfl, rfl⟩, rfl⟩
            | _ => cases hgen
        | _ => cases hl
      · rw [NExpr.elab_un (Or.inl (by simpa using hl))]
        have hn' : n = false := by simpa [hl] using hn
        subst hn'
        refine ⟨i1.bind1 fun t ht hw => ?_, rfl⟩
        have := xrotation hε ht hw
        rcases ht.motion with ⟨k, p, rfl⟩ | ⟨k, p, rfl, -⟩ <;> exact this
    | rotationRot h =>
      obtain ⟨i1, rfl⟩ := ih h hx
      cases hx'
      by_cases hl : literal e = true
      · cases e with
        | neutral a c τ =>
          obtain ⟨h1, h2⟩ := form_neutral hx
          obtain rfl : n = true := congrArg Prod.snd h1
          change Means ε s (.leaf (N a) c τ) _ at h
          generalize hgen : Obj.rot _ = o at h
          cases h with
          | leaf _ _ _ hv =>
            rw [(hN a τ).2] at hgen ⊢
            cases τ with
            | rot k =>
              cases hgen
              exact ⟨⟨_, rfl, xgood_wrapper rfl rfl rfl, rfl⟩, rfl⟩
            | _ => cases hgen
        | _ => cases hl
      · rw [NExpr.elab_un (Or.inl (by simpa using hl))]
        refine ⟨i1.bind1 fun t ht hw => ⟨t, ?_, ht, hw⟩, rfl⟩
        rcases ht.rot with ⟨k, p, rfl⟩ | ⟨k, p, rfl, -⟩ <;> rfl
    | translationRot h =>
      obtain ⟨i1, rfl⟩ := ih h hx
      cases hx'
      by_cases hl : literal e = true
      · cases e with
        | neutral a c τ =>
          obtain ⟨h1, h2⟩ := form_neutral hx
          obtain rfl : n = true := congrArg Prod.snd h1
          change Means ε s (.leaf (N a) c τ) _ at h
          generalize hgen : Obj.rot _ = o at h
          cases h with
          | leaf _ _ _ hv =>
            rw [(hN a τ).2] at hgen
            cases τ with
            | rot k => exact ⟨⟨_, rfl, xgood_wrapper rfl rfl rfl, rfl⟩, rfl⟩
            | _ => cases hgen
        | _ => cases hl
      · rw [NExpr.elab_un (Or.inl (by simpa using hl))]
        have hl' : literal e = false := by simpa using hl
        rw [hl']
        exact ⟨i1.bind1 fun t ht hw => xtranslationRot hε ht, rfl⟩
    | translation h =>
      obtain ⟨i1, rfl⟩ := ih h hx
      have hf : (if n && !literal e then none else some (Kind.vec .trans, n)) = some f := hx'
      split_ifs at hf with hn
      cases hf
      by_cases hl : literal e = true
      · cases e with
        | neutral a c τ =>
          obtain ⟨h1, h2⟩ := form_neutral hx
          obtain rfl : n = true := congrArg Prod.snd h1
          change Means ε s (.leaf (N a) c τ) _ at h
          generalize hgen : Obj.motion _ = o at h
          cases h with
          | leaf _ _ _ hv =>
            rw [(hN a τ).2] at hgen
            cases τ with
            | rigid k =>
              cases hgen
              exact ⟨⟨_, rfl, xgood_wrapper rfl rfl rfl, rfl⟩, rfl⟩
            | _ => cases hgen
        | _ => cases hl
      · rw [NExpr.elab_un (Or.inl (by simpa using hl))]
        have hn' : n = false := by simpa [hl] using hn
        subst hn'
        exact ⟨i1.bind1 fun t ht hw => xtranslation hε ht hw, rfl⟩
    | neg h =>
      obtain ⟨i1, rfl⟩ := ih h hx
      cases hx'
      rw [NExpr.elab_un (Or.inr ⟨by simp, by simp⟩)]
      exact ⟨i1.bind1 fun t ht hw => xneg ht hw, rfl⟩
    | squaredNorm h hk =>
      obtain ⟨i1, rfl⟩ := ih h hx
      cases (if_neg hk).symm.trans hx'
      rw [NExpr.elab_un (Or.inr ⟨by simp, by simp⟩)]
      exact ⟨i1.bind1 fun t ht hw => xsqNorm hk ht, rfl⟩
    | norm h hk =>
      obtain ⟨i1, rfl⟩ := ih h hx
      cases (if_neg hk).symm.trans hx'
      rw [NExpr.elab_un (Or.inr ⟨by simp, by simp⟩)]
      exact ⟨i1.bind1 fun t ht hw => xnorm hk ht, rfl⟩
    | normalized h hk =>
      obtain ⟨i1, rfl⟩ := ih h hx
      cases (if_neg hk).symm.trans hx'
      rw [NExpr.elab_un (Or.inr ⟨by simp, by simp⟩)]
      exact ⟨i1.bind1 fun t ht hw => xnormalize hk ht, rfl⟩
    | acos h h1 h2 =>
      obtain ⟨i1, rfl⟩ := ih h hx
      cases hx'
      rw [NExpr.elab_un (Or.inr ⟨by simp, by simp⟩)]
      exact ⟨i1.bind1 fun t ht hw => xacos h1 h2 ht, rfl⟩
    | inverseRot h =>
      obtain ⟨i1, rfl⟩ := ih h hx
      cases hx'
      rw [NExpr.elab_un (Or.inr ⟨by simp, by simp⟩)]
      exact ⟨i1.bind1 fun t ht hw => xinvRot ht hw, rfl⟩
    | inverseMotion h hS =>
      obtain ⟨i1, rfl⟩ := ih h hx
      cases hx'
      rw [NExpr.elab_un (Or.inr ⟨by simp, by simp⟩)]
      exact ⟨i1.bind1 fun t ht hw => xinvMotion hS ht hw, rfl⟩
    | expRot h hr =>
      obtain ⟨i1, rfl⟩ := ih h hx
      cases hx'
      rw [NExpr.elab_un (Or.inr ⟨by simp, by simp⟩)]
      exact ⟨i1.bind1 fun t ht hw => xexpRot hε hr ht hw, rfl⟩
    | expMotion h hT hr =>
      obtain ⟨i1, rfl⟩ := ih h hx
      cases hx'
      rw [NExpr.elab_un (Or.inr ⟨by simp, by simp⟩)]
      exact ⟨i1.bind1 fun t ht hw => xexpMotion hε hT hr ht hw, rfl⟩
    | logRot h hπ hr =>
      obtain ⟨i1, rfl⟩ := ih h hx
      cases hx'
      rw [NExpr.elab_un (Or.inr ⟨by simp, by simp⟩)]
      exact ⟨i1.bind1 fun t ht hw => xlogRot hε hπ hr ht hw, rfl⟩
    | logMotion h hT hπ hr =>
      obtain ⟨i1, rfl⟩ := ih h hx
      cases hx'
      rw [NExpr.elab_un (Or.inr ⟨by simp, by simp⟩)]
      exact ⟨i1.bind1 fun t ht hw => xlogMotion hε hT hπ hr ht hw, rfl⟩
  | bin op l r ihl ihr =>
    change Means ε s (.bin op (spell N l) (spell N r)) o at h
    obtain ⟨x, hx, hx'⟩ := Option.bind_eq_some_iff.mp (show (form l).bind _ = _ from hf)
    obtain ⟨y, hy, hy'⟩ := Option.bind_eq_some_iff.mp hx'
    obtain ⟨κ, m⟩ := x
    obtain ⟨κ', n⟩ := y
    cases h with
    | @addVec _ _ k x y h h' =>
      obtain ⟨i1, rfl⟩ := ihl h hx
      obtain ⟨i2, rfl⟩ := ihr h' hy
      have hf : (if k = k then some (Kind.vec k, m && n) else none) = some f := hy'
      rw [if_pos rfl] at hf
      cases hf
      refine ⟨i1.bind2 i2 fun t u ht hm hu hn => ?_, rfl⟩
      have e1 := ht.leaf_vec
      have e2 := hu.leaf_vec
      simp only [xelabBin, e1, e2]
      exact xsum ht hm hu hn
    | @subVec _ _ k x y h h' =>
      obtain ⟨i1, rfl⟩ := ihl h hx
      obtain ⟨i2, rfl⟩ := ihr h' hy
      have hf : (if k = k then some (Kind.vec k, false) else none) = some f := hy'
      rw [if_pos rfl] at hf
      cases hf
      refine ⟨i1.bind2 i2 fun t u ht hm hu hn => ?_, rfl⟩
      have e1 := ht.leaf_vec
      have e2 := hu.leaf_vec
      simp only [xelabBin, e1, e2]
      exact xsub ht hu
    | @dot _ _ k x y h h' hk =>
      obtain ⟨i1, rfl⟩ := ihl h hx
      obtain ⟨i2, rfl⟩ := ihr h' hy
      have hf : (if k = k ∧ k ≠ .scalar then some (Kind.vec .scalar, false) else none) = some f :=
        hy'
      rw [if_pos ⟨rfl, hk⟩] at hf
      cases hf
      refine ⟨i1.bind2 i2 fun t u ht hm hu hn => ?_, rfl⟩
      have e1 := ht.leaf_vec
      have e2 := hu.leaf_vec
      simp only [xelabBin, e1, e2]
      exact xdot hk ht hu
    | @mulScalarVec _ _ k x y h h' =>
      obtain ⟨i1, rfl⟩ := ihl h hx
      obtain ⟨i2, rfl⟩ := ihr h' hy
      have hf : (if m || n then none else some (Kind.vec k, false)) = some f := by
        cases k <;> exact hy'
      split_ifs at hf with hmn
      cases hf
      simp only [Bool.or_eq_true, not_or, Bool.not_eq_true] at hmn
      obtain ⟨rfl, rfl⟩ := hmn
      refine ⟨i1.bind2 i2 fun t u ht hm hu hn => ?_, rfl⟩
      obtain ⟨p, rfl⟩ := xplain ht hm
      obtain ⟨q, rfl⟩ := xplain hu hn
      cases k
      · exact xacc2_plain acc_product ht hu
      all_goals exact xacc2_plain acc_scale ht hu
    | @mulVecScalar _ _ k x y h h' =>
      obtain ⟨i1, rfl⟩ := ihl h hx
      obtain ⟨i2, rfl⟩ := ihr h' hy
      have hf : (if m || n then none else some (Kind.vec k, false)) = some f := by
        cases k <;> exact hy'
      split_ifs at hf with hmn
      cases hf
      simp only [Bool.or_eq_true, not_or, Bool.not_eq_true] at hmn
      obtain ⟨rfl, rfl⟩ := hmn
      refine ⟨i1.bind2 i2 fun t u ht hm hu hn => ?_, rfl⟩
      obtain ⟨p, rfl⟩ := xplain ht hm
      obtain ⟨q, rfl⟩ := xplain hu hn
      cases k
      · exact xacc2_plain acc_productR ht hu
      all_goals exact xacc2_plain acc_scaleR ht hu
    | @divVec _ _ k x y h h' h0 =>
      obtain ⟨i1, rfl⟩ := ihl h hx
      obtain ⟨i2, rfl⟩ := ihr h' hy
      have hf : (if m || n then none else some (Kind.vec k, false)) = some f := by
        cases k <;> exact hy'
      split_ifs at hf with hmn
      cases hf
      simp only [Bool.or_eq_true, not_or, Bool.not_eq_true] at hmn
      obtain ⟨rfl, rfl⟩ := hmn
      refine ⟨i1.bind2 i2 fun t u ht hm hu hn => ?_, rfl⟩
      obtain ⟨p, rfl⟩ := xplain ht hm
      obtain ⟨q, rfl⟩ := xplain hu hn
      cases k
      · exact xacc2_plain (acc_divide h0) ht hu
      all_goals exact xacc2_plain (acc_scaleDiv h0) ht hu
    | addPointVec h h' =>
      obtain ⟨i1, rfl⟩ := ihl h hx
      obtain ⟨i2, rfl⟩ := ihr h' hy
      cases hy'
      refine ⟨i1.bind2 i2 fun t u ht hm hu hn => ?_, rfl⟩
      have e1 := ht.leaf_point
      have e2 := hu.leaf_vec
      simp only [xelabBin, e1, e2]
      exact xsumPV ht hm hu hn
    | addVecPoint h h' =>
      obtain ⟨i1, rfl⟩ := ihl h hx
      obtain ⟨i2, rfl⟩ := ihr h' hy
      have hf : (if m && n then none else some (Kind.point, false)) = some f := hy'
      split_ifs at hf with hmn
      cases hf
      refine ⟨i1.bind2 i2 fun t u ht hm hu hn => ?_, rfl⟩
      have e1 := ht.leaf_vec
      have e2 := hu.leaf_point
      simp only [xelabBin, e1, e2]
      exact xsumVP ht hu (by rw [hm, hn]; simpa using hmn)
    | subPoint h h' =>
      obtain ⟨i1, rfl⟩ := ihl h hx
      obtain ⟨i2, rfl⟩ := ihr h' hy
      cases hy'
      refine ⟨i1.bind2 i2 fun t u ht hm hu hn => ?_, rfl⟩
      have e1 := ht.leaf_point
      have e2 := hu.leaf_point
      simp only [xelabBin, e1, e2]
      exact xsubPP ht hu
    | subPointVec h h' =>
      obtain ⟨i1, rfl⟩ := ihl h hx
      obtain ⟨i2, rfl⟩ := ihr h' hy
      cases hy'
      refine ⟨i1.bind2 i2 fun t u ht hm hu hn => ?_, rfl⟩
      have e1 := ht.leaf_point
      have e2 := hu.leaf_vec
      simp only [xelabBin, e1, e2]
      exact xsubPV ht hu
    | mulRot h h' =>
      obtain ⟨i1, rfl⟩ := ihl h hx
      obtain ⟨i2, rfl⟩ := ihr h' hy
      cases hy'
      refine ⟨i1.bind2 i2 fun t u ht hm hu hn => ?_, rfl⟩
      obtain ⟨k1, e1⟩ := ht.leaf_rot
      obtain ⟨k2, e2⟩ := hu.leaf_rot
      simp only [xelabBin, e1, e2]
      exact xcompose ht hm hu hn
    | rotate h h' =>
      obtain ⟨i1, rfl⟩ := ihl h hx
      obtain ⟨i2, rfl⟩ := ihr h' hy
      cases hy'
      refine ⟨i1.bind2 i2 fun t u ht hm hu hn => ?_, rfl⟩
      obtain ⟨k1, e1⟩ := ht.leaf_rot
      have e2 := hu.leaf_vec
      simp only [xelabBin, e1, e2]
      exact xrotate ht hm hu hn
    | boxPlusRot h h' hr =>
      obtain ⟨i1, rfl⟩ := ihl h hx
      obtain ⟨i2, rfl⟩ := ihr h' hy
      cases hy'
      refine ⟨i1.bind2 i2 fun t u ht hm hu hn => ?_, rfl⟩
      obtain ⟨k1, e1⟩ := ht.leaf_rot
      have e2 := hu.leaf_vec
      simp only [xelabBin, e1, e2]
      exact (xexpRot hε hr hu hn).bind1 fun w hw hb => xflip ht hm hw hb
    | @boxMinusRot _ _ R S φ h h' hR hπ hr =>
      obtain ⟨i1, rfl⟩ := ihl h hx
      obtain ⟨i2, rfl⟩ := ihr h' hy
      cases hy'
      refine ⟨i1.bind2 i2 fun t u ht hm hu hn => ?_, rfl⟩
      obtain ⟨k1, e1⟩ := ht.leaf_rot
      obtain ⟨k2, e2⟩ := hu.leaf_rot
      simp only [xelabBin, e1, e2]
      have hS : IsRotation S := xrot_rotation hu
      have h1 : R * S⁻¹ = NormedSpace.exp (hat φ) := by
        rw [hR, mul_assoc, Matrix.inv_eq_right_inv hS.1, hS.1, mul_one]
      exact ((xinvRot hu hn).bind1 fun w hw hb => xcompose ht hm hw hb).bind1
        fun w hw hb => xlogRot hε hπ hr (h1 ▸ hw) hb
    | mulMotion h h' =>
      obtain ⟨i1, rfl⟩ := ihl h hx
      obtain ⟨i2, rfl⟩ := ihr h' hy
      cases hy'
      refine ⟨i1.bind2 i2 fun t u ht hm hu hn => ?_, rfl⟩
      obtain ⟨k1, e1⟩ := ht.leaf_motion
      obtain ⟨k2, e2⟩ := hu.leaf_motion
      simp only [xelabBin, e1, e2]
      exact xcomposeRigid ht hm hu hn
    | act h h' =>
      obtain ⟨i1, rfl⟩ := ihl h hx
      obtain ⟨i2, rfl⟩ := ihr h' hy
      cases hy'
      refine ⟨i1.bind2 i2 fun t u ht hm hu hn => ?_, rfl⟩
      obtain ⟨k1, e1⟩ := ht.leaf_motion
      have e2 := hu.leaf_vec
      simp only [xelabBin, e1, e2]
      exact xact ht hm hu hn
    | boxPlusMotion h h' hD hr =>
      obtain ⟨i1, rfl⟩ := ihl h hx
      obtain ⟨i2, rfl⟩ := ihr h' hy
      cases hy'
      refine ⟨i1.bind2 i2 fun t u ht hm hu hn => ?_, rfl⟩
      obtain ⟨k1, e1⟩ := ht.leaf_motion
      have e2 := hu.leaf_vec
      simp only [xelabBin, e1, e2]
      exact (xexpMotion hε hD hr hu hn).bind1 fun w hw hb => xflipRigid ht hm hw hb
    | @boxMinusMotion _ _ T S ξ D h h' hT hD hπ hr =>
      obtain ⟨i1, rfl⟩ := ihl h hx
      obtain ⟨i2, rfl⟩ := ihr h' hy
      cases hy'
      refine ⟨i1.bind2 i2 fun t u ht hm hu hn => ?_, rfl⟩
      obtain ⟨k1, e1⟩ := ht.leaf_motion
      obtain ⟨k2, e2⟩ := hu.leaf_motion
      simp only [xelabBin, e1, e2]
      have hS : IsRotation S.R := xmotion_rotation hu
      let S' : Rigid := ⟨S.Rᵀ, -(S.Rᵀ *ᵥ S.t)⟩
      have h0 : S.comp S' = Rigid.id := by
        refine Rigid.ext' hS.1 ?_
        change S.R *ᵥ -(S.Rᵀ *ᵥ S.t) + S.t = 0
        rw [mulVec_neg, mulVec_mulVec, hS.1, one_mulVec, neg_add_cancel]
      have h1 : T.comp S' = D := by
        rw [hT]
        refine Rigid.ext' ?_ ?_
        · change D.R * S.R * S.Rᵀ = D.R
          rw [mul_assoc, hS.1, mul_one]
        · change (D.R * S.R) *ᵥ -(S.Rᵀ *ᵥ S.t) + (D.R *ᵥ S.t + D.t) = D.t
          rw [mulVec_neg, mulVec_mulVec, mul_assoc, hS.1, mul_one, ← add_assoc, neg_add_cancel,
            zero_add]
      exact ((xinvMotion h0 hu hn).bind1 fun w hw hb => xcomposeRigid ht hm hw hb).bind1
        fun w hw hb => xlogMotion hε hD hπ hr (h1 ▸ hw) hb

end WG
