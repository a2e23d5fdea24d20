import Verif.Lemmas.Neutral

/-! # Identity and Zero denote the neutral elements, operator by operator -/

namespace WG
open Matrix Spec

variable {ε : ℝ} {s : Memory}

theorem aa_neutral_unit : (⟨0, ![1, 0, 0]⟩ : AngleAxis).IsUnit := by
  simp [AngleAxis.IsUnit, normSq, dotProduct, Fin.sum_univ_three]

theorem toMatrix_neutral (k : RotK) : k.matrix (neutralVal (.rot k)) = 1 := by
  cases k
  · exact Quat.toMatrix_one
  · rfl
  · change AngleAxis.toMatrix ⟨0, ![1, 0, 0]⟩ = 1
    rw [AngleAxis.toMatrix_eq aa_neutral_unit]
    simp

theorem neutral_valid (τ : Ty) : Valid τ (neutralVal τ) := by
  rcases τ with _ | _ | (_ | _ | _) | (_ | _)
  · trivial
  · trivial
  · exact (validRot_quat _).mpr quat_one_unit
  · change IsRotation (1 : M3)
    simp [IsRotation]
  · exact (validRot_aa _).mpr aa_neutral_unit
  · exact valid_mk4 0 (show IsRotation (1 : M3) by simp [IsRotation])
  · exact (validRot_quat _).mpr quat_one_unit

theorem neutral_obj (τ : Ty) : obj τ (neutralVal τ) = neutralObj τ := by
  have hv := neutral_valid τ
  rcases τ with _ | _ | k | k
  · rfl
  · rfl
  · exact congrArg Obj.rot ((rotDen_eq k _ hv).trans (toMatrix_neutral k))
  · refine congrArg Obj.motion ?_
    cases k
    · exact den_mk4 _ _
    · rw [rigidDen_eq .compact (neutralVal (.rigid .compact)) hv]
      exact Rigid.ext' Quat.toMatrix_one rfl

theorem XGood.vec {t : XTree ε} {k : VK} {x : k.Idx → ℝ} (h : XGood s t (.vec k x)) :
    (∃ p, t = ⟨.plain (.vec k), p⟩) ∨ ∃ p, t = ⟨.zeroVec k, p⟩ ∧ x = 0 ∧ k ≠ .scalar := by
  obtain ⟨a, p⟩ := t
  obtain ⟨hz, v, -, -, ho⟩ := h
  rcases a with τ | k' | k' | k' | _
  · cases τ <;> simp only [XTy.content, obj, Obj.vec.injEq, reduceCtorEq] at ho
    obtain ⟨rfl, -⟩ := ho
    exact Or.inl ⟨p, rfl⟩
  · simp only [obj, reduceCtorEq] at ho
  · simp only [obj, reduceCtorEq] at ho
  · have ho' := (neutral_obj (.vec k')).symm.trans ho
    simp only [neutralObj, Obj.vec.injEq] at ho'
    obtain ⟨rfl, ho'⟩ := ho'
    exact Or.inr ⟨p, rfl, (eq_of_heq ho').symm, by rintro rfl; cases hz⟩
  · simp only [obj, reduceCtorEq] at ho

theorem XGood.point {t : XTree ε} {x : V3} (h : XGood s t (.point x)) :
    (∃ p, t = ⟨.plain .point, p⟩) ∨ ∃ p, t = ⟨.zeroPoint, p⟩ ∧ x = 0 := by
  obtain ⟨a, p⟩ := t
  obtain ⟨hz, v, -, -, ho⟩ := h
  rcases a with τ | k' | k' | k' | _
  · cases τ <;> simp only [XTy.content, obj, reduceCtorEq] at ho
    exact Or.inl ⟨p, rfl⟩
  · simp only [obj, reduceCtorEq] at ho
  · simp only [obj, reduceCtorEq] at ho
  · simp only [obj, reduceCtorEq] at ho
  · have ho' := (neutral_obj .point).symm.trans ho
    simp only [neutralObj, Obj.point.injEq] at ho'
    exact Or.inr ⟨p, rfl, ho'.symm⟩

theorem XGood.rot {t : XTree ε} {R : M3} (h : XGood s t (.rot R)) :
    (∃ k p, t = ⟨.plain (.rot k), p⟩) ∨ ∃ k p, t = ⟨.idRot k, p⟩ ∧ R = 1 := by
  obtain ⟨a, p⟩ := t
  obtain ⟨hz, v, -, -, ho⟩ := h
  rcases a with τ | k' | k' | k' | _
  · cases τ <;> simp only [XTy.content, obj, reduceCtorEq] at ho
    exact Or.inl ⟨_, p, rfl⟩
  · have ho' := (neutral_obj (.rot k')).symm.trans ho
    simp only [neutralObj, Obj.rot.injEq] at ho'
    exact Or.inr ⟨_, p, rfl, ho'.symm⟩
  · simp only [obj, reduceCtorEq] at ho
  · simp only [obj, reduceCtorEq] at ho
  · simp only [obj, reduceCtorEq] at ho

theorem XGood.motion {t : XTree ε} {T : Rigid} (h : XGood s t (.motion T)) :
    (∃ k p, t = ⟨.plain (.rigid k), p⟩) ∨ ∃ k p, t = ⟨.idRigid k, p⟩ ∧ T = Rigid.id := by
  obtain ⟨a, p⟩ := t
  obtain ⟨hz, v, -, -, ho⟩ := h
  rcases a with τ | k' | k' | k' | _
  · cases τ <;> simp only [XTy.content, obj, reduceCtorEq] at ho
    exact Or.inl ⟨_, p, rfl⟩
  · simp only [obj, reduceCtorEq] at ho
  · have ho' := (neutral_obj (.rigid k')).symm.trans ho
    simp only [neutralObj, Obj.motion.injEq] at ho'
    exact Or.inr ⟨_, p, rfl, ho'.symm⟩
  · simp only [obj, reduceCtorEq] at ho
  · simp only [obj, reduceCtorEq] at ho

/-- Converting an Identity or Zero to its leaf class keeps the meaning. -/
theorem XGood.conv {a : XTy} {p : Expr (xLib ε) a} {o : Obj} (h : XGood s ⟨a, p⟩ o) :
    XGood s ⟨.plain a.leaf, .un (L := xLib ε) 0 (.conv a) p⟩ o := by
  obtain ⟨-, v, h1, h2, h3⟩ := h
  refine ⟨rfl, a.content v, ?_, h2, h3⟩
  change (value (xmem ε s) p).bind _ = _
  rw [h1]; rfl

/-- Anything of an Identity or Zero class means the neutral object, once it has a value. -/
theorem xgood_wrapper {a : XTy} (hw : a.wrapper = true) (hz : a.zeroScalar = false) {p : Expr (xLib ε) a} {v : a.Val}
    (h : value (xmem ε s) p = some v) : XGood s ⟨a, p⟩ (neutralObj a.leaf) := by
  cases a with
  | plain => cases hw
  | idRot k => exact ⟨rfl, v, h, neutral_valid _, neutral_obj (.rot k)⟩
  | idRigid k => exact ⟨rfl, v, h, neutral_valid _, neutral_obj (.rigid k)⟩
  | zeroVec k => exact ⟨hz, v, h, neutral_valid _, neutral_obj (.vec k)⟩
  | zeroPoint => exact ⟨rfl, v, h, neutral_valid _, neutral_obj .point⟩

theorem XGood.has {t : XTree ε} {o : Obj} (h : XGood s t o) : ∃ v, value (xmem ε s) t.2 = some v :=
  ⟨_, h.2.choose_spec.1⟩

/-- An overload returning its left operand. -/
theorem xgood_keepL {a b : XTy} {p : Expr (xLib ε) a} {q : Expr (xLib ε) b} {o o' : Obj}
    (t : Tag2) (h : XGood s ⟨a, p⟩ o) (h' : XGood s ⟨b, q⟩ o') :
    XGood s ⟨a, .bin (L := xLib ε) 0 (.keepL t a b) p q⟩ o := by
  obtain ⟨hz, v, h1, h2⟩ := h
  obtain ⟨-, w, k1, -⟩ := h'
  refine ⟨hz, v, ?_, h2⟩
  change (value (xmem ε s) p).bind (fun x => (value (xmem ε s) q).bind _) = _
  rw [h1, show value (xmem ε s) q = some w from k1]; rfl

/-- An overload returning its right operand. -/
theorem xgood_keepR {a b : XTy} {p : Expr (xLib ε) a} {q : Expr (xLib ε) b} {o o' : Obj}
    (t : Tag2) (h : XGood s ⟨a, p⟩ o) (h' : XGood s ⟨b, q⟩ o') :
    XGood s ⟨b, .bin (L := xLib ε) 0 (.keepR t a b) p q⟩ o' := by
  obtain ⟨-, v, h1, -⟩ := h
  obtain ⟨hz, w, k1, k2⟩ := h'
  refine ⟨hz, w, ?_, k2⟩
  change (value (xmem ε s) p).bind (fun x => (value (xmem ε s) q).bind _) = _
  rw [show value (xmem ε s) p = some v from h1, show value (xmem ε s) q = some w from k1]; rfl

/-! ## Vector operations on leaves -/

theorem acc_sum {k : VK} {x y : k.Idx → ℝ} (s : Memory) (t u : Tree ε) (h : Good s t (.vec k x))
    (h' : Good s u (.vec k y)) : Acc s (elab2 .sum t u) (.vec k (x + y)) := by
  obtain ⟨p, rfl, e⟩ := h.vec
  obtain ⟨q, rfl, e'⟩ := h'.vec
  cases k <;> exact acc_bin (.sum _) rfl e e' rfl trivial rfl

theorem acc_sub {k : VK} {x y : k.Idx → ℝ} (s : Memory) (t u : Tree ε) (h : Good s t (.vec k x))
    (h' : Good s u (.vec k y)) : Acc s (elab2 .subtract t u) (.vec k (x - y)) := by
  obtain ⟨p, rfl, e⟩ := h.vec
  obtain ⟨q, rfl, e'⟩ := h'.vec
  cases k <;> exact acc_bin (.sub _) rfl e e' rfl trivial rfl

theorem acc_dot {k : VK} (hk : k ≠ .scalar) {x y : k.Idx → ℝ} (s : Memory) (t u : Tree ε)
    (h : Good s t (.vec k x))
    (h' : Good s u (.vec k y)) : Acc s (elab2 .dot t u) (.vec .scalar fun _ => x ⬝ᵥ y) := by
  obtain ⟨p, rfl, e⟩ := h.vec
  obtain ⟨q, rfl, e'⟩ := h'.vec
  exact acc_bin (.dot _) (elab2_dot hk _ _) e e' rfl trivial rfl

theorem acc_sumPV {x y : V3} (s : Memory) (t u : Tree ε) (h : Good s t (.point x))
    (h' : Good s u (.vec .trans y)) : Acc s (elab2 .sum t u) (.point (x + y)) := by
  obtain ⟨p, rfl, e⟩ := h.point
  obtain ⟨q, rfl, e'⟩ := h'.vec
  exact acc_bin .sumPV rfl e e' rfl trivial rfl

theorem acc_sumVP {x y : V3} (s : Memory) (t u : Tree ε) (h : Good s t (.vec .trans y))
    (h' : Good s u (.point x)) : Acc s (elab2 .sum t u) (.point (x + y)) := by
  obtain ⟨p, rfl, e⟩ := h.vec
  obtain ⟨q, rfl, e'⟩ := h'.point
  exact acc_bin .sumVP rfl e e' rfl trivial (congrArg Obj.point (add_comm _ _))

theorem acc_subPP {x y : V3} (s : Memory) (t u : Tree ε) (h : Good s t (.point x))
    (h' : Good s u (.point y)) : Acc s (elab2 .subtract t u) (.vec .trans (x - y)) := by
  obtain ⟨p, rfl, e⟩ := h.point
  obtain ⟨q, rfl, e'⟩ := h'.point
  exact acc_bin .subPP rfl e e' rfl trivial rfl

theorem acc_subPV {x y : V3} (s : Memory) (t u : Tree ε) (h : Good s t (.point x))
    (h' : Good s u (.vec .trans y)) : Acc s (elab2 .subtract t u) (.point (x - y)) := by
  obtain ⟨p, rfl, e⟩ := h.point
  obtain ⟨q, rfl, e'⟩ := h'.vec
  exact acc_bin .subPV rfl e e' rfl trivial rfl

/-! ## Operations with Identity and Zero operands -/

section
variable {t u : XTree ε} {m n : Bool}

theorem xsum {k : VK} {x y : k.Idx → ℝ} (h : XGood s t (.vec k x)) (hm : t.1.wrapper = m)
    (h' : XGood s u (.vec k y)) (hn : u.1.wrapper = n) :
    XAcc s (xelab2 .sum t u) (.vec k (x + y)) (m && n) := by
  subst hm hn
  rcases h.vec with ⟨p, rfl⟩ | ⟨p, rfl, rfl, hs⟩ <;> rcases h'.vec with ⟨q, rfl⟩ | ⟨q, rfl, rfl, hs⟩
  · exact xacc2_plain acc_sum h h'
  · have e := xacc2_plain acc_sum h h'.conv
    cases k <;> first | exact e | exact absurd rfl hs
  · have e := xacc2_plain acc_sum h.conv h'
    cases k <;> first | exact e | exact absurd rfl hs
  · rw [add_zero]
    exact ⟨_, by cases k <;> rfl, xgood_keepL .sum h h', rfl⟩

theorem xacc_value1 {a : XTy} {b : Ty} {p : Expr (xLib ε) a} {o : Obj} (op : Un a.leaf b)
    (h : XAcc s (some (⟨.plain b, .un (L := xLib ε) 0 (.value (a := .plain a.leaf) op)
      (.un (L := xLib ε) 0 (.conv a) p)⟩ : XTree ε)) o false) :
    XAcc s (some (⟨.plain b, .un (L := xLib ε) 0 (.value (a := a) op) p⟩ : XTree ε)) o false := by
  obtain ⟨t, h0, ⟨-, v, h1, h2, h3⟩, -⟩ := h
  cases h0
  refine ⟨_, rfl, ⟨rfl, v, ?_, h2, h3⟩, rfl⟩
  have h1' : ((value (xmem ε s) p).bind (fun x => some (a.content x))).bind
      (fun y => evalUn ε op y) = some v := h1
  change (value (xmem ε s) p).bind (fun x => evalUn ε op (a.content x)) = some v
  rw [← h1', Option.bind_assoc]; rfl

theorem xacc_value2 {a b : XTy} {c : Ty} {p : Expr (xLib ε) a} {q : Expr (xLib ε) b} {o : Obj}
    (op : Bin a.leaf b.leaf c)
    (h : XAcc s (some (⟨.plain c, .bin (L := xLib ε) 0
      (.value (a := .plain a.leaf) (b := .plain b.leaf) op)
      (.un (L := xLib ε) 0 (.conv a) p) (.un (L := xLib ε) 0 (.conv b) q)⟩ : XTree ε)) o false) :
    XAcc s (some (⟨.plain c, .bin (L := xLib ε) 0 (.value (a := a) (b := b) op) p q⟩ : XTree ε)) o
      false := by
  obtain ⟨t, h0, ⟨-, v, h1, h2, h3⟩, -⟩ := h
  cases h0
  refine ⟨_, rfl, ⟨rfl, v, ?_, h2, h3⟩, rfl⟩
  have h1' : ((value (xmem ε s) p).bind (fun x => some (a.content x))).bind (fun x =>
      ((value (xmem ε s) q).bind (fun y => some (b.content y))).bind
      (fun y => evalBin op x y)) = some v := h1
  change (value (xmem ε s) p).bind (fun x => (value (xmem ε s) q).bind fun y =>
    evalBin op (a.content x) (b.content y)) = some v
  rw [← h1']
  simp only [Option.bind_assoc, Option.bind_some]

theorem xsub {k : VK} {x y : k.Idx → ℝ} (h : XGood s t (.vec k x)) (h' : XGood s u (.vec k y)) :
    XAcc s (xelab2 .subtract t u) (.vec k (x - y)) false := by
  rcases h.vec with ⟨p, rfl⟩ | ⟨p, rfl, rfl, hs⟩ <;> rcases h'.vec with ⟨q, rfl⟩ | ⟨q, rfl, rfl, hs⟩ <;>
  · have e := xacc2_plain acc_sub h.conv h'.conv
    cases k <;> first | exact xacc_value2 (p := p) (q := q) (.sub _) e | exact absurd rfl hs

theorem xdot {k : VK} (hk : k ≠ .scalar) {x y : k.Idx → ℝ} (h : XGood s t (.vec k x))
    (h' : XGood s u (.vec k y)) :
    XAcc s (xelab2 .dot t u) (.vec .scalar fun _ => x ⬝ᵥ y) false := by
  rcases h.vec with ⟨p, rfl⟩ | ⟨p, rfl, rfl, hs⟩ <;> rcases h'.vec with ⟨q, rfl⟩ | ⟨q, rfl, rfl, hs⟩ <;>
  · have e := xacc2_plain (acc_dot hk) h.conv h'.conv
    cases k <;> first | exact absurd rfl hk | exact xacc_value2 (p := p) (q := q) (.dot _) e

theorem xsumPV {x y : V3} (h : XGood s t (.point x)) (hm : t.1.wrapper = m)
    (h' : XGood s u (.vec .trans y)) (hn : u.1.wrapper = n) :
    XAcc s (xelab2 .sum t u) (.point (x + y)) (m && n) := by
  subst hm hn
  rcases h.point with ⟨p, rfl⟩ | ⟨p, rfl, rfl⟩ <;> rcases h'.vec with ⟨q, rfl⟩ | ⟨q, rfl, rfl, hs⟩
  · exact xacc2_plain acc_sumPV h h'
  · rw [add_zero]
    exact ⟨_, rfl, xgood_keepL .sum h h', rfl⟩
  · exact xacc2_plain acc_sumPV h.conv h'
  · rw [add_zero]
    exact ⟨_, rfl, xgood_keepL .sum h h', rfl⟩

theorem xsumVP {x y : V3} (h : XGood s t (.vec .trans y)) (h' : XGood s u (.point x))
    (hw : (t.1.wrapper && u.1.wrapper) = false) : XAcc s (xelab2 .sum t u) (.point (x + y)) false := by
  rcases h.vec with ⟨p, rfl⟩ | ⟨p, rfl, rfl, hs⟩ <;> rcases h'.point with ⟨q, rfl⟩ | ⟨q, rfl, rfl⟩
  · exact xacc2_plain acc_sumVP h h'
  · exact xacc2_plain acc_sumVP h h'.conv
  · rw [add_zero]
    exact ⟨_, rfl, xgood_keepR .sum h h', rfl⟩
  · cases hw

theorem xsubPP {x y : V3} (h : XGood s t (.point x)) (h' : XGood s u (.point y)) :
    XAcc s (xelab2 .subtract t u) (.vec .trans (x - y)) false := by
  rcases h.point with ⟨p, rfl⟩ | ⟨p, rfl, rfl⟩ <;> rcases h'.point with ⟨q, rfl⟩ | ⟨q, rfl, rfl⟩ <;>
  · have e := xacc2_plain acc_subPP h.conv h'.conv
    exact xacc_value2 (p := p) (q := q) .subPP e

theorem xsubPV {x y : V3} (h : XGood s t (.point x)) (h' : XGood s u (.vec .trans y)) :
    XAcc s (xelab2 .subtract t u) (.point (x - y)) false := by
  rcases h.point with ⟨p, rfl⟩ | ⟨p, rfl, rfl⟩ <;> rcases h'.vec with ⟨q, rfl⟩ | ⟨q, rfl, rfl, hs⟩ <;>
  · have e := xacc2_plain acc_subPV h.conv h'.conv
    exact xacc_value2 (p := p) (q := q) .subPV e

theorem Rigid.comp_id (T : Rigid) : T.comp Rigid.id = T := by
  refine Rigid.ext' (mul_one _) ?_
  change T.R *ᵥ 0 + T.t = T.t
  rw [mulVec_zero, zero_add]

theorem Rigid.id_comp (T : Rigid) : Rigid.id.comp T = T := by
  refine Rigid.ext' (one_mul _) ?_
  change (1 : M3) *ᵥ T.t + 0 = T.t
  rw [one_mulVec, add_zero]

theorem Rigid.id_act (v : V3) : Rigid.id.act v = v := by
  change (1 : M3) *ᵥ v + 0 = v
  rw [one_mulVec, add_zero]

theorem xcompose {R S : M3} (h : XGood s t (.rot R)) (hm : t.1.wrapper = m)
    (h' : XGood s u (.rot S)) (hn : u.1.wrapper = n) :
    XAcc s (xelab2 .compose t u) (.rot (R * S)) (m && n) := by
  subst hm hn
  rcases h.rot with ⟨k, p, rfl⟩ | ⟨k, p, rfl, rfl⟩ <;>
    rcases h'.rot with ⟨l, q, rfl⟩ | ⟨l, q, rfl, rfl⟩
  · exact xacc2_plain (fun s x y => acc_compose) h h'
  · rw [mul_one]
    exact ⟨_, by cases k <;> rfl, xgood_keepL .compose h h', rfl⟩
  · rw [one_mul]
    exact ⟨_, by cases l <;> rfl, xgood_keepR .compose h h', rfl⟩
  · rw [mul_one]
    exact ⟨_, rfl, xgood_keepL .compose h h', rfl⟩

theorem xflip {R S : M3} (h : XGood s t (.rot R)) (hm : t.1.wrapper = m)
    (h' : XGood s u (.rot S)) (hn : u.1.wrapper = n) :
    XAcc s (xelab2 .composeFlipped t u) (.rot (S * R)) (m && n) := by
  subst hm hn
  rcases h.rot with ⟨k, p, rfl⟩ | ⟨k, p, rfl, rfl⟩ <;>
    rcases h'.rot with ⟨l, q, rfl⟩ | ⟨l, q, rfl, rfl⟩
  · exact xacc2_plain (fun s x y => acc_flip) h h'
  · rw [one_mul]
    exact ⟨_, by cases k <;> rfl, xgood_keepL .composeFlipped h h', rfl⟩
  · rw [mul_one]
    exact ⟨_, by cases l <;> rfl, xgood_keepR .composeFlipped h h', rfl⟩
  · rw [mul_one]
    exact ⟨_, rfl, xgood_keepR .composeFlipped h h', rfl⟩

theorem xcomposeRigid {R S : Rigid} (h : XGood s t (.motion R)) (hm : t.1.wrapper = m)
    (h' : XGood s u (.motion S)) (hn : u.1.wrapper = n) :
    XAcc s (xelab2 .compose t u) (.motion (R.comp S)) (m && n) := by
  subst hm hn
  rcases h.motion with ⟨k, p, rfl⟩ | ⟨k, p, rfl, rfl⟩ <;>
    rcases h'.motion with ⟨l, q, rfl⟩ | ⟨l, q, rfl, rfl⟩
  · exact xacc2_plain (fun s x y => acc_mulMotion) h h'
  · have e := xacc2_plain (fun s x y => acc_mulMotion) h h'.conv
    cases k <;> cases l <;> exact e
  · have e := xacc2_plain (fun s x y => acc_mulMotion) h.conv h'
    cases k <;> cases l <;> exact e
  · rw [Rigid.comp_id]
    exact ⟨_, rfl, xgood_keepL .compose h h', rfl⟩

theorem xflipRigid {R S : Rigid} (h : XGood s t (.motion R)) (hm : t.1.wrapper = m)
    (h' : XGood s u (.motion S)) (hn : u.1.wrapper = n) :
    XAcc s (xelab2 .composeFlipped t u) (.motion (S.comp R)) (m && n) := by
  subst hm hn
  rcases h.motion with ⟨k, p, rfl⟩ | ⟨k, p, rfl, rfl⟩ <;>
    rcases h'.motion with ⟨l, q, rfl⟩ | ⟨l, q, rfl, rfl⟩
  · exact xacc2_plain (fun s x y => acc_flipMotion) h h'
  · have e := xacc2_plain (fun s x y => acc_flipMotion) h h'.conv
    cases k <;> cases l <;> exact e
  · have e := xacc2_plain (fun s x y => acc_flipMotion) h.conv h'
    cases k <;> cases l <;> exact e
  · rw [Rigid.comp_id]
    exact ⟨_, rfl, xgood_keepR .composeFlipped h h', rfl⟩

theorem xrotate {R : M3} {x : V3} (h : XGood s t (.rot R)) (hm : t.1.wrapper = m)
    (h' : XGood s u (.vec .trans x)) (hn : u.1.wrapper = n) :
    XAcc s (xelab2 .rotate t u) (.vec .trans (R *ᵥ x)) (m && n) := by
  subst hm hn
  rcases h.rot with ⟨k, p, rfl⟩ | ⟨k, p, rfl, rfl⟩ <;>
    rcases h'.vec with ⟨q, rfl⟩ | ⟨q, rfl, rfl, hs⟩
  · exact xacc2_plain (fun s x y => acc_rotate) h h'
  · have e := xacc2_plain (fun s x y => acc_rotate) h h'.conv
    cases k <;> first | exact e | exact absurd rfl hs
  · rw [one_mulVec]
    exact ⟨_, rfl, xgood_keepR .rotate h h', rfl⟩
  · rw [one_mulVec]
    exact ⟨_, rfl, xgood_keepR .rotate h h', rfl⟩

theorem xact {T : Rigid} {x : V3} (h : XGood s t (.motion T)) (hm : t.1.wrapper = m)
    (h' : XGood s u (.vec .trans x)) (hn : u.1.wrapper = n) :
    XAcc s (xelab2 .transform t u) (.vec .trans (T.act x)) (m && n) := by
  subst hm hn
  rcases h.motion with ⟨k, p, rfl⟩ | ⟨k, p, rfl, rfl⟩ <;>
    rcases h'.vec with ⟨q, rfl⟩ | ⟨q, rfl, rfl, hs⟩
  · exact xacc2_plain (fun s x y => acc_act) h h'
  · have e := xacc2_plain (fun s x y => acc_act) h.conv h'.conv
    cases k <;> exact xacc_value2 (p := p) (q := q) (.transform _) e
  · rw [Rigid.id_act]
    exact ⟨_, rfl, xgood_keepR .transform h h', rfl⟩
  · rw [Rigid.id_act]
    exact ⟨_, rfl, xgood_keepR .transform h h', rfl⟩

end

end WG
