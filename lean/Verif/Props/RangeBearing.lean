import Verif.Props.Factor
import Verif.Props.DerivativeUser

/-!
# C46: factors measuring a compound; the range-bearing factor of the repository's tests
-/

namespace WG
open Matrix WG.Spec

variable {ε : ℝ}

/-- The type list of a compound of two elements, or of elements without repetition, in which some leaf
type occurs twice. -/
theorem uniqueList_repeated {L : Lib} (c : Compound L) (hp : ∀ e ∈ c, e.2.noProxy)
    (hs : (∃ a b, c = [a, b]) ∨ ∀ e ∈ c, (types e.2).Nodup)
    (hn : ¬ (c.map fun e => types e.2).flatten.Nodup) : c.uniqueList = some none := by
  have all : (∀ e ∈ c, (types e.2).Nodup) → c.uniqueList = some none := by
    intro h
    cases c with
    | nil => exact absurd (by simp) hn
    | cons e es =>
      have hu : ∀ e' ∈ e :: es, e'.2.uniqueList = some (types e'.2) := fun e' he' =>
        (c42_unique e'.2 (hp e' he')).2 (h e' he')
      have := c42_nary (types e.2) (es.map fun e' => types e'.2) (h e (by simp)) (by
        intro v hv
        obtain ⟨e', he', rfl⟩ := List.mem_map.1 hv
        exact h e' (by simp [he']))
      rw [List.map_cons] at hn
      rw [if_neg hn] at this
      have hmap : (es.map fun e => e.2.uniqueList) = (es.map fun e' => types e'.2).map some := by
        rw [List.map_map]
        exact List.map_congr_left fun e' he' => hu e' (by simp [he'])
      rw [Compound.uniqueList, hu e (by simp), hmap, this]
  rcases hs with ⟨a, b, rfl⟩ | hs
  · by_cases ha : (types a.2).Nodup
    · by_cases hb : (types b.2).Nodup
      · exact all (by simp [ha, hb])
      · have h1 : b.2.uniqueList = none := by rw [uniqueList_eq, if_neg fun h => hb h.2]
        show concatMany a.2.uniqueList [b.2.uniqueList] = _
        rw [h1]
        cases a.2.uniqueList <;> rfl
    · have h1 : a.2.uniqueList = none := by rw [uniqueList_eq, if_neg fun h => ha h.2]
      show concatMany a.2.uniqueList [b.2.uniqueList] = _
      rw [h1]
      cases b.2.uniqueList <;> rfl
  · exact all hs

/-- A factor measuring a compound is accepted when there is no dynamic node, some leaf type is repeated
(in a compound of two elements, or with no repetition inside an element), every parameter's type occurs
in the first elements only or in all of them, no element is an unevaluated expression and no Jacobian
overload on the way reads one. -/
theorem c46_compound_accepted (s : Store (geoLib ε)) (F : Factor ε) (ts : List (Target (geoLib ε)))
    (p : List (Channel ε)) (hne : p ≠ [])
    (hf : F.functor ts = .compound (p.map fun x => ⟨x.ty, x.e⟩))
    (hz : F.value = .compound (p.map fun x => ⟨x.ty, x.z⟩))
    (hp : ∀ x ∈ p, x.e.noProxy)
    (hs : (∃ a b, p = [a, b]) ∨ ∀ x ∈ p, (types x.e).Nodup)
    (hn : ¬ (p.map fun x => types x.e).flatten.Nodup)
    (ht : ∀ t ∈ ts, TypeFirst t (p.map fun x => (⟨x.ty, x.e⟩ : Elem (geoLib ε))))
    (hu : ∀ x ∈ p, ¬ Unevaluated (geoLazy ε) x.e)
    (hd : ∀ t ∈ ts, ∀ x ∈ p, ¬ Dangles (geoLazy ε) t x.e)
    (hv : ∀ x ∈ p, value s x.e ≠ none) {W : Matrix (Fin F.dim) (Fin F.dim) ℝ}
    (hW : F.noise.invSqrt = some W) :
    ∃ q, F.evaluateWithJacobians s ts = .ok q := by
  have hobs : Observes F ts p := .inr ⟨hne, hf, hz⟩
  obtain ⟨r, _, hr⟩ := c46_residual s F ts p hobs hv hW
  have ha := observes_accepted hobs
  unfold Factor.evaluate at hr
  rw [if_pos ha, hf] at hr
  obtain ⟨c, hc⟩ : ∃ c : Compound (geoLib ε),
    (p.map fun x => (⟨x.ty, x.e⟩ : Elem (geoLib ε))) = c := ⟨_, rfl⟩
  rw [hc] at hf hr ht
  have hp' : ∀ e ∈ c, e.2.noProxy := by
    subst hc; simpa using hp
  have h1 : c.uniqueList = some none := by
    refine uniqueList_repeated c hp' ?_ ?_
    · rcases hs with ⟨a, b, rfl⟩ | hs
      · exact .inl ⟨_, _, hc.symm⟩
      · right; subst hc; simpa using hs
    · subst hc; simpa [List.map_map, Function.comp_def] using hn
  obtain ⟨Js, h2⟩ : ∃ Js, (ts.mapM fun t => (c.jacobianStatic s t).map fun J =>
      (⟨t.ty, J⟩ : (σ : Ty) × Rows (geoLib ε) σ)) = some Js := by
    clear hr ha hobs hd hf
    induction ts with
    | nil => exact ⟨[], rfl⟩
    | cons t ts ih =>
      obtain ⟨Js, hJs⟩ := ih fun t h => ht t (List.mem_cons_of_mem _ h)
      obtain ⟨m, hm, _⟩ := jacobianStatic_typeFirst s t c hp' (ht t List.mem_cons_self)
      exact ⟨⟨t.ty, m⟩ :: Js, by simp [List.mapM_cons, hm, hJs]⟩
  have h3 : c.evalWithJacobians s ts = some (c.eval s, Js) := by
    unfold Compound.evalWithJacobians
    rw [h1]
    simp only [h2]
  have h4 : MeasExpr.evalWithJacobians s ts (F.functor ts) = .ok (c.eval s, Js) := by
    rw [hf]
    show c.evalWithJacobiansRun (geoLazy ε) s ts = _
    rw [evalWithJacobiansRun_eq, h3]
    simp only
    rw [if_neg, if_pos]
    · rintro t h ⟨e, he, hx⟩
      subst hc
      obtain ⟨x, hx', rfl⟩ := List.mem_map.1 he
      exact hd t h x hx' hx
    · rintro ⟨e, he, hx⟩
      subst hc
      obtain ⟨x, hx', rfl⟩ := List.mem_map.1 he
      exact hu x hx' hx
  unfold Factor.evaluateWithJacobians
  rw [if_pos ha, h4]
  simp only
  have hr' : F.residual (c.eval s) = some (some (W *ᵥ r)) := hr
  rw [hr']
  exact ⟨_, rfl⟩

/-- The range of test_factors.hpp:68: `(T_WB.translation() - W_v_WL).norm()`. -/
noncomputable def exRange (ε : ℝ) (k : RigK) (a b ca cb : ℕ) : Expr (geoLib ε) (.vec .scalar) :=
  .un 19 (.norm .trans) (.bin 18 (.sub .trans)
    (.un 17 (.getTrans k) (gleaf ε a ca (.rigid k))) (gleaf ε b cb (.vec .trans)))

/-- The bearing of test_factors.hpp:69-70:
`acos(dot(B_v_Bz, (inverse(T_WB) * W_v_WL).normalized()))`, with `B_v_Bz` the object 10. -/
noncomputable def exBearing (ε : ℝ) (k : RigK) (a b ca cb cz : ℕ) : Expr (geoLib ε) (.vec .scalar) :=
  .un 15 .acos (.bin 14 (.dot .trans) (gleaf ε 10 cz (.vec .trans))
    (.un 13 (.normalize .trans) (.bin 12 (.transform k)
      (.un 11 (.invRigid k) (gleaf ε a ca (.rigid k))) (gleaf ε b cb (.vec .trans)))))

/-- The factor of the repository's test `evaluateRangeBearingFactor` (test_factors.hpp:55-75,
factor_test.cpp:128-131): range and bearing of a landmark seen from a pose, measured with standard
deviations `σ` (range) and `φ` (bearing). -/
noncomputable def exRangeBearing (ε : ℝ) (k : RigK) (ca cb cz : ℕ) (z β σ φ : ℝ) : Factor ε where
  functor
    | [a, b] => .compound [⟨.vec .scalar, exRange ε k a.addr b.addr ca cb⟩,
        ⟨.vec .scalar, exBearing ε k a.addr b.addr ca cb cz⟩]
    | _ => .single (.vec .scalar) (gleaf ε 0 0 (.vec .scalar))
  value := .compound [⟨.vec .scalar, fun _ => z⟩, ⟨.vec .scalar, fun _ => β⟩]
  noise := diagonalNoise fun i : Fin _ => if (i : ℕ) = 0 then σ else φ

/-- The two channels. -/
noncomputable abbrev exRBChannels (ε : ℝ) (k : RigK) (a b ca cb cz : ℕ) (z β : ℝ) : List (Channel ε) :=
  [⟨.vec .scalar, .inl ⟨_, rfl⟩, exRange ε k a b ca cb, fun _ => z⟩,
   ⟨.vec .scalar, .inl ⟨_, rfl⟩, exBearing ε k a b ca cb cz, fun _ => β⟩]

theorem exRange_value (s : Store (geoLib ε)) (k : RigK) (a b ca cb : ℕ) {T : Rigid} {l : V3}
    (hT : rigidDen k (s a (.rigid k)) = T) (hl : s b (.vec .trans) = l) :
    value s (exRange ε k a b ca cb) = some fun _ => Real.sqrt (sqLen (T.t - l)) := by
  subst hT hl
  show some _ = some _
  congr 1
  funext _
  show vNorm (n := Fin 3) (vSub (k.trans (s a (.rigid k))) (s b (.vec .trans))) = _
  rw [rigidDen_t]
  unfold vNorm vSqNorm vSub sqLen
  rfl

/-- The landmark in the frame of the pose. -/
theorem exBearing_transform (k : RigK) (x : k.Val) (hx : ValidRigid k x) (v : V3) :
    transformEval k (invRigid k x) v = (rigidDen k x).Rᵀ *ᵥ (v - (rigidDen k x).t) := by
  obtain ⟨h1, h2⟩ := invRigid_sound k x hx
  have h3 := rigidDen_eq k _ h1
  rw [transformEval_eq, mulVec_sub, sub_eq_add_neg]
  rw [h3] at h2
  rw [Rigid.mk.injEq] at h2
  rw [h2.1, h2.2]

/-- The direction of the landmark in the frame of the pose: the argument of `dot`. -/
noncomputable abbrev exDirection (ε : ℝ) (k : RigK) (a b ca cb : ℕ) : Expr (geoLib ε) (.vec .trans) :=
  .un 13 (.normalize .trans) (.bin 12 (.transform k)
    (.un 11 (.invRigid k) (gleaf ε a ca (.rigid k))) (gleaf ε b cb (.vec .trans)))

/-- The argument of `acos`. -/
noncomputable abbrev exCosine (ε : ℝ) (k : RigK) (a b ca cb cz : ℕ) : Expr (geoLib ε) (.vec .scalar) :=
  .bin 14 (.dot .trans) (gleaf ε 10 cz (.vec .trans)) (exDirection ε k a b ca cb)

/-- The landmark in the frame of the pose, as a vector. -/
noncomputable def seen (T : Rigid) (l : V3) : V3 := T.Rᵀ *ᵥ (l - T.t)

theorem sqLen_seen {T : Rigid} (hR : IsRotation T.R) (l : V3) : sqLen (seen T l) = sqLen (l - T.t) := by
  unfold sqLen seen
  rw [Matrix.dotProduct_mulVec, Matrix.vecMul_transpose, Matrix.mulVec_mulVec, hR.1, one_mulVec]

theorem sqLen_pos {v : V3} (h : v ≠ 0) : 0 < sqLen v := by
  refine lt_of_le_of_ne ?_ (Ne.symm fun e => h (dotProduct_self_eq_zero.1 e))
  unfold sqLen dotProduct
  exact Finset.sum_nonneg fun i _ => mul_self_nonneg _

theorem exCosine_value (s : Store (geoLib ε)) (k : RigK) (a b ca cb cz : ℕ) {T : Rigid} {l : V3}
    (hv : ValidRigid k (s a (.rigid k))) (hT : rigidDen k (s a (.rigid k)) = T)
    (hl : s b (.vec .trans) = l) (hz : s 10 (.vec .trans) = (![0, 0, 1] : V3)) (hne : l ≠ T.t) :
    (value s (exCosine ε k a b ca cb cz) : Option (Fin 1 → ℝ)) =
      some (sc (seen T l 2 / Real.sqrt (sqLen (l - T.t)))) := by
  have hR : IsRotation T.R := by
    rw [← hT, rigidDen_eq k _ hv]; exact validRigid_rotation k _ hv
  have hlen := sqLen_seen hR l
  have hpos := sqLen_pos (sub_ne_zero.2 hne)
  have hwv : (value s (exDirection ε k a b ca cb) : Option V3) =
      some fun i => seen T l i / Real.sqrt (sqLen (seen T l)) := by
    show some (vNormalize (n := Fin 3) (transformEval k (invRigid k (s a (.rigid k)))
      (s b (.vec .trans)))) = _
    rw [exBearing_transform k _ hv, hT, hl]
    unfold vNormalize
    rw [if_pos (show vSqNorm (T.Rᵀ *ᵥ (l - T.t)) > 0 from lt_of_lt_of_eq hpos hlen.symm)]
    rfl
  have hdot : vDot (n := Fin 3) (s 10 (.vec .trans) : V3)
      (fun i => seen T l i / Real.sqrt (sqLen (seen T l))) =
      seen T l 2 / Real.sqrt (sqLen (l - T.t)) := by
    rw [hz, hlen]
    unfold vDot dotProduct
    rw [Fin.sum_univ_three]
    simp
  show (some (s 10 (.vec .trans))).bind (fun x => (value s (exDirection ε k a b ca cb)).bind fun y =>
    (geoLib ε).evalB (.dot .trans) x y) = _
  rw [Option.bind_some]
  refine (congrArg (fun o : Option V3 => o.bind fun y =>
    (geoLib ε).evalB (.dot .trans) (s 10 (.vec .trans)) y) hwv).trans ?_
  rw [Option.bind_some]
  exact congrArg (fun x => some (sc x)) hdot

/-- The cosine is in the domain of `acos`. -/
theorem cosine_mem {T : Rigid} (hR : IsRotation T.R) {l : V3} (hne : l ≠ T.t) :
    -1 ≤ seen T l 2 / Real.sqrt (sqLen (l - T.t)) ∧
      seen T l 2 / Real.sqrt (sqLen (l - T.t)) ≤ 1 := by
  have hsp : 0 < Real.sqrt (sqLen (l - T.t)) := Real.sqrt_pos.2 (sqLen_pos (sub_ne_zero.2 hne))
  have hb : |seen T l 2| ≤ Real.sqrt (sqLen (l - T.t)) := by
    rw [← sqLen_seen hR l]
    apply Real.abs_le_sqrt
    unfold sqLen dotProduct
    rw [Fin.sum_univ_three]
    nlinarith [mul_self_nonneg (seen T l 0), mul_self_nonneg (seen T l 1)]
  rw [abs_le] at hb
  exact ⟨by rw [le_div_iff₀ hsp]; linarith [hb.1], by rw [div_le_one hsp]; exact hb.2⟩

theorem exBearing_value (s : Store (geoLib ε)) (k : RigK) (a b ca cb cz : ℕ) {T : Rigid} {l : V3}
    (hv : ValidRigid k (s a (.rigid k))) (hT : rigidDen k (s a (.rigid k)) = T)
    (hl : s b (.vec .trans) = l) (hz : s 10 (.vec .trans) = (![0, 0, 1] : V3)) (hne : l ≠ T.t) :
    value s (exBearing ε k a b ca cb cz) = some fun _ =>
      Real.arccos ((T.Rᵀ *ᵥ (l - T.t)) 2 / Real.sqrt (sqLen (l - T.t))) := by
  have hR : IsRotation T.R := by
    rw [← hT, rigidDen_eq k _ hv]; exact validRigid_rotation k _ hv
  refine (congrArg (fun o : Option (Fin 1 → ℝ) => o.bind ((geoLib ε).evalU .acos))
    (exCosine_value s k a b ca cb cz hv hT hl hz hne)).trans ?_
  rw [Option.bind_some]
  show (racos (seen T l 2 / Real.sqrt (sqLen (l - T.t)))).map sc = _
  unfold racos
  rw [if_pos (cosine_mem hR hne)]
  rfl

theorem exRB_observes (k : RigK) (a b ca cb cz : ℕ) (z β σ φ : ℝ) :
    Observes (exRangeBearing ε k ca cb cz z β σ φ) [⟨a, ca, .rigid k⟩, ⟨b, cb, .vec .trans⟩]
      (exRBChannels ε k a b ca cb cz z β) :=
  .inr ⟨by simp, rfl, rfl⟩

theorem exRB_W (k : RigK) (ca cb cz : ℕ) (z β : ℝ) {σ φ : ℝ} (hσ : σ ≠ 0) (hφ : φ ≠ 0) :
    (exRangeBearing ε k ca cb cz z β σ φ).noise.invSqrt =
      some (diagonal fun i : Fin _ => (if (i : ℕ) = 0 then σ else φ)⁻¹) := by
  show (diagonalNoise fun i : Fin _ => if (i : ℕ) = 0 then σ else φ).invSqrt = _
  unfold diagonalNoise
  simp only
  rw [if_pos]
  intro i
  split_ifs <;> assumption

/-- **C46, the range-bearing factor.** What the repository's test expects of it, for every pose (4x4 or
compact), every landmark not at the origin of the pose and every measurement: `evaluate(T, l)` compiles
and is the pair of the normalised differences of the distance from `T.translation()` to `l` and of the
angle between the third axis of the pose and the direction of the landmark. -/
theorem c46_range_bearing (s : Store (geoLib ε)) (k : RigK) (a b ca cb cz : ℕ) (z β : ℝ) {σ φ : ℝ}
    (hσ : σ ≠ 0) (hφ : φ ≠ 0) (T : Rigid) (l : V3) (hv : ValidRigid k (s a (.rigid k)))
    (hT : rigidDen k (s a (.rigid k)) = T) (hl : s b (.vec .trans) = l)
    (hz : s 10 (.vec .trans) = (![0, 0, 1] : V3)) (hne : l ≠ T.t) :
    (exRangeBearing ε k ca cb cz z β σ φ).evaluate s [⟨a, ca, .rigid k⟩, ⟨b, cb, .vec .trans⟩] =
      some (some fun i : Fin _ => if (i : ℕ) = 0 then (Real.sqrt (sqLen (T.t - l)) - z) / σ
        else (Real.arccos ((T.Rᵀ *ᵥ (l - T.t)) 2 / Real.sqrt (sqLen (l - T.t))) - β) / φ) := by
  have v1 := exRange_value s k a b ca cb hT hl
  have v2 := exBearing_value s k a b ca cb cz hv hT hl hz hne
  have hobs := exRB_observes (ε := ε) k a b ca cb cz z β σ φ
  obtain ⟨r, ⟨_, hr⟩, he⟩ := c46_residual s _ _ _ hobs (by
    intro x hx
    simp only [List.mem_cons, List.not_mem_nil, or_false] at hx
    rcases hx with rfl | rfl
    · exact fun h => Option.some_ne_none _ (v1.symm.trans h)
    · exact fun h => Option.some_ne_none _ (v2.symm.trans h)) (exRB_W k ca cb cz z β hσ hφ)
  rw [he]
  congr 2
  funext i
  refine (Matrix.mulVec_diagonal _ r i).trans ?_
  have hi : (i : ℕ) < 2 := lt_of_lt_of_eq i.2 (factor_dim hobs)
  by_cases h0 : (i : ℕ) = 0
  · rw [if_pos h0, if_pos h0, hr [] _ _ rfl _ v1 (0 : Fin 1) i h0, div_eq_inv_mul]
    rfl
  · rw [if_neg h0, if_neg h0, hr [_] _ [] rfl _ v2 (0 : Fin 1) i (by
      show (i : ℕ) = 1 + 0
      omega)]
    exact (div_eq_inv_mul (_ - β) φ).symm


/-- Every result read on the way is computed. -/
theorem exRB_safe (k : RigK) (a b ca cb cz : ℕ) (t : Target (geoLib ε)) :
    ¬ Dangles (geoLazy ε) t (exRange ε k a b ca cb) ∧
      ¬ Dangles (geoLazy ε) t (exBearing ε k a b ca cb cz) := by
  constructor <;>
  simp [exRange, exBearing, dangles_un, dangles_bin, unBad, leftBad, rightBad, gleaf,
    not_dangles_leaf, ← unevaluated_iff, Expr.evalTypeLazy, geoLazy, Un.mode, Bin.mode]

theorem exRB_accepted (s : Store (geoLib ε)) (k : RigK) (a b ca cb cz : ℕ) (z β : ℝ)
    {σ φ : ℝ} (hσ : σ ≠ 0) (hφ : φ ≠ 0) {T : Rigid} {l : V3} (hv : ValidRigid k (s a (.rigid k)))
    (hT : rigidDen k (s a (.rigid k)) = T) (hl : s b (.vec .trans) = l)
    (hz : s 10 (.vec .trans) = (![0, 0, 1] : V3)) (hne : l ≠ T.t) :
    ∃ q, (exRangeBearing ε k ca cb cz z β σ φ).evaluateWithJacobians s
      [⟨a, ca, .rigid k⟩, ⟨b, cb, .vec .trans⟩] = .ok q := by
  have v1 := exRange_value s k a b ca cb hT hl
  have v2 := exBearing_value s k a b ca cb cz hv hT hl hz hne
  refine c46_compound_accepted s _ _ (exRBChannels ε k a b ca cb cz z β) (by simp) rfl rfl ?_
    (.inl ⟨_, _, rfl⟩) ?_ ?_ ?_ ?_ ?_ (exRB_W k ca cb cz z β hσ hφ)
  · intro x hx
    simp only [List.mem_cons, List.not_mem_nil, or_false] at hx
    rcases hx with rfl | rfl <;> rfl
  · simp [exRange, exBearing, types, objects, gleaf]
  · intro t ht
    refine ⟨_, [], (List.append_nil _).symm, ?_, by simp⟩
    intro e he
    simp only [List.map_cons, List.map_nil, List.mem_cons, List.not_mem_nil, or_false] at he ht
    rcases he with rfl | rfl <;> rcases ht with rfl | rfl <;>
      simp [exRange, exBearing, types, objects, gleaf]
  · intro x hx h
    simp only [List.mem_cons, List.not_mem_nil, or_false] at hx
    rw [← unevaluated_iff] at h
    rcases hx with rfl | rfl <;> simp [exRange, exBearing, Expr.evalTypeLazy, geoLazy, Un.mode] at h
  · intro t _ x hx
    simp only [List.mem_cons, List.not_mem_nil, or_false] at hx
    rcases hx with rfl | rfl
    · exact (exRB_safe k a b ca cb cz t).1
    · exact (exRB_safe k a b ca cb cz t).2
  · intro x hx
    simp only [List.mem_cons, List.not_mem_nil, or_false] at hx
    rcases hx with rfl | rfl
    · exact fun h => Option.some_ne_none _ (v1.symm.trans h)
    · exact fun h => Option.some_ne_none _ (v2.symm.trans h)

theorem exRB_regular (s : Store (geoLib ε)) (k : RigK) (a b ca cb cz : ℕ) {T : Rigid} {l : V3}
    (hv : ValidRigid k (s a (.rigid k))) (hT : rigidDen k (s a (.rigid k)) = T)
    (hl : s b (.vec .trans) = l) (hz : s 10 (.vec .trans) = (![0, 0, 1] : V3))
    (hne : l ≠ T.t) (hax : seen T l 0 ≠ 0 ∨ seen T l 1 ≠ 0) :
    (RegularAt ε s (exRange ε k a b ca cb) ∧ NonsingularAt ε s (exRange ε k a b ca cb)) ∧
      RegularAt ε s (exBearing ε k a b ca cb cz) ∧ NonsingularAt ε s (exBearing ε k a b ca cb cz) := by
  have hR : IsRotation T.R := by
    rw [← hT, rigidDen_eq k _ hv]; exact validRigid_rotation k _ hv
  have hc := exCosine_value s k a b ca cb cz hv hT hl hz hne
  refine ⟨⟨⟨⟨⟨hv, fun _ _ => trivial⟩, trivial, fun _ _ _ _ => trivial⟩, fun _ _ => trivial⟩,
    ⟨⟨⟨trivial, fun _ _ => trivial⟩, trivial⟩, ?_⟩⟩,
    ⟨⟨trivial, ⟨⟨⟨⟨hv, fun _ _ => trivial⟩, trivial, fun _ _ _ _ => trivial⟩, fun _ _ => trivial⟩,
      fun _ _ _ _ => trivial⟩⟩, ?_⟩, ⟨⟨trivial, ⟨⟨⟨trivial, fun _ _ => trivial⟩, trivial⟩, ?_⟩⟩, ?_⟩⟩
  · intro x hx
    have hx' : some (vSub (k.trans (s a (.rigid k))) (s b (.vec .trans) : V3)) = some x := hx
    cases hx'
    show (vSub (k.trans (s a (.rigid k))) (s b (.vec .trans) : V3)) ≠ 0
    rw [← rigidDen_t, hT, hl]
    exact sub_ne_zero.2 hne.symm
  · intro x hx
    have hx' := hc.symm.trans hx
    cases hx'
    exact cosine_mem hR hne
  · intro x hx
    have hx' : some (transformEval k (invRigid k (s a (.rigid k))) (s b (.vec .trans))) = some x := hx
    cases hx'
    show transformEval k (invRigid k (s a (.rigid k))) (s b (.vec .trans)) ≠ 0
    rw [exBearing_transform k _ hv, hT, hl]
    intro h0
    have := sqLen_seen hR l
    rw [show seen T l = 0 from h0] at this
    have h1 := sqLen_pos (sub_ne_zero.2 hne)
    rw [← this] at h1
    simp [sqLen] at h1
  · intro x hx
    have hx' := hc.symm.trans hx
    cases hx'
    have hsp : 0 < Real.sqrt (sqLen (l - T.t)) := Real.sqrt_pos.2 (sqLen_pos (sub_ne_zero.2 hne))
    have hsq : Real.sqrt (sqLen (l - T.t)) ^ 2 =
        seen T l 0 ^ 2 + seen T l 1 ^ 2 + seen T l 2 ^ 2 := by
      rw [Real.sq_sqrt (Real.sqrt_pos.1 hsp).le, ← sqLen_seen hR l]
      unfold sqLen dotProduct
      rw [Fin.sum_univ_three]; ring
    have hpos : 0 < seen T l 0 ^ 2 + seen T l 1 ^ 2 := by
      rcases hax with h | h
      · have := pow_pos (abs_pos.2 h) 2
        rw [sq_abs] at this
        nlinarith [sq_nonneg (seen T l 1)]
      · have := pow_pos (abs_pos.2 h) 2
        rw [sq_abs] at this
        nlinarith [sq_nonneg (seen T l 0)]
    show seen T l 2 / Real.sqrt (sqLen (l - T.t)) ≠ 1 ∧ seen T l 2 / Real.sqrt (sqLen (l - T.t)) ≠ -1
    constructor
    · intro h
      rw [div_eq_iff hsp.ne'] at h
      rw [one_mul] at h
      rw [h] at hsq
      nlinarith
    · intro h
      rw [div_eq_iff hsp.ne'] at h
      rw [h] at hsq
      nlinarith

/-- **C46, the range-bearing factor, Jacobians.** With the landmark object not being the axis object,
for every pose and every landmark off the third axis of the pose: `evaluateWithJacobians(T, l)`
compiles, reads no destroyed object and returns the residual of `evaluate`, and two finite matrices
which, multiplied on the left by `diag(1/σ, 1/φ)`, are the derivatives of that residual with respect
to the pose and to the landmark. -/
theorem c46_range_bearing_jacobians (hε : 0 < ε) (hε1 : ε ≤ 1) (s : Store (geoLib ε)) (k : RigK)
    (a b ca cb cz : ℕ) (z β : ℝ) {σ φ : ℝ} (hσ : σ ≠ 0) (hφ : φ ≠ 0) (T : Rigid) (l : V3)
    (hb : b ≠ 10) (hv : ValidRigid k (s a (.rigid k)))
    (hT : rigidDen k (s a (.rigid k)) = T) (hl : s b (.vec .trans) = l)
    (hz : s 10 (.vec .trans) = (![0, 0, 1] : V3))
    (hax : (T.Rᵀ *ᵥ (l - T.t)) 0 ≠ 0 ∨ (T.Rᵀ *ᵥ (l - T.t)) 1 ≠ 0) :
    ∃ r m n, ∃ (J : Matrix (Fin (exRangeBearing ε k ca cb cz z β σ φ).dim) (Ty.rigid k).Idx ℝ)
      (K : Matrix (Fin (exRangeBearing ε k ca cb cz z β σ φ).dim) (Ty.vec .trans).Idx ℝ),
      (exRangeBearing ε k ca cb cz z β σ φ).evaluateWithJacobians s
        [⟨a, ca, .rigid k⟩, ⟨b, cb, .vec .trans⟩] = .ok (r, [⟨.rigid k, m⟩, ⟨.vec .trans, n⟩]) ∧
      (exRangeBearing ε k ca cb cz z β σ φ).evaluate s [⟨a, ca, .rigid k⟩, ⟨b, cb, .vec .trans⟩] =
        some r ∧
      (∀ i : Fin (exRangeBearing ε k ca cb cz z β σ φ).dim,
        m i = some (some (J i)) ∧ n i = some (some (K i))) ∧
      IsResidualDerivative s (exRangeBearing ε k ca cb cz z β σ φ)
        [⟨a, ca, .rigid k⟩, ⟨b, cb, .vec .trans⟩] ⟨a, ca, .rigid k⟩
        (diagonal (fun i : Fin _ => (if (i : ℕ) = 0 then σ else φ)⁻¹) * J) ∧
      IsResidualDerivative s (exRangeBearing ε k ca cb cz z β σ φ)
        [⟨a, ca, .rigid k⟩, ⟨b, cb, .vec .trans⟩] ⟨b, cb, .vec .trans⟩
        (diagonal (fun i : Fin _ => (if (i : ℕ) = 0 then σ else φ)⁻¹) * K) := by
  have hne : l ≠ T.t := by
    rintro rfl
    simp at hax
  obtain ⟨⟨r, Js⟩, hok⟩ := exRB_accepted s k a b ca cb cz z β hσ hφ hv hT hl hz hne
  obtain ⟨⟨r1, n1⟩, r2, n2⟩ := exRB_regular s k a b ca cb cz hv hT hl hz hne hax
  have hobs := exRB_observes (ε := ε) k a b ca cb cz z β σ φ
  have hW := exRB_W (ε := ε) k ca cb cz z β hσ hφ
  have hreg : ∀ t : Target (geoLib ε), t ∈ objects (exRange ε k a b ca cb) →
      t ∈ objects (exBearing ε k a b ca cb cz) → ∀ x ∈ exRBChannels ε k a b ca cb cz z β,
      RegularAt ε s x.e ∧ value s x.e ≠ none ∧ total (occurrences s t x.e) ≠ none := by
    intro t h1 h2 x hx
    simp only [List.mem_cons, List.not_mem_nil, or_false] at hx
    rcases hx with rfl | rfl
    · obtain ⟨J, hJ⟩ := slope_some hε hε1 s t _ r1 n1 h1
      exact ⟨r1, fun h => Option.some_ne_none _ ((exRange_value s k a b ca cb hT hl).symm.trans h),
        fun h => Option.some_ne_none _ (hJ.symm.trans h)⟩
    · obtain ⟨J, hJ⟩ := slope_some hε hε1 s t _ r2 n2 h2
      exact ⟨r2, fun h => Option.some_ne_none _
        ((exBearing_value s k a b ca cb cz hv hT hl hz hne).symm.trans h),
        fun h => Option.some_ne_none _ (hJ.symm.trans h)⟩
  have hfirst : ∀ t ∈ [(⟨a, ca, .rigid k⟩ : Target (geoLib ε)), ⟨b, cb, .vec .trans⟩],
      Handled t ((exRangeBearing ε k ca cb cz z β σ φ).functor
        [⟨a, ca, .rigid k⟩, ⟨b, cb, .vec .trans⟩]) := by
    intro t ht
    refine ⟨_, [], (List.append_nil _).symm, ?_, by simp⟩
    intro e he
    simp only [List.mem_cons, List.not_mem_nil, or_false] at he ht
    rcases he with rfl | rfl <;> rcases ht with rfl | rfl <;>
      simp [exRange, exBearing, types, objects, gleaf]
  obtain ⟨m, J, m1, m2, m3⟩ := c46_jacobian_partial hε hε1 s _ _ _ hobs hW hok (i := 0)
    (t := ⟨a, ca, .rigid k⟩) rfl (hfirst _ (by simp)) hv
    (hreg _ (by simp [exRange, objects, gleaf]) (by simp [exBearing, objects, gleaf])) (by
      intro x hx o ho h1 h2
      simp only [List.mem_cons, List.not_mem_nil, or_false] at hx
      rcases hx with rfl | rfl <;>
        simp only [exRange, exBearing, objects, gleaf, List.mem_append, List.mem_singleton] at ho
      · rcases ho with rfl | rfl
        · rfl
        · cases h2
      · rcases ho with rfl | rfl | rfl
        · cases h2
        · rfl
        · cases h2)
  obtain ⟨n, K, k1, k2, k3⟩ := c46_jacobian_partial hε hε1 s _ _ _ hobs hW hok (i := 1)
    (t := ⟨b, cb, .vec .trans⟩) rfl (hfirst _ (by simp)) trivial
    (hreg _ (by simp [exRange, objects, gleaf]) (by simp [exBearing, objects, gleaf])) (by
      intro x hx o ho h1 h2
      simp only [List.mem_cons, List.not_mem_nil, or_false] at hx
      rcases hx with rfl | rfl <;>
        simp only [exRange, exBearing, objects, gleaf, List.mem_append, List.mem_singleton] at ho
      · rcases ho with rfl | rfl
        · cases h2
        · rfl
      · rcases ho with rfl | rfl | rfl
        · exact absurd h1.symm hb
        · cases h2
        · rfl)
  have hJs : Js = [⟨.rigid k, m⟩, ⟨.vec .trans, n⟩] := by
    have hlen := (evaluateWithJacobians_stacked s _ _ hok).length_eq
    rcases Js with _ | ⟨x, _ | ⟨y, _ | ⟨w, Js⟩⟩⟩ <;> simp at hlen
    simp only [List.getElem?_cons_zero, List.getElem?_cons_succ, Option.some.injEq] at m1 k1
    rw [m1, k1]
  subst hJs
  exact ⟨r, m, n, J, K, hok, c46_same_residual s _ _ hok, fun i => ⟨m2 i, k2 i⟩, m3, k3⟩

/-- A pose at the origin and a landmark on its first axis at distance 3: the residuals are
`(3 - 2) / (1/10)` and `(π/2 - 1) / (1/5)`. -/
example (s : Store (geoLib ε)) (hT : s 1 (.rigid .mat) = (1 : M4))
    (hl : s 2 (.vec .trans) = (![3, 0, 0] : V3)) (hz : s 10 (.vec .trans) = (![0, 0, 1] : V3)) :
    (exRangeBearing ε .mat 0 1 2 2 1 (1 / 10) (1 / 5)).evaluate s
      [⟨1, 0, .rigid .mat⟩, ⟨2, 1, .vec .trans⟩] =
      some (some fun i : Fin _ => if (i : ℕ) = 0 then (3 - 2) / (1 / 10) else (Real.pi / 2 - 1) / (1 / 5)) := by
  have hd : rigidDen .mat (s 1 (.rigid .mat)) = ⟨1, 0⟩ := by
    rw [hT, rigidDen_mat]
    congr 1
    · ext i j; fin_cases i <;> fin_cases j <;> simp [rotBlock, Fin.castLE]
    · ext i; fin_cases i <;> simp [transBlock, Fin.castLE]
  have hv : ValidRigid .mat (s 1 (.rigid .mat)) := by
    refine ⟨by rw [hd]; exact ⟨by simp, det_one⟩, ?_⟩
    rw [hT]
    ext j
    fin_cases j
    · simp
    · simp
    · simp
    · exact Matrix.one_apply_eq (3 : Fin 4)
  rw [c46_range_bearing s .mat 1 2 0 1 2 2 1 (by norm_num) (by norm_num) ⟨1, 0⟩ ![3, 0, 0] hv hd hl hz
    (by intro h; simpa using congrFun h 0)]
  have h9 : Real.sqrt (sqLen (![-3, 0, 0] : V3)) = 3 := by
    rw [show sqLen (![-3, 0, 0] : V3) = 3 ^ 2 by
      simp [sqLen, dotProduct, Fin.sum_univ_three]; norm_num]
    exact Real.sqrt_sq (by norm_num)
  simp [h9]

end WG
