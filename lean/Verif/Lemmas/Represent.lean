import Verif.Props.Evaluation
import Verif.Lemmas.ElabRegular
import Verif.Lemmas.DiffBox

/-! The trees built for two expressions that differ only in the classes of their leaves have the same
values and the same products of local derivatives along corresponding paths. -/

namespace WG
open Matrix Spec

variable {ε : ℝ} {s : Memory}

/-- Classes that store the same kind of object. -/
inductive Twin : Ty → Ty → Prop
  | vec (k : VK) : Twin (.vec k) (.vec k)
  | point : Twin .point .point
  | rot (k k' : RotK) : Twin (.rot k) (.rot k')
  | rigid (k k' : RigK) : Twin (.rigid k) (.rigid k')

theorem Twin.idx {a b : Ty} (h : Twin a b) : a.Idx = b.Idx := by cases h <;> rfl

theorem Twin.symm {a b : Ty} (h : Twin a b) : Twin b a := by cases h <;> constructor

theorem Twin.trans {a b c : Ty} (h : Twin a b) (h' : Twin b c) : Twin a c := by
  cases h <;> cases h' <;> constructor

theorem Twin.refl (a : Ty) : Twin a a := by rcases a with k | _ | k | k <;> constructor

theorem twin_of_obj {a b : Ty} {v : a.Val} {w : b.Val} (h : obj a v = obj b w) : Twin a b := by
  rcases a with k | _ | k | k <;> rcases b with k' | _ | k' | k' <;>
    simp only [obj, reduceCtorEq, Obj.vec.injEq] at h
  · obtain ⟨rfl, -⟩ := h; constructor
  all_goals constructor

/-- The common index type. -/
def Twin.eqv {a b : Ty} (h : Twin a b) : a.Idx ≃ b.Idx := Equiv.cast h.idx

/-- A block with its rows and columns read as those of the twin classes. -/
def reIdx {a a' b b' : Ty} (h : Twin a a') (g : Twin b b') (A : OMat a.Idx b.Idx) :
    OMat a'.Idx b'.Idx := Option.map (Matrix.reindex h.eqv g.eqv) A

theorem reIdx_mul {a a' b b' c c' : Ty} (h : Twin a a') (g : Twin b b') (k : Twin c c')
    (A : OMat a.Idx b.Idx) (B : OMat b.Idx c.Idx) :
    reIdx h k (A.mul B) = (reIdx h g A).mul (reIdx g k B) := by
  rcases A with _ | A <;> rcases B with _ | B <;> first | rfl | skip
  refine congrArg some ?_
  change (A * B).submatrix _ _ = A.submatrix _ _ * B.submatrix _ _
  rw [Matrix.submatrix_mul_equiv]

theorem reIdx_add {a a' b b' : Ty} (h : Twin a a') (g : Twin b b') (A B : OMat a.Idx b.Idx) :
    reIdx h g (A + B) = reIdx h g A + reIdx h g B := by
  rcases A with _ | A <;> rcases B with _ | B <;> rfl

theorem reIdx_total {a a' b b' : Ty} (h : Twin a a') (g : Twin b b') :
    ∀ As : List (OMat a.Idx b.Idx), total (As.map (reIdx h g)) = reIdx h g (total As)
  | [] => rfl
  | A :: As => by
    have := reIdx_total h g As
    unfold total at this ⊢
    rw [List.map_cons, List.sum_cons, List.sum_cons, this, reIdx_add]

theorem reIdx_symm {a a' b b' : Ty} (h : Twin a a') (g : Twin b b') (A : OMat a.Idx b.Idx) :
    reIdx h.symm g.symm (reIdx h g A) = A := by
  cases h <;> cases g <;> rcases A with _ | A <;> rfl

theorem reIdx_heq {a a' b b' : Ty} (h : Twin a a') (g : Twin b b') (A : OMat a.Idx b.Idx) :
    HEq (reIdx h g A) A := by
  cases h <;> cases g <;> rcases A with _ | A <;> rfl

/-- Two trees with the same value and, occurrence by occurrence, the same products of local
derivatives with respect to `t` and `t'`. -/
structure Pair (s : Memory) (t t' : Target (geoLib ε)) (h : Twin t.ty t'.ty) (x x' : Tree ε) :
    Prop where
  tw : Twin x.1 x'.1
  val : ∃ v v', value (L := geoLib ε) s x.2 = some v ∧ value (L := geoLib ε) s x'.2 = some v' ∧
    Valid x.1 v ∧ Valid x'.1 v' ∧ obj x.1 v = obj x'.1 v'
  occ : occurrences (L := geoLib ε) s t' x'.2 =
    (occurrences (L := geoLib ε) s t x.2).map (reIdx tw h)

variable {t t' : Target (geoLib ε)} {h : Twin t.ty t'.ty}

theorem Pair.symm {x x' : Tree ε} (p : Pair s t t' h x x') : Pair s t' t h.symm x' x := by
  obtain ⟨tw, ⟨v, v', h1, h2, h3, h4, h5⟩, occ⟩ := p
  refine ⟨tw.symm, ⟨v', v, h2, h1, h4, h3, h5.symm⟩, ?_⟩
  rw [occ, List.map_map]
  conv_lhs => rw [← List.map_id (occurrences (L := geoLib ε) s t x.2)]
  exact List.map_congr_left fun A _ => (reIdx_symm tw h A).symm

/-- Equal kinds of results, equal values and equal local derivatives of corresponding direct unary
operations. -/
theorem un_twin {u : Tag1} {a a' : Ty} (tw : Twin a a') {r : (b : Ty) × Un a b}
    {r' : (b : Ty) × Un a' b} (hr : direct1 u a = some r) (hr' : direct1 u a' = some r')
    {v : a.Val} {v' : a'.Val} (hv : Valid a v) (hv' : Valid a' v') (ho : obj a v = obj a' v')
    {y : r.1.Val} {y' : r'.1.Val} (hy : Valid r.1 y) (hy' : Valid r'.1 y')
    (he : evalUn ε r.2 v = some y) (he' : evalUn ε r'.2 v' = some y')
    (hm : UnMeans r.2 (den a v) (den _ y)) (hm' : UnMeans r'.2 (den a' v') (den _ y')) :
    ∃ tw' : Twin r.1 r'.1, obj _ y = obj _ y' ∧
      reIdx tw' tw (jacUn ε r.2 y v) = jacUn ε r'.2 y' v' := by
  cases tw with
  | vec k =>
    rw [hr] at hr'
    cases hr'
    have : v = v' := by simpa [obj] using ho
    subst this
    rw [he] at he'
    cases he'
    refine ⟨.refl _, rfl, ?_⟩
    rcases r with ⟨b, op⟩
    have := reIdx_heq (Twin.refl b) (Twin.vec k) (jacUn ε op y v)
    exact eq_of_heq this
  | point => cases u <;> cases hr
  | rot k k' =>
    have hd : rotDen k v = rotDen k' v' := by simpa [obj] using ho
    cases u <;> try (cases hr; done)
    · cases hr
      cases hr'
      have e : rotDen k y = rotDen k' y' := by
        have h1 : rotDen k v * rotDen k y = 1 := hm
        have h2 : rotDen k' v' * rotDen k' y' = 1 := hm'
        rw [← hd] at h2
        exact (left_inv_eq_right_inv (mul_eq_one_comm.mp h1) h2)
      refine ⟨.rot k k', congrArg Obj.rot e, ?_⟩
      have e' : k.matrix y = k'.matrix y' := by
        rw [← rotDen_eq k y hy, ← rotDen_eq k' y' hy', e]
      change some (-(k.matrix y)) = some (-(k'.matrix y'))
      rw [e']
    · cases k <;> cases hr
      cases k' <;> cases hr'
      have : v = v' := hd
      subst this
      rw [he] at he'
      cases he'
      exact ⟨.vec _, rfl, eq_of_heq (reIdx_heq _ _ _)⟩
    · cases hr
      cases hr'
      have h1 : y = (0 : V3) := hm
      have h2 : y' = (0 : V3) := hm'
      subst h1 h2
      exact ⟨.vec _, rfl, rfl⟩
  | rigid k k' =>
    have hd : rigidDen k v = rigidDen k' v' := by simpa [obj] using ho
    have hR : k.rotMatrix v = k'.rotMatrix v' := by
      have := congrArg Rigid.R hd
      rwa [rigidDen_eq k v hv, rigidDen_eq k' v' hv'] at this
    have hT : k.trans v = k'.trans v' := by
      have := congrArg Rigid.t hd
      rwa [rigidDen_eq k v hv, rigidDen_eq k' v' hv'] at this
    cases u <;> try (cases hr; done)
    · cases hr
      cases hr'
      have e : rigidDen k y = rigidDen k' y' := by
        have h1 : (rigidDen k v).comp (rigidDen k y) = Rigid.id := hm
        have h2 : (rigidDen k' v').comp (rigidDen k' y') = Rigid.id := hm'
        rw [← hd] at h2
        have a1 : (rigidDen k v).R * (rigidDen k y).R = 1 := congrArg Rigid.R h1
        have a2 : (rigidDen k v).R * (rigidDen k' y').R = 1 := congrArg Rigid.R h2
        have b1 : (rigidDen k v).R *ᵥ (rigidDen k y).t + (rigidDen k v).t = 0 := congrArg Rigid.t h1
        have b2 : (rigidDen k v).R *ᵥ (rigidDen k' y').t + (rigidDen k v).t = 0 := congrArg Rigid.t h2
        have c := mul_eq_one_comm.mp a1
        refine Rigid.ext' (left_inv_eq_right_inv c a2) ?_
        have d : (rigidDen k v).R *ᵥ (rigidDen k y).t = (rigidDen k v).R *ᵥ (rigidDen k' y').t :=
          add_right_cancel (b1.trans b2.symm)
        have := congrArg ((rigidDen k y).R *ᵥ ·) d
        simpa [Matrix.mulVec_mulVec, c] using this
      refine ⟨.rigid k k', congrArg Obj.motion e, ?_⟩
      have e1 : k.rotMatrix y = k'.rotMatrix y' := by
        have := congrArg Rigid.R e
        rwa [rigidDen_eq k y hy, rigidDen_eq k' y' hy'] at this
      have e2 : k.trans y = k'.trans y' := by
        have := congrArg Rigid.t e
        rwa [rigidDen_eq k y hy, rigidDen_eq k' y' hy'] at this
      change some (invRigidJac (k.rotMatrix y) (k.trans y)) =
        some (invRigidJac (k'.rotMatrix y') (k'.trans y'))
      rw [e1, e2]
    · cases hr
      cases hr'
      change logRigid ε (k.rotMatrix v) (k.trans v) = some y at he
      change logRigid ε (k'.rotMatrix v') (k'.trans v') = some y' at he'
      rw [hR, hT, he'] at he
      cases he
      refine ⟨.vec _, rfl, ?_⟩
      exact eq_of_heq (reIdx_heq (Twin.vec .twist) (Twin.rigid k k')
        (show OMat (Ty.vec .twist).Idx (Ty.rigid k).Idx from logRigidJac y))
    · cases hr
      cases hr'
      have e : rotDen k.rotK y = rotDen k'.rotK y' := by
        have h1 : rotDen k.rotK y = (rigidDen k v).R := hm
        have h2 : rotDen k'.rotK y' = (rigidDen k' v').R := hm'
        rw [h1, h2, hd]
      exact ⟨.rot _ _, congrArg Obj.rot e, rfl⟩
    · cases hr
      cases hr'
      have e : y = y' := by
        have h1 : y = (rigidDen k v).t := hm
        have h2 : y' = (rigidDen k' v').t := hm'
        rw [h1, h2, hd]
      subst e
      exact ⟨.vec _, rfl, rfl⟩

/-- The same for binary operations. -/
theorem bin_twin {u : Tag2} {a a' b b' : Ty} (tw : Twin a a') (tu : Twin b b')
    {r : (c : Ty) × Bin a b c} {r' : (c : Ty) × Bin a' b' c} (hr : direct2 u a b = some r)
    (hr' : direct2 u a' b' = some r') {v : a.Val} {v' : a'.Val} {w : b.Val} {w' : b'.Val}
    (hv : Valid a v) (hv' : Valid a' v') (hw : Valid b w) (hw' : Valid b' w')
    (ho : obj a v = obj a' v') (ho' : obj b w = obj b' w')
    {y : r.1.Val} {y' : r'.1.Val}
    (he : evalBin r.2 v w = some y) (he' : evalBin r'.2 v' w' = some y')
    (hm : BinMeans r.2 (den a v) (den b w) (den _ y))
    (hm' : BinMeans r'.2 (den a' v') (den b' w') (den _ y')) :
    ∃ tw' : Twin r.1 r'.1, obj _ y = obj _ y' ∧
      reIdx tw' tw (jacL r.2 y v w) = jacL r'.2 y' v' w' ∧
      reIdx tw' tu (jacR r.2 y v w) = jacR r'.2 y' v' w' := by
  have flat : ∀ {a b : Ty} (tw : Twin a a) (tu : Twin b b) {r r' : (c : Ty) × Bin a b c}
      (hr : direct2 u a b = some r) (hr' : direct2 u a b = some r') {v v' : a.Val} {w w' : b.Val}
      (hv : v = v') (hw : w = w') {y : r.1.Val} {y' : r'.1.Val}
      (he : evalBin r.2 v w = some y) (he' : evalBin r'.2 v' w' = some y'),
      ∃ tw' : Twin r.1 r'.1, obj _ y = obj _ y' ∧
      reIdx tw' tw (jacL r.2 y v w) = jacL r'.2 y' v' w' ∧
      reIdx tw' tu (jacR r.2 y v w) = jacR r'.2 y' v' w' := by
    intro a b tw tu r r' hr hr' v v' w w' hv hw y y' he he'
    subst hv hw
    rw [hr] at hr'
    cases hr'
    rw [he] at he'
    cases he'
    exact ⟨.refl _, rfl, eq_of_heq (reIdx_heq _ _ _), eq_of_heq (reIdx_heq _ _ _)⟩
  cases tw with
  | vec k =>
    have e1 : v = v' := by simpa [obj] using ho
    cases tu with
    | vec k' => exact flat _ _ hr hr' e1 (by simpa [obj] using ho') he he'
    | point => exact flat _ _ hr hr' e1 (by simpa [obj] using ho') he he'
    | rot l l' => exfalso; cases u <;> cases k <;> cases hr
    | rigid l l' => exfalso; cases u <;> cases k <;> cases hr
  | point =>
    have e1 : v = v' := by simpa [obj] using ho
    cases tu with
    | vec k' => exact flat _ _ hr hr' e1 (by simpa [obj] using ho') he he'
    | point => exact flat _ _ hr hr' e1 (by simpa [obj] using ho') he he'
    | rot l l' => exfalso; cases u <;> cases hr
    | rigid l l' => exfalso; cases u <;> cases hr
  | rot k k' =>
    have hd : rotDen k v = rotDen k' v' := by simpa [obj] using ho
    have hk : k.matrix v = k'.matrix v' := by
      rw [← rotDen_eq k v hv, ← rotDen_eq k' v' hv', hd]
    cases tu with
    | vec l =>
      have e2 : w = w' := by simpa [obj] using ho'
      subst e2
      cases u <;> cases k <;> cases l <;> cases hr <;> cases k' <;> cases hr'
      all_goals
        have e : y = y' :=
          Eq.trans hm (Eq.trans (congrArg (fun R : M3 => R *ᵥ w) hd) (Eq.symm hm'))
        subst e
        exact ⟨.vec _, rfl, rfl, congrArg some hk⟩
    | point => exfalso; cases u <;> cases k <;> cases hr
    | rigid l l' => exfalso; cases u <;> cases k <;> cases hr
    | rot l l' =>
      have ld : rotDen l w = rotDen l' w' := by simpa [obj] using ho'
      have lk : l.matrix w = l'.matrix w' := by
        rw [← rotDen_eq l w hw, ← rotDen_eq l' w' hw', ld]
      cases u <;> cases k <;> cases l <;> cases hr <;> cases k' <;> cases l' <;> cases hr'
      all_goals
        refine ⟨.rot _ _, congrArg Obj.rot ?_, ?_⟩
        · first
          | exact Eq.trans hm (Eq.trans (congrArg₂ (fun R S : M3 => R * S) hd ld) (Eq.symm hm'))
          | exact Eq.trans hm (Eq.trans (congrArg₂ (fun R S : M3 => S * R) hd ld) (Eq.symm hm'))
        first
        | exact ⟨rfl, congrArg some hk⟩
        | exact ⟨congrArg some lk, rfl⟩
  | rigid k k' =>
    have hd : rigidDen k v = rigidDen k' v' := by simpa [obj] using ho
    have hR : k.rotMatrix v = k'.rotMatrix v' := by
      have := congrArg Rigid.R hd
      rwa [rigidDen_eq k v hv, rigidDen_eq k' v' hv'] at this
    have hT : k.trans v = k'.trans v' := by
      have := congrArg Rigid.t hd
      rwa [rigidDen_eq k v hv, rigidDen_eq k' v' hv'] at this
    cases tu with
    | vec l =>
      have e2 : w = w' := by simpa [obj] using ho'
      subst e2
      cases u <;> cases l <;> cases hr <;> cases hr'
      have e : y = y' := by
        have h1 : y = (rigidDen k v).act w := hm
        have h2 : y' = (rigidDen k' v').act w := hm'
        rw [h1, h2, hd]
      subst e
      exact ⟨.vec _, rfl, rfl, congrArg some hR⟩
    | point => exfalso; cases u <;> cases hr
    | rot l l' => exfalso; cases u <;> cases hr
    | rigid l l' =>
      have ld : rigidDen l w = rigidDen l' w' := by simpa [obj] using ho'
      have lR : l.rotMatrix w = l'.rotMatrix w' := by
        have := congrArg Rigid.R ld
        rwa [rigidDen_eq l w hw, rigidDen_eq l' w' hw'] at this
      have lT : l.trans w = l'.trans w' := by
        have := congrArg Rigid.t ld
        rwa [rigidDen_eq l w hw, rigidDen_eq l' w' hw'] at this
      cases u <;> cases hr <;> cases hr'
      · refine ⟨.rigid _ _, congrArg Obj.motion ?_, rfl, ?_⟩
        · have h1 : rigidDen l y = (rigidDen k v).comp (rigidDen l w) := hm
          have h2 : rigidDen l' y' = (rigidDen k' v').comp (rigidDen l' w') := hm'
          rw [h1, h2, hd, ld]
        · change some (composeRigidJacR (k.rotMatrix v) (k.trans v)) =
            some (composeRigidJacR (k'.rotMatrix v') (k'.trans v'))
          rw [hR, hT]
      · refine ⟨.rigid _ _, congrArg Obj.motion ?_, ?_, rfl⟩
        · have h1 : rigidDen k y = (rigidDen l w).comp (rigidDen k v) := hm
          have h2 : rigidDen k' y' = (rigidDen l' w').comp (rigidDen k' v') := hm'
          rw [h1, h2, hd, ld]
        · change some (composeRigidJacR (l.rotMatrix w) (l.trans w)) =
            some (composeRigidJacR (l'.rotMatrix w') (l'.trans w'))
          rw [lR, lT]

theorem un_pair {a b : Ty} {n : ℕ} (op : Un a b) {x : Expr (geoLib ε) a} (hε : 0 < ε)
    (hreg : RegularAt ε s (.un (L := geoLib ε) n op x)) {v : a.Val}
    (hv : value (L := geoLib ε) s x = some v) (hval : Valid a v) :
    ∃ y, value (L := geoLib ε) s (.un (L := geoLib ε) n op x) = some y ∧ evalUn ε op v = some y ∧
      Valid b y ∧ UnMeans op (den a v) (den b y) ∧
      slopeU (L := geoLib ε) s op x = jacUn ε op y v := by
  obtain ⟨y, h1, h2, h3⟩ := un_sound hε op v hval (hreg.2 v hv)
  refine ⟨y, ?_, h1, h2, h3, ?_⟩
  · change (value (L := geoLib ε) s x).bind _ = _
    rw [hv]; exact h1
  · unfold slopeU
    rw [hv]
    change (evalUn ε op v).bind _ = _
    rw [h1]; rfl

theorem bin_pair {a b c : Ty} {n : ℕ} (op : Bin a b c) {x : Expr (geoLib ε) a}
    {x' : Expr (geoLib ε) b}
    (hreg : RegularAt ε s (.bin (L := geoLib ε) n op x x')) {v : a.Val} {w : b.Val}
    (hv : value (L := geoLib ε) s x = some v) (hval : Valid a v)
    (hw : value (L := geoLib ε) s x' = some w) (hwal : Valid b w) :
    ∃ y, value (L := geoLib ε) s (.bin (L := geoLib ε) n op x x') = some y ∧
      evalBin op v w = some y ∧ Valid c y ∧ BinMeans op (den a v) (den b w) (den c y) ∧
      slopeL (L := geoLib ε) s op x x' = jacL op y v w ∧
      slopeR (L := geoLib ε) s op x x' = jacR op y v w := by
  obtain ⟨y, h1, h2, h3⟩ := bin_sound op v w hval hwal (hreg.2.2 v w hv hw)
  refine ⟨y, ?_, h1, h2, h3, ?_, ?_⟩
  · change (value (L := geoLib ε) s x).bind _ = _
    rw [hv]
    change (value (L := geoLib ε) s x').bind _ = _
    rw [hw]; exact h1
  · unfold slopeL
    rw [hv, hw]
    change (evalBin op v w).bind _ = _
    rw [h1]; rfl
  · unfold slopeR
    rw [hv, hw]
    change (evalBin op v w).bind _ = _
    rw [h1]; rfl

/-- A conversion node changes neither the value nor the products of local derivatives. -/
theorem Pair.conv (hε : 0 < ε) {a b : Ty} {op : Un a b} {x : Expr (geoLib ε) a} {x' : Tree ε}
    (hc : conv1 a b = some op) (hreg : RegularAt ε s (.un (L := geoLib ε) 0 op x))
    (p : Pair s t t' h ⟨a, x⟩ x') :
    Pair s t t' h ⟨b, .un (L := geoLib ε) 0 op x⟩ x' := by
  obtain ⟨tw, ⟨v, v', h1, h2, h3, h4, h5⟩, occ⟩ := p
  obtain ⟨y, k1, -, k3, k4, k5⟩ := un_pair op hε hreg h1 h3
  unfold conv1 at hc
  split at hc
  · cases hc
    refine ⟨(Twin.rot _ _).trans tw, ⟨y, v', k1, h2, k3, h4, ?_⟩, ?_⟩
    · exact (congrArg Obj.rot k4).trans h5
    · rw [occ]
      change _ = ((occurrences (L := geoLib ε) s t x).map (OMat.mul _)).map _
      rw [List.map_map, k5]
      refine List.map_congr_left fun A _ => ?_
      rcases A with _ | A
      · rfl
      · refine eq_of_heq ((reIdx_heq _ _ _).trans (.trans ?_ (reIdx_heq _ _ _).symm))
        refine heq_of_eq (congrArg some ?_)
        exact (Matrix.one_mul (m := Fin 3) A).symm
  · cases hc
    refine ⟨(Twin.rigid _ _).trans tw, ⟨y, v', k1, h2, k3, h4, ?_⟩, ?_⟩
    · exact (congrArg Obj.motion k4).trans h5
    · rw [occ]
      change _ = ((occurrences (L := geoLib ε) s t x).map (OMat.mul _)).map _
      rw [List.map_map, k5]
      refine List.map_congr_left fun A _ => ?_
      rcases A with _ | A
      · rfl
      · refine eq_of_heq ((reIdx_heq _ _ _).trans (.trans ?_ (reIdx_heq _ _ _).symm))
        refine heq_of_eq (congrArg some ?_)
        exact (Matrix.one_mul (m := Fin 3 ⊕ Fin 3) A).symm
  · cases hc

theorem Pair.side (hε : 0 < ε) {a : Ty} {w : Side a} (hw : SideOk w) {x : Expr (geoLib ε) a}
    {x' : Tree ε} (hreg : RegularAt ε s (w.apply x)) (p : Pair s t t' h ⟨a, x⟩ x') :
    Pair s t t' h ⟨w.ty, w.apply x⟩ x' := by
  rcases side_conv hw with rfl | ⟨b, op, rfl, ho⟩
  · exact p
  · exact p.conv hε ho hreg

theorem Pair.sides (hε : 0 < ε) {a a' : Ty} {w : Side a} {w' : Side a'} (hw : SideOk w)
    (hw' : SideOk w') {x : Expr (geoLib ε) a} {x' : Expr (geoLib ε) a'}
    (hreg : RegularAt ε s (w.apply x)) (hreg' : RegularAt ε s (w'.apply x'))
    (p : Pair s t t' h ⟨a, x⟩ ⟨a', x'⟩) :
    Pair s t t' h ⟨w.ty, w.apply x⟩ ⟨w'.ty, w'.apply x'⟩ :=
  ((p.side hε hw hreg).symm.side hε hw' hreg').symm

theorem pair1 (hε : 0 < ε) {u : Tag1} {x x' y y' : Tree ε} (he : elab1 u x = some y)
    (he' : elab1 u x' = some y') (hreg : RegularAt ε s y.2) (hreg' : RegularAt ε s y'.2)
    (p : Pair s t t' h x x') : Pair s t t' h y y' := by
  obtain ⟨w, r, hw, hr, rfl⟩ := elab1_form he
  obtain ⟨w', r', hw', hr', rfl⟩ := elab1_form he'
  obtain ⟨tw, ⟨v, v', h1, h2, h3, h4, h5⟩, occ⟩ := p.sides hε hw hw' hreg.1 hreg'.1
  obtain ⟨z, k1, k2, k3, k4, k5⟩ := un_pair r.2 hε hreg h1 h3
  obtain ⟨z', l1, l2, l3, l4, l5⟩ := un_pair r'.2 hε hreg' h2 h4
  obtain ⟨tw', e1, e2⟩ := un_twin tw hr hr' h3 h4 h5 k3 l3 k2 l2 k4 l4
  refine ⟨tw', ⟨z, z', k1, l1, k3, l3, e1⟩, ?_⟩
  change (occurrences (L := geoLib ε) s t' (w'.apply x'.2)).map (OMat.mul _) =
    ((occurrences (L := geoLib ε) s t (w.apply x.2)).map (OMat.mul _)).map _
  dsimp only at occ
  rw [occ, List.map_map, List.map_map, k5, l5]
  refine List.map_congr_left fun A _ => ?_
  change OMat.mul _ (reIdx tw h A) = reIdx tw' h (OMat.mul _ A)
  exact ((reIdx_mul tw' tw h _ _).trans (congrArg (OMat.mul · _) e2)).symm

theorem pair2 (hε : 0 < ε) {u : Tag2} {x x' y y' z z' : Tree ε} (he : elab2 u x y = some z)
    (he' : elab2 u x' y' = some z') (hreg : RegularAt ε s z.2) (hreg' : RegularAt ε s z'.2)
    (p : Pair s t t' h x x') (q : Pair s t t' h y y') : Pair s t t' h z z' := by
  obtain ⟨w, w2, r, hw, hw2, hr, rfl⟩ := elab2_form he
  obtain ⟨w', w2', r', hw', hw2', hr', rfl⟩ := elab2_form he'
  obtain ⟨tw, ⟨v, v', h1, h2, h3, h4, h5⟩, occ⟩ := p.sides hε hw hw' hreg.1 hreg'.1
  obtain ⟨tu, ⟨f, f', g1, g2, g3, g4, g5⟩, occ'⟩ := q.sides hε hw2 hw2' hreg.2.1 hreg'.2.1
  obtain ⟨m, k1, k2, k3, k4, k5, k6⟩ := bin_pair r.2 hreg h1 h3 g1 g3
  obtain ⟨m', l1, l2, l3, l4, l5, l6⟩ := bin_pair r'.2 hreg' h2 h4 g2 g4
  obtain ⟨tw', e1, e2, e3⟩ := bin_twin tw tu hr hr' h3 h4 g3 g4 h5 g5 k2 l2 k4 l4
  refine ⟨tw', ⟨m, m', k1, l1, k3, l3, e1⟩, ?_⟩
  change (occurrences (L := geoLib ε) s t' (w'.apply x'.2)).map (OMat.mul _) ++
      (occurrences (L := geoLib ε) s t' (w2'.apply y'.2)).map (OMat.mul _) =
    ((occurrences (L := geoLib ε) s t (w.apply x.2)).map (OMat.mul _) ++
      (occurrences (L := geoLib ε) s t (w2.apply y.2)).map (OMat.mul _)).map _
  dsimp only at occ occ'
  rw [occ, occ', List.map_append, List.map_map, List.map_map, List.map_map, List.map_map, k5, l5,
    k6, l6]
  refine congrArg₂ (· ++ ·) (List.map_congr_left fun A _ => ?_) (List.map_congr_left fun A _ => ?_)
  · change OMat.mul _ (reIdx tw h A) = reIdx tw' h (OMat.mul _ A)
    exact ((reIdx_mul tw' tw h _ _).trans (congrArg (OMat.mul · _) e2)).symm
  · change OMat.mul _ (reIdx tu h A) = reIdx tw' h (OMat.mul _ A)
    exact ((reIdx_mul tw' tu h _ _).trans (congrArg (OMat.mul · _) e3)).symm

theorem side_reg_inv {a : Ty} {w : Side a} {x : Expr (geoLib ε) a}
    (hx : RegularAt ε s (w.apply x)) : RegularAt ε s x := by
  cases w with
  | stay => exact hx
  | via b op => exact hx.1

theorem elab1_reg_inv {u : Tag1} {x y : Tree ε} (he : elab1 u x = some y)
    (hreg : RegularAt ε s y.2) : RegularAt ε s x.2 := by
  obtain ⟨w, r, -, -, rfl⟩ := elab1_form he
  exact side_reg_inv hreg.1

theorem elab2_reg_inv {u : Tag2} {x y z : Tree ε} (he : elab2 u x y = some z)
    (hreg : RegularAt ε s z.2) : RegularAt ε s x.2 ∧ RegularAt ε s y.2 := by
  obtain ⟨w, w2, r, -, -, -, rfl⟩ := elab2_form he
  exact ⟨side_reg_inv hreg.1, side_reg_inv hreg.2.1⟩

theorem elabTo_reg_inv {τ : Ty} {x y : Tree ε} (he : elabTo τ x = some y)
    (hreg : RegularAt ε s y.2) : RegularAt ε s x.2 := by
  unfold elabTo at he
  split_ifs at he with hτ
  · subst hτ; cases he; exact hreg
  · obtain ⟨op, ho, rfl⟩ := Option.map_eq_some_iff.mp he
    exact hreg.1

theorem pairTo1 (hε : 0 < ε) {τ : Ty} {x x' y : Tree ε} (he : elabTo τ x = some y)
    (hreg : RegularAt ε s y.2) (p : Pair s t t' h x x') : Pair s t t' h y x' := by
  unfold elabTo at he
  split_ifs at he with hτ
  · subst hτ; cases he; exact p
  · obtain ⟨op, ho, rfl⟩ := Option.map_eq_some_iff.mp he
    exact p.conv hε ho hreg

theorem elabUn_reg_inv {op : UOp} {x y : Tree ε} (he : elabUn op x = some y)
    (hreg : RegularAt ε s y.2) : RegularAt ε s x.2 := by
  cases op <;> first
    | exact elab1_reg_inv he hreg
    | exact elabTo_reg_inv he hreg
    | (unfold elabUn at he
       dsimp only at he
       split_ifs at he
       · cases he; exact hreg
       · exact elab1_reg_inv he hreg)

theorem pairUn (hε : 0 < ε) {op : UOp} (hop : ∀ τ, op ≠ .to τ) {x x' y y' : Tree ε}
    (he : elabUn op x = some y) (he' : elabUn op x' = some y') (hreg : RegularAt ε s y.2)
    (hreg' : RegularAt ε s y'.2) (p : Pair s t t' h x x') : Pair s t t' h y y' := by
  cases op <;> first
    | exact pair1 hε he he' hreg hreg' p
    | exact absurd rfl (hop _)
    | (have e : x.1.isRot = x'.1.isRot := by
         have := p.tw
         generalize x.1 = a, x'.1 = a' at this
         cases this <;> rfl
       unfold elabUn at he he'
       dsimp only at he he'
       rw [← e] at he'
       split_ifs at he he'
       · cases he; cases he'; exact p
       · exact pair1 hε he he' hreg hreg' p)

theorem elabBin_reg_inv {op : BOp} {x y z : Tree ε} (he : elabBin op x y = some z)
    (hreg : RegularAt ε s z.2) : RegularAt ε s x.2 ∧ RegularAt ε s y.2 := by
  unfold elabBin at he
  split at he
  all_goals first
    | exact elab2_reg_inv he hreg
    | (obtain ⟨w, hw, he⟩ := Option.bind_eq_some_iff.mp he
       have := elab2_reg_inv he hreg
       exact ⟨this.1, elab1_reg_inv hw this.2⟩)
    | (obtain ⟨w, hw, he⟩ := Option.bind_eq_some_iff.mp he
       obtain ⟨u, hu, hw⟩ := Option.bind_eq_some_iff.mp hw
       have := elab2_reg_inv hw (elab1_reg_inv he hreg)
       exact ⟨this.1, elab1_reg_inv hu this.2⟩)
    | (cases he; done)

/-- Which of the three shapes a binary operator takes is the same for twin classes (helper). -/
def plan : BOp → Ty → Ty → Option (Tag2 ⊕ Bool)
  | .add, .vec _, .vec _ => some (.inl .sum)
  | .add, .point, .vec _ => some (.inl .sum)
  | .add, .vec _, .point => some (.inl .sum)
  | .add, .rot _, .vec .relrot => some (.inr true)
  | .add, .rigid _, .vec .twist => some (.inr true)
  | .sub, .vec _, .vec _ => some (.inl .subtract)
  | .sub, .point, .vec _ => some (.inl .subtract)
  | .sub, .point, .point => some (.inl .subtract)
  | .sub, .rot _, .rot _ => some (.inr false)
  | .sub, .rigid _, .rigid _ => some (.inr false)
  | .mul, .vec .scalar, .vec .scalar => some (.inl .product)
  | .mul, .vec .scalar, .vec _ => some (.inl .scale)
  | .mul, .vec _, .vec .scalar => some (.inl .scaleR)
  | .mul, .rot _, .rot _ => some (.inl .compose)
  | .mul, .rigid _, .rigid _ => some (.inl .compose)
  | .mul, .rot _, .vec .trans => some (.inl .rotate)
  | .mul, .rigid _, .vec .trans => some (.inl .transform)
  | .div, .vec .scalar, .vec .scalar => some (.inl .divide)
  | .div, .vec _, .vec .scalar => some (.inl .scaleDiv)
  | .dot, .vec _, .vec _ => some (.inl .dot)
  | _, _, _ => none

theorem elabBin_plan (op : BOp) (x y : Tree ε) : elabBin op x y =
    (plan op x.1 y.1).bind fun
      | .inl u => elab2 u x y
      | .inr true => (elab1 .expMap y).bind (elab2 .composeFlipped x)
      | .inr false => ((elab1 .inverse y).bind (elab2 .compose x)).bind (elab1 .logMap) := by
  obtain ⟨a, x⟩ := x
  obtain ⟨b, y⟩ := y
  rcases op with _ | _ | _ | _ | _ <;> rcases a with (_ | _ | _ | _) | _ | _ | _ <;>
    rcases b with (_ | _ | _ | _) | _ | _ | _ <;> rfl

theorem plan_twin {op : BOp} {a a' b b' : Ty} (h : Twin a a') (g : Twin b b') :
    plan op a b = plan op a' b' := by
  cases h <;> cases g <;> cases op <;> first | rfl | (rename_i k; cases k <;> rfl) | (rename_i k _; cases k <;> rfl) |
    (rename_i k _ _; cases k <;> rfl)

theorem pairBin (hε : 0 < ε) {op : BOp} {x x' y y' z z' : Tree ε}
    (he : elabBin op x y = some z) (he' : elabBin op x' y' = some z') (hreg : RegularAt ε s z.2)
    (hreg' : RegularAt ε s z'.2) (p : Pair s t t' h x x') (q : Pair s t t' h y y') :
    Pair s t t' h z z' := by
  rw [elabBin_plan] at he he'
  rw [← plan_twin p.tw q.tw] at he'
  rcases hp : plan op x.1 y.1 with _ | u | _ | _ <;> rw [hp] at he he' <;>
    dsimp only [Option.bind_some, Option.bind_none] at he he'
  · cases he
  · exact pair2 hε he he' hreg hreg' p q
  · obtain ⟨w, hw, he⟩ := Option.bind_eq_some_iff.mp he
    obtain ⟨u, hu, hw⟩ := Option.bind_eq_some_iff.mp hw
    obtain ⟨w', hw', he'⟩ := Option.bind_eq_some_iff.mp he'
    obtain ⟨u', hu', hw'⟩ := Option.bind_eq_some_iff.mp hw'
    have r1 := elab1_reg_inv he hreg
    have r1' := elab1_reg_inv he' hreg'
    have r2 := elab2_reg_inv hw r1
    have r2' := elab2_reg_inv hw' r1'
    exact pair1 hε he he' hreg hreg' (pair2 hε hw hw' r1 r1' p (pair1 hε hu hu' r2.2 r2'.2 q))
  · obtain ⟨w, hw, he⟩ := Option.bind_eq_some_iff.mp he
    obtain ⟨w', hw', he'⟩ := Option.bind_eq_some_iff.mp he'
    exact pair2 hε he he' hreg hreg' p
      (pair1 hε hw hw' (elab2_reg_inv he hreg).2 (elab2_reg_inv he' hreg').2 q)

/-- Corresponding occurrences of `t` and `t'` in two lists of objects. -/
abbrev Align (t t' : Target (geoLib ε)) : List (Target (geoLib ε)) → List (Target (geoLib ε)) → Prop :=
  List.Forall₂ fun u u' => u = t ↔ u' = t'

theorem same_length {e e' : SExpr} (hr : SameUpToRepresentation s e e') :
    (written ε e).length = (written ε e').length := by
  induction hr with
  | leaf => rfl
  | un _ _ _ ih => exact ih
  | evalTo _ _ _ _ ih => exact ih
  | bin _ _ _ i1 i2 =>
    change List.length (_ ++ _) = List.length (_ ++ _)
    rw [List.length_append, List.length_append, i1, i2]
  | dynamicR _ _ _ ih => exact ih
  | dynamicL _ _ ih => exact ih

theorem forall₂_split {A B : Type} {R : A → B → Prop} : ∀ {a : List A} {a' : List B} {b b'},
    a.length = a'.length → List.Forall₂ R (a ++ b) (a' ++ b') →
      List.Forall₂ R a a' ∧ List.Forall₂ R b b'
  | [], [], _, _, _, h => ⟨.nil, h⟩
  | x :: a, y :: a', _, _, hl, h => by
    cases h with
    | cons h1 h2 =>
      obtain ⟨k1, k2⟩ := forall₂_split (Nat.succ.inj hl) h2
      exact ⟨.cons h1 k1, k2⟩

theorem occ_leaf_self {L : Lib} (s : Store L) (a c : ℕ) (τ : L.Ty) :
    occurrences s ⟨a, c, τ⟩ (.leaf a c τ) = [some 1] := by
  unfold occurrences
  rw [dif_pos rfl]
  rfl

theorem occ_leaf_ne {L : Lib} (s : Store L) {a c : ℕ} {τ : L.Ty} {t : Target L}
    (h : (⟨a, c, τ⟩ : Target L) ≠ t) : occurrences s t (.leaf a c τ) = [] := by
  unfold occurrences
  rw [dif_neg h]

theorem same_pair (hε : 0 < ε) {e e' : SExpr} (hr : SameUpToRepresentation s e e') :
    ∀ {x x' : Tree ε}, e.elab ε = some x → e'.elab ε = some x' → RegularAt ε s x.2 →
      RegularAt ε s x'.2 → Align t t' (written ε e) (written ε e') → Pair s t t' h x x' := by
  induction hr with
  | leaf a a' c c' τ τ' hv hv' ho =>
    intro x x' hx hx' _ _ hal
    cases hx
    cases hx'
    refine ⟨twin_of_obj ho, ⟨_, _, rfl, rfl, hv, hv', ho⟩, ?_⟩
    have hal : ((⟨a, c, τ⟩ : Target (geoLib ε)) = t ↔ (⟨a', c', τ'⟩ : Target (geoLib ε)) = t') := by
      cases hal with
      | cons h1 _ => exact h1
    by_cases ht : (⟨a, c, τ⟩ : Target (geoLib ε)) = t
    · have ht' := hal.mp ht
      subst ht
      subst ht'
      refine (occ_leaf_self (L := geoLib ε) s a' c' τ').trans (.trans ?_
        (congrArg (List.map _) (occ_leaf_self (L := geoLib ε) s a c τ)).symm)
      refine congrArg (fun A => [A]) ?_
      refine (congrArg some ?_ : some _ = some _)
      exact (Matrix.submatrix_one_equiv _).symm
    · have ht' := fun k => ht (hal.mpr k)
      exact (occ_leaf_ne (L := geoLib ε) s ht').trans
        (congrArg (List.map _) (occ_leaf_ne (L := geoLib ε) s ht)).symm
  | un op hop _ ih =>
    intro x x' hx hx' hr hr' hal
    obtain ⟨y, hy, hx⟩ := Option.bind_eq_some_iff.mp hx
    obtain ⟨y', hy', hx'⟩ := Option.bind_eq_some_iff.mp hx'
    exact pairUn hε hop hx hx' hr hr'
      (ih hy hy' (elabUn_reg_inv hx hr) (elabUn_reg_inv hx' hr') hal)
  | evalTo τ τ' _ _ ih =>
    intro x x' hx hx' hr hr' hal
    obtain ⟨y, hy, hx⟩ := Option.bind_eq_some_iff.mp hx
    obtain ⟨y', hy', hx'⟩ := Option.bind_eq_some_iff.mp hx'
    have p := ih hy hy' (elabTo_reg_inv hx hr) (elabTo_reg_inv hx' hr') hal
    exact (pairTo1 hε hx' hr' (pairTo1 hε hx hr p).symm).symm
  | bin op i1 i2 ih ih' =>
    intro x x' hx hx' hr hr' hal
    obtain ⟨y, hy, hx⟩ := Option.bind_eq_some_iff.mp hx
    obtain ⟨z, hz, hx⟩ := Option.bind_eq_some_iff.mp hx
    obtain ⟨y', hy', hx'⟩ := Option.bind_eq_some_iff.mp hx'
    obtain ⟨z', hz', hx'⟩ := Option.bind_eq_some_iff.mp hx'
    have r := elabBin_reg_inv hx hr
    have r' := elabBin_reg_inv hx' hr'
    obtain ⟨al, al'⟩ := forall₂_split (same_length i1) hal
    exact pairBin hε hx hx' hr hr' (ih hy hy' r.1 r'.1 al) (ih' hz hz' r.2 r'.2 al')
  | dynamicR a _ _ ih =>
    intro x x' hx hx' hr hr' hal
    obtain ⟨y', hy', rfl⟩ := elab_dynamic hx'
    obtain ⟨tw, val, occ⟩ := ih hx hy' hr hr' hal
    exact ⟨tw, val, occ⟩
  | dynamicL a _ ih =>
    intro x x' hx hx' hr hr' hal
    obtain ⟨y, hy, rfl⟩ := elab_dynamic hx
    obtain ⟨tw, val, occ⟩ := ih hy hx' hr hr' hal
    exact ⟨tw, val, occ⟩

theorem same_twin {e e' : SExpr} (hr : SameUpToRepresentation s e e') {t t' : Target (geoLib ε)} :
    Align t t' (written ε e) (written ε e') → t ∈ written ε e →
      t' ∈ written ε e' ∧ Twin t.ty t'.ty := by
  induction hr with
  | leaf a a' c c' τ τ' hv hv' ho =>
    intro hal ht
    have ht : t = ⟨a, c, τ⟩ := by simpa [written] using ht
    cases hal with
    | cons h1 _ =>
      have ht' := h1.mp ht.symm
      subst ht ht'
      exact ⟨List.mem_singleton.mpr rfl, twin_of_obj ho⟩
  | un op hop _ ih => exact ih
  | evalTo τ τ' _ _ ih => exact ih
  | bin op i1 i2 ih ih' =>
    intro hal ht
    obtain ⟨al, al'⟩ := forall₂_split (same_length i1) hal
    rcases List.mem_append.mp ht with h | h
    · exact ⟨List.mem_append_left _ (ih al h).1, (ih al h).2⟩
    · exact ⟨List.mem_append_right _ (ih' al' h).1, (ih' al' h).2⟩
  | dynamicR a _ _ ih => exact ih
  | dynamicL a _ ih => exact ih

theorem same_total (hε : 0 < ε) {e e' : SExpr} (hr : SameUpToRepresentation s e e')
    {o : Obj} (hm : Means ε s e o) {x x' : Tree ε} (hx : e.elab ε = some x)
    (hx' : e'.elab ε = some x') {t t' : Target (geoLib ε)} (ht : t ∈ written ε e)
    (hal : Align t t' (written ε e) (written ε e')) :
    x.1.Idx = x'.1.Idx ∧ Ty.Idx t.ty = Ty.Idx t'.ty ∧
      HEq (total (occurrences (L := geoLib ε) s t x.2))
        (total (occurrences (L := geoLib ε) s t' x'.2)) := by
  obtain ⟨-, tw⟩ := same_twin hr hal ht
  obtain ⟨tw', -, occ⟩ := same_pair (h := tw) hε hr hx hx' (means_regular hε hm hx)
    (means_regular hε (hr.means hm) hx') hal
  refine ⟨tw'.idx, tw.idx, ?_⟩
  rw [occ]
  refine .trans (reIdx_heq tw' tw _).symm (heq_of_eq ?_)
  exact (reIdx_total tw' tw _).symm

end WG
