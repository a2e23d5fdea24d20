import Verif.Props.Neutral
import Verif.Props.DerivativeUser
import Verif.Lemmas.NeutralPair

/-!
# C53: Identity and Zero in place of ordinary objects leave every Jacobian as it is
-/

namespace WG
open Matrix Spec Filter Topology

variable {ε : ℝ} {s : Memory}

theorem reIdx_some_heq {a a' b b' : Ty} (h : Twin a a') (g : Twin b b') (J : Matrix a.Idx b.Idx ℝ)
    {J' : Matrix a'.Idx b'.Idx ℝ} (k : reIdx h g (some J) = some J') : HEq J J' := by
  cases h <;> cases g <;> exact heq_of_eq (Option.some.inj k)

theorem align_mem {A B : Type} {t : A} {t' : B} : ∀ {l : List A} {l' : List B},
    List.Forall₂ (fun u u' => u = t ↔ u' = t') l l' → t ∈ l → t' ∈ l'
  | _, _, .cons i j, h => by
    rcases List.mem_cons.mp h with h | h
    · exact List.mem_cons.mpr (.inl (i.mp h.symm).symm)
    · exact List.mem_cons.mpr (.inr (align_mem j h))

/-- The sums over the occurrences agree (helper). -/
theorem spelled_total (hε : 0 < ε) {N : ℕ → ℕ} (hN : HoldsNeutral s N) {e : NExpr} {o : Obj}
    (hm : Means ε s (spell N e) o) {f : Kind × Bool} (hf : form e = some f) {x : XTree ε}
    {x' : Tree ε} (hx : e.elab ε = some x) (hx' : (spell N e).elab ε = some x')
    {t : Target (xLib ε)} {t' : Target (geoLib ε)} (htt : XTy.leaf t.ty = t'.ty)
    (hal : List.Forall₂ (fun u u' => u = t ↔ u' = t') (objects x.2) (written ε (spell N e)))
    {J : Matrix (Ty.Idx (XTy.leaf x.1)) (Ty.Idx (XTy.leaf t.ty)) ℝ}
    {J' : Matrix (Ty.Idx x'.1) (Ty.Idx t'.ty) ℝ}
    (hJ : total (occurrences (xmem ε s) t x.2) = some J)
    (hJ' : total (occurrences (L := geoLib ε) s t' x'.2) = some J') :
    (XTy.leaf x.1).Idx = Ty.Idx x'.1 ∧ HEq J J' := by
  have tw : Twin (XTy.leaf t.ty) t'.ty := htt ▸ Twin.refl _
  obtain ⟨tw', -, occ, -⟩ := spell_pair (h := tw) (q := False) hε hN htt e hm hf hx hx' hal
    fun h => h.elim
  refine ⟨tw'.idx, ?_⟩
  have key := Agree.total occ
  change (¬False ∧ total (occurrences (xmem ε s) t x.2) = none) ∨ _ ∨ _ at key
  rcases key with ⟨-, k⟩ | k | k
  · rw [hJ] at k; cases k
  · rw [hJ'] at k; cases k
  · rw [hJ'] at k
    have k' : reIdx tw' tw (some J) = some J' := (congrArg (reIdx tw' tw) hJ).symm.trans k
    exact reIdx_some_heq tw' tw J k'

/-- **C53.** An expression with Identity and Zero objects and the same expression with ordinary objects
in their place that hold the identity and zero have the same Jacobians, wherever both are finite:
with respect to an ordinary object, and with respect to an Identity or Zero object that occurs. -/
theorem c53_same_jacobian (hε : 0 < ε) {N : ℕ → ℕ} (hN : HoldsNeutral s N) {e : NExpr} {o : Obj}
    (hm : Means ε s (spell N e) o) {f : Kind × Bool} (hf : form e = some f) {x : XTree ε}
    {x' : Tree ε} (hx : e.elab ε = some x) (hx' : (spell N e).elab ε = some x')
    {t : Target (xLib ε)} {t' : Target (geoLib ε)} (htt : XTy.leaf t.ty = t'.ty)
    (ht : t ∈ objects x.2)
    (hal : List.Forall₂ (fun u u' => u = t ↔ u' = t') (objects x.2) (written ε (spell N e)))
    (hc : x.2.noProxy ∨ x.2.fwdCompiles t ∧ Distinguished t x.2)
    (hc' : x'.2.noProxy ∨ x'.2.fwdCompiles (L := geoLib ε) t' ∧
      Distinguished (L := geoLib ε) t' x'.2)
    {J : Matrix (Ty.Idx (XTy.leaf x.1)) (Ty.Idx (XTy.leaf t.ty)) ℝ}
    {J' : Matrix (Ty.Idx x'.1) (Ty.Idx t'.ty) ℝ}
    (hJ : x.2.jacobianAuto (xmem ε s) t = some J)
    (hJ' : x'.2.jacobianAuto (L := geoLib ε) s t' = some J') :
    (XTy.leaf x.1).Idx = Ty.Idx x'.1 ∧ HEq J J' := by
  have ht' : t' ∈ objects x'.2 := (elab_written _ hx').1 ▸ align_mem hal ht
  rw [c20_auto (xmem ε s) t x.2 ht hc] at hJ
  rw [c20_auto (L := geoLib ε) s t' x'.2 ht' hc'] at hJ'
  exact spelled_total hε hN hm hf hx hx' htt hal hJ hJ'

/-- **C53.** The same for `evaluateDynamicJacobian`. -/
theorem c53_same_dynamic (hε : 0 < ε) {N : ℕ → ℕ} (hN : HoldsNeutral s N) {e : NExpr} {o : Obj}
    (hm : Means ε s (spell N e) o) {f : Kind × Bool} (hf : form e = some f) {x : XTree ε}
    {x' : Tree ε} (hx : e.elab ε = some x) (hx' : (spell N e).elab ε = some x')
    {t : Target (xLib ε)} {t' : Target (geoLib ε)} (htt : XTy.leaf t.ty = t'.ty)
    (hal : List.Forall₂ (fun u u' => u = t ↔ u' = t') (objects x.2) (written ε (spell N e)))
    (hd : Distinguished t x.2) (hd' : Distinguished (L := geoLib ε) t' x'.2)
    {J : Matrix (Ty.Idx (XTy.leaf x.1)) (Ty.Idx (XTy.leaf t.ty)) ℝ}
    {J' : Matrix (Ty.Idx x'.1) (Ty.Idx t'.ty) ℝ}
    (hJ : x.2.dynJacobian (xmem ε s) t.addr t.ty = some J)
    (hJ' : x'.2.dynJacobian (L := geoLib ε) s t'.addr t'.ty = some J') :
    (XTy.leaf x.1).Idx = Ty.Idx x'.1 ∧ HEq J J' := by
  rw [(c21_dynamic_forward (xmem ε s) t x.2 hd).1] at hJ
  rw [(c21_dynamic_forward (L := geoLib ε) s t' x'.2 hd').1] at hJ'
  exact spelled_total hε hN hm hf hx hx' htt hal hJ hJ'

/-- **C53.** In particular the Jacobian with respect to an object, Identity or Zero or not, is the
derivative of what the expression evaluates to with ordinary objects in place of Identity and
Zero, with respect to the corresponding object. -/
theorem c53_derivative (hε : 0 < ε) (hε1 : ε ≤ 1) {N : ℕ → ℕ} (hN : HoldsNeutral s N) {e : NExpr}
    {o : Obj} (hm : Means ε s (spell N e) o) {f : Kind × Bool} (hf : form e = some f) {x : XTree ε}
    {x' : Tree ε} (hx : e.elab ε = some x) (hx' : (spell N e).elab ε = some x')
    (hn : NonsingularAt ε s x'.2)
    {t : Target (xLib ε)} {t' : Target (geoLib ε)} (htt : XTy.leaf t.ty = t'.ty)
    (ht : t ∈ objects x.2)
    (hal : List.Forall₂ (fun u u' => u = t ↔ u' = t') (objects x.2) (written ε (spell N e)))
    (ho : ∀ u ∈ written ε (spell N e), u.addr = t'.addr → u.ty = t'.ty → u = t')
    (hc : x.2.noProxy ∨ x.2.fwdCompiles t ∧ Distinguished t x.2)
    {J : Matrix (Ty.Idx (XTy.leaf x.1)) (Ty.Idx (XTy.leaf t.ty)) ℝ}
    (hJ : x.2.jacobianAuto (xmem ε s) t = some J) :
    ∃ J' : Matrix (Ty.Idx x'.1) (Ty.Idx t'.ty) ℝ, HEq J J' ∧ IsDerivative (ε := ε) s t' x'.2 J' := by
  have hw := (elab_written _ hx').1
  have ht' : t' ∈ objects x'.2 := hw ▸ align_mem hal ht
  have hreg := means_regular hε hm hx'
  rw [c20_auto (xmem ε s) t x.2 ht hc] at hJ
  obtain ⟨J', hJ'⟩ := slope_some hε hε1 s t' x'.2 hreg hn ht'
  exact ⟨J', (spelled_total hε hN hm hf hx hx' htt hal hJ hJ').2,
    response_deriv hε hε1 s t' x'.2 hreg ht' (hw ▸ ho) hJ'⟩

/-! ## Concrete cases -/

/-- `(Identity<MatrixRotation>() * m) * (v + Zero<Translation>())`. -/
def exBoth : NExpr := .bin .mul (.bin .mul (.neutral 2 7 (.rot .mat)) (.leaf 1 0 (.rot .mat)))
  (.bin .add (.leaf 1 1 (.vec .trans)) (.neutral 3 8 (.vec .trans)))

/-- Its tree with ordinary objects. -/
noncomputable def exPlain : Expr (geoLib ε) (.vec .trans) :=
  .bin (L := geoLib ε) (α := Ty.rot .mat) (β := Ty.vec .trans) 0 Bin.rotateM
    (.bin (L := geoLib ε) (α := Ty.rot .mat) (β := Ty.rot .mat) 0 Bin.composeM
      (.leaf (L := geoLib ε) 9 7 (Ty.rot .mat)) (.leaf (L := geoLib ε) 1 0 (Ty.rot .mat)))
    (.bin (L := geoLib ε) (α := Ty.vec .trans) (β := Ty.vec .trans) 0 (Bin.sum .trans)
      (.leaf (L := geoLib ε) 1 1 (Ty.vec .trans)) (.leaf (L := geoLib ε) 9 8 (Ty.vec .trans)))

theorem exBoth_means : ∃ o, Means dblEps demoN (spell (fun _ => 9) exBoth) o :=
  ⟨_, .rotate (.mulRot (.leaf 9 7 (.rot .mat) (demoN_valid _ _))
    (.leaf 1 0 (.rot .mat) (demoN_valid _ _)))
    (.addVec (.leaf 1 1 (.vec .trans) trivial) (.leaf 9 8 (.vec .trans) trivial))⟩

/-- Non-vacuity of C53: the Jacobian with respect to the Identity object, and its meaning. -/
example : ∃ J J', exTree.jacobianAuto (xmem dblEps demoN) ⟨2, 7, .idRot .mat⟩ = some J ∧
    exPlain.jacobianAuto (L := geoLib dblEps) demoN ⟨9, 7, .rot .mat⟩ = some J' ∧ HEq J J' := by
  obtain ⟨o, hm⟩ := exBoth_means
  have h1 : ∃ J, (exTree (ε := dblEps)).jacobianAuto (xmem dblEps demoN)
      ⟨2, 7, .idRot .mat⟩ = some J := by
    rw [c20_auto (xmem dblEps demoN) _ exTree (by simp [exTree, objects]) (.inl rfl)]
    exact ⟨_, rfl⟩
  have h2 : ∃ J, (exPlain (ε := dblEps)).jacobianAuto (L := geoLib dblEps) demoN
      ⟨9, 7, .rot .mat⟩ = some J := by
    rw [c20_auto (L := geoLib dblEps) demoN _ exPlain (by simp [exPlain, objects]) (.inl rfl)]
    exact ⟨_, rfl⟩
  obtain ⟨J, hJ⟩ := h1
  obtain ⟨J', hJ'⟩ := h2
  refine ⟨J, J', hJ, hJ', (c53_same_jacobian dblEps_pos demoN_neutral (e := exBoth) hm rfl
    (x := ⟨_, exTree⟩) (x' := ⟨_, exPlain⟩) rfl rfl rfl (by simp [exTree, objects]) ?_ (.inl rfl)
    (.inl rfl) hJ hJ').2⟩
  exact .cons ⟨fun _ => rfl, fun _ => rfl⟩ (.cons ⟨fun h => (by cases h), fun h => (by cases h)⟩
    (.cons ⟨fun h => (by cases h), fun h => (by cases h)⟩
      (.cons ⟨fun h => (by cases h), fun h => (by cases h)⟩ .nil)))

end WG
