import Verif.Lemmas.FrameNames

/-! Labels of an accepted expression name its value. -/

namespace WG
open Matrix Spec

variable {ε : ℝ} {s : Memory} {P : Arrangement}

theorem names_unframed_two {o : Obj} {τ : Ty} {l r : Frame} {h : Labels} (hw : wrap2 τ l r = some h)
    (hl : l = none) (hr : r = none) (hk : o.kindOk τ) : Names P h o := by
  cases wrap2_two hw
  subst hl hr
  refine names_unframed (τ := τ) ?_ ⟨rfl, rfl⟩ hk
  unfold wrap2 at hw
  split_ifs at hw with h1
  simpa [Labels.fits] using h1

theorem names_unframed_three {k : VK} {x : k.Idx → ℝ} {l m r : Frame} {h : Labels}
    (hw : wrap3 (.vec k) l m r = some h) (hl : l = none) (hm : m = none) (hr : r = none) :
    Names P h (.vec k x) := by
  cases wrap3_vec hw
  subst hl hr hm
  exact names_vec_bare

theorem Unframed.frames {f : Labels} (h : Unframed f) :
    f.left = none ∧ f.middle = none ∧ f.right = none := by
  rcases f with ⟨l, r⟩ | ⟨l, m, r⟩
  · exact ⟨h.1, h.1, h.2⟩
  · exact h

theorem names_scalar {f h : Labels} {x y : Fin 1 → ℝ} (hx : Names P f (.vec .scalar x))
    (hs : wrap3 (.vec .scalar) f.left f.middle f.right = some h) : Names P h (.vec .scalar y) := by
  cases wrap3_vec hs
  rcases names_vec hx with rfl | ⟨a, b, c, rfl, -⟩
  · exact names_vec_bare
  · trivial

theorem names_neg {k : VK} {f h : Labels} {x : k.Idx → ℝ} (hx : Names P f (.vec k x))
    (hs : minusLabels (.vec k) f = some h) : Names P h (.vec k (-x)) := by
  rcases names_vec hx with rfl | ⟨a, b, c, rfl, nx⟩
  · cases wrap3_vec hs; exact names_vec_bare
  · cases wrap3_vec hs; exact names_vec_mk nx.neg

/-- The main induction. -/
theorem names_main (hε : 0 < ε) : (e : FExpr) → {x : Tree ε} → {f : Labels} → {o : Obj} →
    e.build ε = some (x, f) → Means ε s e.erase o → e.LeavesNamed P s → Careful ε e → Names P f o
  | .leaf a τ g, x, f, o, hb, hm, hl, _ => by
    change (if _ then _ else _) = _ at hb
    split_ifs at hb
    cases hb
    cases hm
    exact hl
  | .un op e, x, f, o, hb, hm, hl, hc => by
    have hk := build_kind hε hb hm
    obtain ⟨⟨y, g⟩, hy, hb⟩ := Option.bind_eq_some_iff.mp hb
    obtain ⟨z, hz, hb⟩ := Option.bind_eq_some_iff.mp hb
    obtain ⟨f', hf, hb⟩ := Option.map_eq_some_iff.mp hb
    obtain ⟨rfl, rfl⟩ := Prod.mk.inj hb
    obtain ⟨hc, hfa⟩ := hc
    have hfa := hfa _ _ hy
    have ih := fun {o} (h : Means ε s e.erase o) => names_main hε e hy h hl hc
    change labelUn op g z.1 = some f' at hf
    change Means ε s (.un op e.erase) o at hm
    cases hm with
    | evalTo τ h hk' => cases hf
    | neg h =>
      obtain hk : z.1 = _ := hk
      rw [hk] at hf
      exact names_neg (ih h) hf
    | squaredNorm h _ => cases hf; exact names_bare hk
    | norm h _ => cases hf; exact names_bare hk
    | normalized h _ => cases hf; exact names_bare hk
    | acos h _ _ => cases hf; exact names_bare hk
    | inverseRot h =>
      cases wrap2_two hf
      rcases names_rot (ih h) with rfl | ⟨a, b, rfl, rfl⟩
      · trivial
      · exact rotation_inv ..
    | inverseMotion h hTS =>
      cases wrap2_two hf
      rcases names_motion (ih h) with rfl | ⟨a, b, rfl, rfl⟩
      · trivial
      · exact comp_inv_unique (rotation_proper ..) hTS ((motion_comp ..).trans (motion_self ..))
    | expRot h _ => exact names_unframed_two hf (Unframed.frames hfa).1 (Unframed.frames hfa).1 hk
    | expMotion h _ _ => exact names_unframed_two hf (Unframed.frames hfa).1 (Unframed.frames hfa).1 hk
    | logRot h _ _ =>
      obtain hk : z.1 = _ := hk
      rw [hk] at hf
      have hu := Unframed.frames hfa
      exact names_unframed_three hf hu.1 hu.1 hu.2.2
    | logMotion h _ _ _ =>
      obtain hk : z.1 = _ := hk
      rw [hk] at hf
      have hu := Unframed.frames hfa
      exact names_unframed_three hf hu.1 hu.1 hu.2.2
    | rotationRot h =>
      cases wrap2_two hf
      rcases names_rot (ih h) with rfl | ⟨a, b, rfl, rfl⟩
      · trivial
      · rfl
    | translationRot h =>
      obtain ⟨l, hl'⟩ := build_kind hε hy h
      obtain hk : z.1 = _ := hk
      rw [hk] at hf
      cases wrap3_vec hf
      obtain ⟨τ, p⟩ := y
      cases hl'
      rcases names_rot (ih h) with rfl | ⟨a, b, rfl, rfl⟩
      · trivial
      · cases hfa
        exact (vector_self P a a).symm
    | rotation h =>
      cases wrap2_two hf
      rcases names_motion (ih h) with rfl | ⟨a, b, rfl, rfl⟩
      · trivial
      · rfl
    | translation h =>
      obtain hk : z.1 = _ := hk
      rw [hk] at hf
      cases wrap3_vec hf
      rcases names_motion (ih h) with rfl | ⟨a, b, rfl, rfl⟩
      · trivial
      · rfl
  | .logFramed k e, x, f, o, hb, hm, hl, hc => by
    have hk := build_kind hε hb hm
    obtain ⟨⟨y, g⟩, hy, hb⟩ := Option.bind_eq_some_iff.mp hb
    obtain ⟨z, hz, hb⟩ := Option.bind_eq_some_iff.mp hb
    obtain ⟨f', hf, hb⟩ := Option.map_eq_some_iff.mp hb
    obtain ⟨rfl, rfl⟩ := Prod.mk.inj hb
    obtain ⟨hc, rfl, hfa⟩ := hc
    have hu := Unframed.frames (hfa _ _ hy)
    change Means ε s (.un .log e.erase) o at hm
    change logLabels z.1 _ g = _ at hf
    cases hm with
    | logRot h _ _ =>
      obtain hk : z.1 = _ := hk
      rw [hk] at hf
      exact names_unframed_three hf hu.1 hu.1 rfl
    | logMotion h _ _ _ =>
      obtain hk : z.1 = _ := hk
      rw [hk] at hf
      exact names_unframed_three hf hu.1 hu.1 rfl
  | .bin op l r, x, f, o, hb, hm, hl, hc => by
    have hk := build_kind hε hb hm
    obtain ⟨⟨⟨α, p⟩, g⟩, hy, hb⟩ := Option.bind_eq_some_iff.mp hb
    obtain ⟨⟨⟨β, q⟩, g'⟩, hy', hb⟩ := Option.bind_eq_some_iff.mp hb
    obtain ⟨z, hz, hb⟩ := Option.bind_eq_some_iff.mp hb
    obtain ⟨f', hf, hb⟩ := Option.map_eq_some_iff.mp hb
    obtain ⟨rfl, rfl⟩ := Prod.mk.inj hb
    obtain ⟨hcl, hcr, hfa⟩ := hc
    have hfa := hfa _ _ _ _ hy hy'
    have ihl := fun {o} (h : Means ε s l.erase o) => names_main hε l hy h hl.1 hcl
    have ihr := fun {o} (h : Means ε s r.erase o) => names_main hε r hy' h hl.2 hcr
    have kl := fun {o} (h : Means ε s l.erase o) => build_kind hε hy h
    have kr := fun {o} (h : Means ε s r.erase o) => build_kind hε hy' h
    change labelBin op α β g g' z.1 = some f' at hf
    change Faithful2 op α β g g' at hfa
    change Means ε s (.bin op l.erase r.erase) o at hm
    cases hm with
    | addVec h h' =>
      obtain rfl : α = _ := kl h
      obtain rfl : β = _ := kr h'
      obtain hk : z.1 = _ := hk
      rw [hk] at hf
      exact names_sum (ihl h) (ihr h') hf
    | subVec h h' =>
      obtain rfl : α = _ := kl h
      obtain rfl : β = _ := kr h'
      obtain hk : z.1 = _ := hk
      rw [hk] at hf
      exact names_sub (ihl h) (ihr h') hf
    | @mulScalarVec _ _ k _ _ h h' =>
      obtain rfl : α = _ := kl h
      obtain rfl : β = _ := kr h'
      obtain hk : z.1 = _ := hk
      rw [hk] at hf
      by_cases hs : k = .scalar
      · subst hs
        exact names_scalar (ihl h) hf
      · have hu := Unframed.frames (hfa.resolve_left fun h => hs (Ty.vec.inj h))
        have hf : wrap3 (.vec k) g'.left g'.middle g'.right = some f' := by
          cases k <;> first | exact absurd rfl hs | exact hf
        exact names_unframed_three hf hu.1 hu.2.1 hu.2.2
    | @mulVecScalar _ _ k _ _ h h' =>
      obtain rfl : α = _ := kl h
      obtain rfl : β = _ := kr h'
      obtain hk : z.1 = _ := hk
      rw [hk] at hf
      by_cases hs : k = .scalar
      · subst hs
        exact names_scalar (ihl h) hf
      · have hu : Unframed g := by cases k <;> first | exact absurd rfl hs | exact hfa
        have hu := Unframed.frames hu
        have hf : wrap3 (.vec k) g.left g.middle g.right = some f' := by
          cases k <;> first | exact absurd rfl hs | exact hf
        exact names_unframed_three hf hu.1 hu.2.1 hu.2.2
    | @divVec _ _ k _ _ h h' _ =>
      obtain rfl : α = _ := kl h
      obtain rfl : β = _ := kr h'
      obtain hk : z.1 = _ := hk
      rw [hk] at hf
      by_cases hs : k = .scalar
      · subst hs
        exact names_scalar (ihl h) hf
      · have hu : Unframed g := by cases k <;> first | exact absurd rfl hs | exact hfa
        have hu := Unframed.frames hu
        exact names_unframed_three hf hu.1 hu.2.1 hu.2.2
    | dot h h' => cases hf; exact names_bare hk
    | addPointVec h h' =>
      obtain rfl : α = _ := kl h
      obtain rfl : β = _ := kr h'
      obtain hk : z.1 = _ := hk
      rw [hk] at hf
      exact names_addPV (ihl h) (ihr h') hf
    | addVecPoint h h' =>
      obtain rfl : α = _ := kl h
      obtain rfl : β = _ := kr h'
      obtain hk : z.1 = _ := hk
      rw [hk] at hf
      exact names_addVP (ihl h) (ihr h') hf
    | subPoint h h' =>
      obtain rfl : α = _ := kl h
      obtain rfl : β = _ := kr h'
      obtain hk : z.1 = _ := hk
      rw [hk] at hf
      exact names_subPP (ihl h) (ihr h') hf
    | subPointVec h h' =>
      obtain rfl : α = _ := kl h
      obtain rfl : β = _ := kr h'
      obtain hk : z.1 = _ := hk
      rw [hk] at hf
      exact names_subPV (ihl h) (ihr h') hf
    | mulRot h h' =>
      obtain ⟨k, rfl⟩ := kl h
      obtain ⟨k', rfl⟩ := kr h'
      change composeLabels _ g g' = _ at hf
      unfold composeLabels at hf
      split_ifs at hf with h1
      cases wrap2_two hf
      rcases names_rot (ihl h) with rfl | ⟨a, b, rfl, rfl⟩ <;>
        rcases names_rot (ihr h') with rfl | ⟨a', b', rfl, rfl⟩ <;> cases h1
      · trivial
      · exact rotation_comp ..
    | mulMotion h h' =>
      obtain ⟨k, rfl⟩ := kl h
      obtain ⟨k', rfl⟩ := kr h'
      change composeLabels _ g g' = _ at hf
      unfold composeLabels at hf
      split_ifs at hf with h1
      cases wrap2_two hf
      rcases names_motion (ihl h) with rfl | ⟨a, b, rfl, rfl⟩ <;>
        rcases names_motion (ihr h') with rfl | ⟨a', b', rfl, rfl⟩ <;> cases h1
      · trivial
      · exact motion_comp ..
    | rotate h h' =>
      obtain ⟨k, rfl⟩ := kl h
      obtain rfl : β = _ := kr h'
      obtain hk : z.1 = _ := hk
      rw [hk] at hf
      change rotateLabels _ g g' = _ at hf
      unfold rotateLabels at hf
      split_ifs at hf with h1
      cases wrap3_vec hf
      rcases names_rot (ihl h) with rfl | ⟨a, b, rfl, rfl⟩ <;>
        rcases names_vec (ihr h') with rfl | ⟨a', b', c', rfl, ny⟩ <;> cases h1
      · trivial
      · cases ny
        exact rotation_vector ..
    | act h h' =>
      obtain ⟨k, rfl⟩ := kl h
      obtain rfl : β = _ := kr h'
      obtain hk : z.1 = _ := hk
      rw [hk] at hf
      have hp : g'.middle = g'.left := hfa.resolve_left fun h => by obtain ⟨k, h⟩ := h; cases h
      change transformLabels _ g g' = _ at hf
      unfold transformLabels at hf
      split_ifs at hf with h1
      cases wrap3_vec hf
      rcases names_motion (ihl h) with rfl | ⟨a, b, rfl, rfl⟩ <;>
        rcases names_vec (ihr h') with rfl | ⟨a', b', c', rfl, ny⟩ <;> cases h1
      · trivial
      · cases hp
        cases ny
        exact motion_act ..
    | boxPlusRot h h' _ =>
      obtain ⟨k, rfl⟩ := kl h
      have hu := Unframed.frames hfa
      change boxPlusLabels _ g g' = _ at hf
      unfold boxPlusLabels at hf
      split_ifs at hf with h1
      obtain ⟨w, hw, hf⟩ := Option.bind_eq_some_iff.mp hf
      cases wrap2_two hw
      split_ifs at hf with h2
      exact names_unframed_two hf (h1.1.symm.trans hu.1) hu.2.2 hk
    | boxPlusMotion h h' _ _ =>
      obtain ⟨k, rfl⟩ := kl h
      have hu := Unframed.frames hfa
      change boxPlusLabels _ g g' = _ at hf
      unfold boxPlusLabels at hf
      split_ifs at hf with h1
      obtain ⟨w, hw, hf⟩ := Option.bind_eq_some_iff.mp hf
      cases wrap2_two hw
      split_ifs at hf with h2
      exact names_unframed_two hf (h1.1.symm.trans hu.1) hu.2.2 hk
    | boxMinusRot h h' _ _ _ =>
      obtain ⟨k, rfl⟩ := kl h
      have hu := Unframed.frames hfa
      change boxMinusLabels _ _ g g' = _ at hf
      unfold boxMinusLabels at hf
      obtain hk : z.1 = _ := hk
      rw [hk] at hf
      split_ifs at hf with h1
      obtain ⟨w, hw, hf⟩ := Option.bind_eq_some_iff.mp hf
      obtain ⟨v, hv, hw⟩ := Option.bind_eq_some_iff.mp hw
      unfold composeLabels at hw
      split_ifs at hw with h2
      cases wrap2_two hw
      exact names_unframed_three hf hu.1 hu.1 (h1.2.symm.trans hu.2.2)
    | boxMinusMotion h h' _ _ _ _ =>
      obtain ⟨k, rfl⟩ := kl h
      have hu := Unframed.frames hfa
      change boxMinusLabels _ _ g g' = _ at hf
      unfold boxMinusLabels at hf
      obtain hk : z.1 = _ := hk
      rw [hk] at hf
      split_ifs at hf with h1
      obtain ⟨w, hw, hf⟩ := Option.bind_eq_some_iff.mp hf
      obtain ⟨v, hv, hw⟩ := Option.bind_eq_some_iff.mp hw
      unfold composeLabels at hw
      split_ifs at hw with h2
      cases wrap2_two hw
      exact names_unframed_three hf hu.1 hu.1 (h1.2.symm.trans hu.2.2)
  | .store τ g e, x, f, o, hb, hm, hl, hc => by
    obtain ⟨⟨y, g'⟩, hy, hb⟩ := Option.bind_eq_some_iff.mp hb
    dsimp only at hb
    split_ifs at hb with h1
    obtain ⟨z, hz, hb⟩ := Option.map_eq_some_iff.mp hb
    obtain ⟨rfl, rfl⟩ := Prod.mk.inj hb
    change Means ε s (.un (.to τ) e.erase) o at hm
    cases hm with
    | evalTo _ h _ => exact h1 ▸ names_main hε e hy h hl hc
  | .cast g e, x, f, o, hb, hm, hl, hc => by
    have hk := build_kind hε hb hm
    obtain ⟨⟨y, g'⟩, hy, hb⟩ := Option.bind_eq_some_iff.mp hb
    dsimp only at hb
    split_ifs at hb with h1
    obtain ⟨rfl, rfl⟩ := Prod.mk.inj (Option.some.inj hb)
    rcases hc.2 with h | ⟨w, hw⟩
    · exact names_unframed h1 h hk
    · exact names_main hε e hw hm hl hc.1
  | .dynamic a e, x, f, o, hb, hm, hl, hc => by
    obtain ⟨⟨y, g'⟩, hy, hb⟩ := Option.bind_eq_some_iff.mp hb
    obtain ⟨z, hz, hb⟩ := Option.map_eq_some_iff.mp hb
    obtain ⟨rfl, rfl⟩ := Prod.mk.inj hb
    obtain ⟨-, rfl⟩ := wrapDynamic_some hz
    change Means ε s (.dynamic a e.erase) o at hm
    cases hm with
    | dynamic _ _ h => exact names_main hε e hy h hl hc

end WG
