import Verif.Lemmas.NeutralPair

/-! # Where Jacobians of expressions with Identity and Zero exist -/

namespace WG
open Matrix Spec

variable {ε : ℝ} {s : Memory} {t : Target (xLib ε)}

theorem omat_mul_none {m n p : Type} [Fintype n] (A : OMat m n) : OMat.mul A (none : OMat n p) = none := by
  cases A <;> rfl

theorem total_none {m n : Type} : ∀ {l : List (OMat m n)}, none ∈ l → total l = none
  | A :: l, h => by
    unfold total
    rw [List.sum_cons]
    rcases List.mem_cons.mp h with rfl | h
    · rfl
    · have := total_none h
      unfold total at this
      rw [this]
      cases A <;> rfl

theorem none_map {m n p : Type} [Fintype n] {B : OMat m n} {l : List (OMat n p)} (h : none ∈ l) :
    none ∈ l.map (OMat.mul B) :=
  List.mem_map.mpr ⟨none, h, omat_mul_none B⟩

theorem xside_none {a : XTy} {w : XSide a} {x : Expr (xLib ε) a}
    (h0 : none ∈ occurrences (xmem ε s) t x) : none ∈ occurrences (xmem ε s) t (w.apply x) := by
  cases w with
  | stay => exact h0
  | via b op => exact none_map h0

theorem xelab1_none {u : Tag1} {x y : XTree ε} (he : xelab1 u x = some y)
    (h0 : none ∈ occurrences (xmem ε s) t x.2) : none ∈ occurrences (xmem ε s) t y.2 := by
  obtain ⟨w, r, -, -, rfl⟩ := xelab1_form he
  exact none_map (xside_none h0)

theorem xelab2_none {u : Tag2} {x y z : XTree ε} (he : xelab2 u x y = some z)
    (h0 : none ∈ occurrences (xmem ε s) t x.2 ∨ none ∈ occurrences (xmem ε s) t y.2) :
    none ∈ occurrences (xmem ε s) t z.2 := by
  obtain ⟨w, w', r, -, -, -, -, rfl⟩ := xelab2_form he
  refine List.mem_append.mpr (h0.imp (fun h0 => ?_) fun h0 => ?_)
  · exact none_map (xside_none h0)
  · exact none_map (xside_none h0)

theorem xelabUn_none {op : UOp} {x y : XTree ε} (he : xelabUn op x = some y)
    (h0 : none ∈ occurrences (xmem ε s) t x.2) : none ∈ occurrences (xmem ε s) t y.2 := by
  cases op with
  | «to» τ =>
    change xelabTo τ x = some y at he
    unfold xelabTo at he
    split_ifs at he with hc
    · obtain ⟨a, x⟩ := x
      dsimp only at hc
      subst hc
      cases he
      exact h0
    · obtain ⟨u, hu, he⟩ := firstConv1_mem he
      obtain ⟨op, hop, rfl⟩ := Option.map_eq_some_iff.mp he
      exact none_map (xside_none h0)
  | rotation =>
    unfold xelabUn at he
    dsimp only at he
    split_ifs at he
    · cases he; exact h0
    · exact xelab1_none he h0
  | _ => exact xelab1_none he h0

theorem xelabBin_none {op : BOp} {x y z : XTree ε} (he : xelabBin op x y = some z)
    (h0 : none ∈ occurrences (xmem ε s) t x.2 ∨ none ∈ occurrences (xmem ε s) t y.2) :
    none ∈ occurrences (xmem ε s) t z.2 := by
  rw [xelabBin_plan] at he
  rcases hp : plan op x.1.leaf y.1.leaf with _ | u | _ | _ <;> rw [hp] at he <;>
    dsimp only [Option.bind_some, Option.bind_none] at he
  · cases he
  · exact xelab2_none he h0
  · obtain ⟨w, hw, he⟩ := Option.bind_eq_some_iff.mp he
    obtain ⟨u, hu, hw⟩ := Option.bind_eq_some_iff.mp hw
    exact xelab1_none he (xelab2_none hw (h0.imp id (xelab1_none hu)))
  · obtain ⟨w, hw, he⟩ := Option.bind_eq_some_iff.mp he
    exact xelab2_none he (h0.imp id (xelab1_none hw))

theorem none_of_mul_none {m n p : Type} [Fintype n] {l : List (OMat n p)} (h : l ≠ []) :
    (none : OMat m p) ∈ l.map (OMat.mul none) := by
  obtain ⟨A, l, rfl⟩ := List.exists_cons_of_ne_nil h
  exact List.mem_cons.mpr (.inl rfl)

/-- `Identity * v`. -/
theorem keepR_none {a b : XTy} {u : Tag2} (p : Expr (xLib ε) a) (r : Expr (xLib ε) b)
    (hu : u = .rotate ∨ u = .transform)
    (h0 : occurrences (xmem ε s) t r ≠ []) :
    none ∈ occurrences (xmem ε s) t (.bin (L := xLib ε) 0 (.keepR u a b : XBin a b b) p r) := by
  have hs : slopeR (xmem ε s) (.keepR u a b : XBin a b b) p r = none := by
    unfold slopeR
    cases value (xmem ε s) p with
    | none => rfl
    | some v =>
      cases value (xmem ε s) r with
      | none => rfl
      | some w => rcases hu with rfl | rfl <;> rfl
  refine List.mem_append.mpr (.inr ?_)
  rw [hs]
  exact none_of_mul_none h0

theorem xkind_rot {a : XTy} (h : xkind a = (.rot, true)) : ∃ k, a = .idRot k := by
  rcases a with τ | k | k | k | _ <;> simp [xkind, XTy.leaf, XTy.wrapper, Kind.ofTy] at h ⊢

theorem xkind_motion {a : XTy} (h : xkind a = (.motion, true)) : ∃ k, a = .idRigid k := by
  rcases a with τ | k | k | k | _ <;> simp [xkind, XTy.leaf, XTy.wrapper, Kind.ofTy] at h ⊢

theorem xkind_trans' {a : XTy} (h : xkind a = (.vec .trans, false)) : a = .plain (.vec .trans) := by
  rcases a with (k | _ | k | k) | k | k | k | _ <;>
    simp [xkind, XTy.leaf, XTy.wrapper, Kind.ofTy] at h ⊢
  exact h

theorem noRight_none {op : BOp} {x y z : XTree ε} (he : xelabBin op x y = some z)
    (h : noRight op (xkind x.1) (xkind y.1)) (h0 : occurrences (xmem ε s) t y.2 ≠ []) :
    none ∈ occurrences (xmem ε s) t z.2 := by
  obtain ⟨a, x⟩ := x
  obtain ⟨b, y⟩ := y
  dsimp only at h h0
  unfold noRight at h
  split at h
  · next h1 h2 =>
    obtain ⟨k, rfl⟩ := xkind_rot h1
    obtain rfl := xkind_trans' h2
    cases k <;> cases he <;> exact keepR_none x y (.inl rfl) h0
  · next h1 h2 =>
    obtain ⟨k, rfl⟩ := xkind_motion h1
    obtain rfl := xkind_trans' h2
    cases k <;> cases he <;> exact keepR_none x y (.inr rfl) h0
  · exact h.elim

/-- A blocked object has an occurrence along which a factor is missing. -/
theorem blocked_none (hε : 0 < ε) {N : ℕ → ℕ} (hN : HoldsNeutral s N) {n c : ℕ} {σ : Ty} :
    (e : NExpr) → {o : Obj} → {f : Kind × Bool} → Means ε s (spell N e) o → form e = some f →
      {x : XTree ε} → e.elab ε = some x → Blocked n c σ e →
        none ∈ occurrences (xmem ε s) (⟨n, c, .plain σ⟩ : Target (xLib ε)) x.2
  | .leaf _ _ _, _, _, _, _, _, _, hb => hb.elim
  | .neutral _ _ _, _, _, _, _, _, _, hb => hb.elim
  | .un op e, o, f, hm, hf, x, hx, hb => by
    rcases elab_un_cases hx with ⟨a, c, τ, hτ, rfl, rfl, rfl⟩ | ⟨a, c, τ, hτ, rfl, rfl, rfl⟩ | ⟨y, hy, hx⟩
    · exact hb.elim
    · exact hb.elim
    · obtain ⟨o', hm'⟩ := means_un_inv hm
      obtain ⟨f', hf', -⟩ := Option.bind_eq_some_iff.mp hf
      exact xelabUn_none hx (blocked_none hε hN e hm' hf' hy hb)
  | .bin op l r, o, f, hm, hf, x, hx, hb => by
    obtain ⟨y, hy, hx⟩ := Option.bind_eq_some_iff.mp hx
    obtain ⟨z, hz, hx⟩ := Option.bind_eq_some_iff.mp hx
    obtain ⟨⟨o1, hm1⟩, o2, hm2⟩ := means_bin_inv hm
    obtain ⟨f1, hf1, hf⟩ := Option.bind_eq_some_iff.mp hf
    obtain ⟨f2, hf2, hf⟩ := Option.bind_eq_some_iff.mp hf
    have k1 := form_xkind hε hN hm1 hf1 hy
    have k2 := form_xkind hε hN hm2 hf2 hz
    rcases hb with hb | hb | ⟨g1, g2, hg1, hg2, hb⟩
    · exact xelabBin_none hx (.inl (blocked_none hε hN l hm1 hf1 hy hb))
    · exact xelabBin_none hx (.inr (blocked_none hε hN r hm2 hf2 hz hb))
    · rw [hf1] at hg1
      rw [hf2] at hg2
      cases hg1
      cases hg2
      exact noRight_none hx (k1 ▸ k2 ▸ hb.1) fun h =>
        (occ_nil_iff _ _ _).mp h ((mentions_iff r hz).mpr hb.2)
  | .dynamic a e, o, f, hm, hf, x, hx, hb => by
    obtain ⟨y, hy, rfl⟩ := dynamic_inv hx
    obtain ⟨f', hf', -⟩ := Option.bind_eq_some_iff.mp hf
    have hm' : Means ε s (spell N e) o := by
      change Means ε s (.dynamic a (spell N e)) o at hm
      cases hm; assumption
    have := blocked_none hε hN e hm' hf' hy hb
    exact this

/-- An ordinary object occurs at the same places in both expressions. -/
theorem align_plain {N : ℕ → ℕ} {n c : ℕ} {σ : Ty} (hn : ∀ a, N a ≠ n) :
    (e : NExpr) → {x : XTree ε} → e.elab ε = some x →
      AlignX (⟨n, c, .plain σ⟩ : Target (xLib ε)) (⟨n, c, σ⟩ : Target (geoLib ε)) (objects x.2)
        (written ε (spell N e))
  | .leaf a d τ, x, h => by
    cases h
    refine .cons ?_ .nil
    simp
  | .neutral a d τ, x, h => by
    cases h
    refine .cons ?_ .nil
    constructor
    · intro h
      simp only [Target.mk.injEq] at h
      obtain ⟨-, -, h⟩ := h
      rcases τ with _ | _ | _ | _ <;> cases h
    · intro h
      simp only [Target.mk.injEq] at h
      exact absurd h.1 (hn a)
  | .un op e, x, h => by
    rcases elab_un_cases h with ⟨a, c, τ, hτ, rfl, rfl, rfl⟩ | ⟨a, c, τ, hτ, rfl, rfl, rfl⟩ | ⟨y, hy, h⟩
    · refine .cons ⟨fun h => ?_, fun h => ?_⟩ .nil <;> simp only [Target.mk.injEq] at h
      · cases h.2.2
      · exact absurd h.1 (hn a)
    · refine .cons ⟨fun h => ?_, fun h => ?_⟩ .nil <;> simp only [Target.mk.injEq] at h
      · cases h.2.2
      · exact absurd h.1 (hn a)
    · rw [xelabUn_objects h]
      exact align_plain hn e hy
  | .bin op l r, x, h => by
    obtain ⟨y, hy, h⟩ := Option.bind_eq_some_iff.mp h
    obtain ⟨z, hz, h⟩ := Option.bind_eq_some_iff.mp h
    rw [xelabBin_objects h]
    exact forall₂_append (align_plain hn l hy) (align_plain hn r hz)
  | .dynamic a e, x, h => by
    obtain ⟨y, hy, rfl⟩ := dynamic_inv h
    have := align_plain (c := c) (σ := σ) hn e hy
    exact this

end WG
