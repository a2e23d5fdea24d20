import Verif.Lemmas.DiffBin
import Verif.Lemmas.Unique
import Verif.Spec.Regular

/-! The chain rule over expression trees. -/

namespace WG
open Matrix Spec Filter Topology

variable {E : Type} [NormedAddCommGroup E] [NormedSpace ℝ E] {x : E} {ε : ℝ}

theorem moves_const {τ : Ty} {v : τ.Val} (hv : Valid τ v) :
    MovesBy τ (fun _ : E => v) x fun _ => 0 := by
  have h0 : hat (0 : V3) = 0 := by rw [hat_eq]; mat3 [crossMatrix]
  cases τ with
  | vec k => exact DiffV.const (n := k.Idx) v
  | point => exact DiffV.const (n := Fin 3) v
  | rot k =>
    refine ⟨(DiffM.const _).congr_right fun h => ?_, fun _ => Eventually.of_forall fun _ => hv⟩
    change hat (0 : V3) * _ = 0
    rw [h0, Matrix.zero_mul]
  | rigid k =>
    refine ⟨(DiffM.const _).congr_right fun h => ?_, (DiffV.const _).congr_right fun h => ?_⟩
    · change hat (0 : V3) * _ = 0
      rw [h0, Matrix.zero_mul]
    · change (0 : V3) ⨯₃ _ + (0 : V3) = 0
      simp

/-- A family that agrees with a moving family except at the base point, where it has the same
meaning, moves in the same way. -/
theorem Spec.MovesBy.repoint {τ : Ty} {c c' : E → τ.Val} {A : E → τ.Idx → ℝ} (h : MovesBy τ c x A)
    (e : ∀ᶠ y in 𝓝 x, y ≠ x → c' y = c y) (e0 : den τ (c' x) = den τ (c x))
    (hv : Valid τ (c' x)) : MovesBy τ c' x A := by
  have ed : ∀ᶠ y in 𝓝 x, den τ (c' y) = den τ (c y) := by
    filter_upwards [e] with y hy
    by_cases hx : y = x
    · rw [hx]; exact e0
    · rw [hy hx]
  cases τ with
  | vec k => exact DiffV.congr_left (n := k.Idx) h ed
  | point => exact DiffV.congr_left (n := Fin 3) h ed
  | rot k =>
    refine ⟨(h.1.congr_left ed).congr_right fun y => ?_, fun hk => ?_⟩
    · have e0' : rotDen k (c' x) = rotDen k (c x) := e0
      rw [e0']
    · filter_upwards [e, h.2 hk] with y hy hw
      by_cases hx : y = x
      · rw [hx]; exact hv
      · rw [hy hx]; exact hw
  | rigid k =>
    have e0' : rigidDen k (c' x) = rigidDen k (c x) := e0
    have ed' : ∀ᶠ y in 𝓝 x, rigidDen k (c' y) = rigidDen k (c y) := ed
    exact ⟨(h.1.congr_left (ed'.mono fun y hy => by rw [hy])).congr_right fun y => by rw [e0'],
      (h.2.congr_left (ed'.mono fun y hy => by rw [hy])).congr_right fun y => by rw [e0']⟩

theorem total_map_some {m n p : Type} [Fintype n] (A : OMat m n) (l : List (OMat n p))
    {J : Matrix m p ℝ} (h : total (l.map (OMat.mul A)) = some J) :
    ∃ K, total l = some K ∧ ∀ A', A = some A' → J = A' * K := by
  by_cases hl : l = []
  · subst hl
    refine ⟨0, rfl, fun A' _ => ?_⟩
    have : some (0 : Matrix m p ℝ) = some J := h
    rw [← Option.some.inj this, Matrix.mul_zero]
  · rw [total_map_mul A l hl] at h
    rcases A with _ | A
    · cases h
    · rcases hK : total l with _ | K
      · rw [hK] at h; cases h
      · rw [hK] at h
        refine ⟨K, rfl, fun A' hA => ?_⟩
        have h1 : some (A * K) = some J := h
        rw [← Option.some.inj h1, Option.some.inj hA]

theorem value_set_of_not_mem {L : Lib} (s : Store L) (t : Target L) (v : L.Val t.ty) :
    {τ : L.Ty} → (e : Expr L τ) → (∀ o ∈ objects e, o.addr = t.addr → o.ty = t.ty → False) →
    value (s.set t.addr t.ty v) e = value s e
  | _, .leaf a c τ, h => by
    change some (Store.set s t.addr t.ty v a τ) = some (s a τ)
    unfold Store.set
    rw [dif_neg]
    exact fun hh => h ⟨a, c, τ⟩ (by simp [objects]) hh.1 hh.2.symm
  | _, .un a op e, h => by
    change (value _ e).bind _ = (value _ e).bind _
    rw [value_set_of_not_mem s t v e h]
  | _, .bin a op l r, h => by
    change (value _ l).bind (fun x => (value _ r).bind _) = (value _ l).bind (fun x => (value _ r).bind _)
    rw [value_set_of_not_mem s t v l fun o hm => h o (List.mem_append_left _ hm),
      value_set_of_not_mem s t v r fun o hm => h o (List.mem_append_right _ hm)]
  | _, .proxy a e, h => value_set_of_not_mem s t v e h

/-- A regular expression has a value, and it is valid. -/
theorem regular_value (hε : 0 < ε) (s : Store (geoLib ε)) : {τ : Ty} → (e : Expr (geoLib ε) τ) →
    RegularAt ε s e → ∃ v, value s e = some v ∧ Valid τ v
  | _, .leaf a c τ, h => ⟨_, rfl, h⟩
  | _, .un a op e, h => by
    obtain ⟨h, hr⟩ := h
    obtain ⟨v, h1, h2⟩ := regular_value hε s e h
    obtain ⟨y, h3, h4, -⟩ := un_sound hε op v h2 (hr v h1)
    refine ⟨y, ?_, h4⟩
    change (value s e).bind _ = _
    rw [h1]; exact h3
  | _, .bin a op l r, h => by
    obtain ⟨hl, hr, hreg⟩ := h
    obtain ⟨v, h1, h2⟩ := regular_value hε s l hl
    obtain ⟨w, k1, k2⟩ := regular_value hε s r hr
    obtain ⟨y, h3, h4, -⟩ := bin_sound op v w h2 k2 (hreg v w h1 k1)
    refine ⟨y, ?_, h4⟩
    change (value s l).bind (fun x => (value s r).bind _) = _
    rw [h1, k1]; exact h3
  | _, .proxy a e, h => regular_value hε s e h

/-- **Chain rule.** If the object `t` moves with velocity `A`, the value of a regular expression moves
with velocity `J A`, `J` the sum over occurrences. -/
theorem chain (hε : 0 < ε) (hε1 : ε ≤ 1) (s : Store (geoLib ε)) (t : Target (geoLib ε))
    {p : E → t.ty.Val} {A : E → t.ty.Idx → ℝ} (hp : MovesBy t.ty p x A) (hx : p x = s t.addr t.ty) :
    {τ : Ty} → (e : Expr (geoLib ε) τ) → RegularAt ε s e →
    (∀ o ∈ objects e, o.addr = t.addr → o.ty = t.ty → o = t) →
    {J : Matrix τ.Idx t.ty.Idx ℝ} → total (occurrences s t e) = some J →
    ∃ f : E → τ.Val, (∀ᶠ y in 𝓝 x, value (s.set t.addr t.ty (p y)) e = some (f y)) ∧
      value s e = some (f x) ∧ MovesBy τ f x fun h => J *ᵥ A h
  | _, .leaf a c τ, hv, ho, J, hJ => by
    by_cases h : (⟨a, c, τ⟩ : Target (geoLib ε)) = t
    · subst h
      refine ⟨p, Eventually.of_forall fun y => ?_, ?_, ?_⟩
      · change some (Store.set s a τ (p y) a τ) = _
        simp [Store.set]
      · change some (s a τ) = _
        rw [hx]
      · have : J = 1 := by
          have h1 : total (occurrences s (⟨a, c, τ⟩ : Target (geoLib ε)) (.leaf a c τ)) = some 1 := by
            unfold occurrences
            rw [dif_pos rfl]
            exact @add_zero (OMat τ.Idx τ.Idx) _ (some (1 : Matrix τ.Idx τ.Idx ℝ))
          rw [h1] at hJ
          exact (Option.some.inj hJ).symm
        subst this
        exact MovesBy.congr hp (Eventually.of_forall fun _ => rfl) fun h => one_mulVec _
    · have hne : ¬ (a = t.addr ∧ t.ty = τ) := fun hh =>
        h (ho ⟨a, c, τ⟩ (by simp [objects]) hh.1 hh.2.symm)
      have hJ0 : J = 0 := by
        have h1 : total (occurrences s t (.leaf a c τ : Expr (geoLib ε) τ)) = some 0 := by
          unfold occurrences
          rw [dif_neg h]; rfl
        rw [h1] at hJ
        exact (Option.some.inj hJ).symm
      subst hJ0
      refine ⟨fun _ => s a τ, Eventually.of_forall fun y => ?_, rfl, ?_⟩
      · change some (Store.set s t.addr t.ty (p y) a τ) = _
        unfold Store.set
        rw [dif_neg hne]
      · exact MovesBy.congr (moves_const hv) (Eventually.of_forall fun _ => rfl) fun h => zero_mulVec _
  | _, .un a op e, hreg, ho, J, hJ => by
    obtain ⟨hreg, hr⟩ := hreg
    obtain ⟨K, hK, hJK⟩ := total_map_some _ _ hJ
    obtain ⟨f, hf, hfx, hm⟩ := chain hε hε1 s t hp hx e hreg ho hK
    obtain ⟨v, h1, hv⟩ := regular_value hε s e hreg
    have hvx : v = f x := by rw [h1] at hfx; exact Option.some.inj hfx
    subst hvx
    obtain ⟨y, h3, hyv, -⟩ := un_sound hε op (f x) hv (hr _ hfx)
    have hslope : slopeU s op e = jacUn ε op y (f x) := by
      unfold slopeU
      rw [hfx]
      change (evalUn ε op (f x)).bind _ = _
      rw [h3]; rfl
    by_cases hocc : occurrences s t e = []
    · have hno : t ∉ objects e := (occ_nil_iff s t e).mp hocc
      have hJ0 : J = 0 := by
        have h1 : total (occurrences s t (.un a op e)) = some 0 := by
          change total ((occurrences s t e).map _) = _
          rw [hocc]; rfl
        rw [h1] at hJ
        exact (Option.some.inj hJ).symm
      subst hJ0
      have hconst : ∀ z, value (s.set t.addr t.ty (p z)) e = value s e := fun z =>
        value_set_of_not_mem s t (p z) e fun o hm h1 h2 => hno (ho o hm h1 h2 ▸ hm)
      refine ⟨fun _ => y, Eventually.of_forall fun z => ?_, ?_, ?_⟩
      · change (value _ e).bind _ = _
        rw [hconst, hfx]; exact h3
      · change (value _ e).bind _ = _
        rw [hfx]; exact h3
      · exact MovesBy.congr (moves_const hyv) (Eventually.of_forall fun _ => rfl) fun h => zero_mulVec _
    · have hJ' := hJ
      change total ((occurrences s t e).map _) = _ at hJ'
      rw [total_map_mul _ _ hocc, hK] at hJ'
      obtain ⟨S, hS⟩ : ∃ S, slopeU s op e = some S := by
        rcases hsl : slopeU s op e with _ | S
        · rw [hsl] at hJ'; cases hJ'
        · exact ⟨S, rfl⟩
      have hJS := hJK S hS
      rw [hslope] at hS
      obtain ⟨d, hd, hdm⟩ := un_moves hε hε1 op hv hm (hr _ hfx) h3 hS
      refine ⟨d, ?_, ?_, ?_⟩
      · filter_upwards [hf, hd] with z hz1 hz2
        change (value _ e).bind _ = _
        rw [hz1]; exact hz2
      · change (value _ e).bind _ = _
        rw [hfx]
        exact hd.self_of_nhds
      · refine MovesBy.congr hdm (Eventually.of_forall fun _ => rfl) fun h => ?_
        rw [hJS, mulVec_mulVec]
  | _, .bin a op l r, hreg, ho, J, hJ => by
    obtain ⟨hregl, hregr, hr⟩ := hreg
    change total (_ ++ _) = _ at hJ
    rw [total_append] at hJ
    obtain ⟨J1, J2, hJ1, hJ2, hJJ⟩ : ∃ J1 J2, total ((occurrences s t l).map
        (OMat.mul (slopeL s op l r))) = some J1 ∧ total ((occurrences s t r).map
        (OMat.mul (slopeR s op l r))) = some J2 ∧ J = J1 + J2 := by
      rcases h1 : total ((occurrences s t l).map (OMat.mul (slopeL s op l r))) with _ | J1
      · rw [h1] at hJ; cases hJ
      · rcases h2 : total ((occurrences s t r).map (OMat.mul (slopeR s op l r))) with _ | J2
        · rw [h1, h2] at hJ; cases hJ
        · rw [h1, h2] at hJ
          exact ⟨J1, J2, rfl, rfl, (Option.some.inj hJ).symm⟩
    obtain ⟨K1, hK1, e1⟩ := total_map_some _ _ hJ1
    obtain ⟨K2, hK2, e2⟩ := total_map_some _ _ hJ2
    obtain ⟨f, hf, hfx, hfm⟩ := chain hε hε1 s t hp hx l hregl
      (fun o hm => ho o (List.mem_append_left _ hm)) hK1
    obtain ⟨g, hg, hgx, hgm⟩ := chain hε hε1 s t hp hx r hregr
      (fun o hm => ho o (List.mem_append_right _ hm)) hK2
    obtain ⟨v, h1, hv⟩ := regular_value hε s l hregl
    obtain ⟨w, k1, hw⟩ := regular_value hε s r hregr
    have hvx : v = f x := by rw [h1] at hfx; exact Option.some.inj hfx
    have hwx : w = g x := by rw [k1] at hgx; exact Option.some.inj hgx
    subst hvx hwx
    obtain ⟨y, h3, hyv, -⟩ := bin_sound op (f x) (g x) hv hw (hr _ _ hfx hgx)
    obtain ⟨JL, JR, hL, hR, d, hd, hdm⟩ := bin_moves op hv hw hfm hgm (hr _ _ hfx hgx) h3
    have hsL : slopeL s op l r = some JL := by
      unfold slopeL
      rw [hfx, hgx]
      change (evalBin op (f x) (g x)).bind _ = _
      rw [h3]; exact hL
    have hsR : slopeR s op l r = some JR := by
      unfold slopeR
      rw [hfx, hgx]
      change (evalBin op (f x) (g x)).bind _ = _
      rw [h3]; exact hR
    refine ⟨d, ?_, ?_, ?_⟩
    · filter_upwards [hf, hg, hd] with z hz1 hz2 hz3
      change (value _ l).bind (fun x => (value _ r).bind _) = _
      rw [hz1, hz2]; exact hz3
    · change (value _ l).bind (fun x => (value _ r).bind _) = _
      rw [hfx, hgx]; exact hd.self_of_nhds
    · refine MovesBy.congr hdm (Eventually.of_forall fun _ => rfl) fun h => ?_
      rw [hJJ, e1 JL hsL, e2 JR hsR, add_mulVec, mulVec_mulVec, mulVec_mulVec]
  | _, .proxy a e, hreg, ho, J, hJ => chain hε hε1 s t hp hx e hreg ho hJ

end WG
