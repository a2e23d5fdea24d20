import Verif.Spec.Factor
import Verif.Lemmas.Compound
import Verif.Lemmas.DiffMain
import Verif.Props.Compound

/-!
# Lemmas about factors
-/

namespace WG
open Matrix Spec Filter Topology

variable {ε : ℝ}

theorem list_decomp {α : Type} (n : α → ℕ) : ∀ (l : List α) (r : ℕ), r < (l.map n).sum →
    ∃ above x below k, l = above ++ x :: below ∧ k < n x ∧ r = (above.map n).sum + k
  | [], r, h => by simp at h
  | a :: l, r, h => by
    by_cases hr : r < n a
    · exact ⟨[], a, l, r, rfl, hr, by simp⟩
    · obtain ⟨above, x, below, k, h1, h2, h3⟩ := list_decomp n l (r - n a) (by
        simp only [List.map_cons, List.sum_cons] at h; omega)
      refine ⟨a :: above, x, below, k, by rw [h1]; rfl, h2, ?_⟩
      simp only [List.map_cons, List.sum_cons]; omega

theorem observes_elems {F : Factor ε} {ts : List (Target (geoLib ε))} {p : List (Channel ε)}
    (h : Observes F ts p) : (F.functor ts).elems = p.map (fun x => ⟨x.ty, x.e⟩) ∧
      F.value.elems = p.map fun x => ⟨x.ty, x.z⟩ := by
  rcases h with ⟨x, rfl, h1, h2⟩ | ⟨_, h1, h2⟩ <;> rw [h1, h2] <;> exact ⟨rfl, rfl⟩

theorem channel_traits (x : Channel ε) : x.ty.vectorTraits = true := by
  obtain ⟨ty, h, _, _⟩ := x
  rcases h with ⟨k, rfl⟩ | rfl <;> rfl

theorem observes_accepted {F : Factor ε} {ts : List (Target (geoLib ε))} {p : List (Channel ε)}
    (h : Observes F ts p) : F.accepted ts = true := by
  unfold Factor.accepted
  rcases h with ⟨x, rfl, h1, h2⟩ | ⟨h0, h1, h2⟩ <;> rw [h1, h2]
  · simp [Ty.isVectorLeaf, channel_traits x]
  · simp only [Bool.and_eq_true, Bool.not_eq_true', List.isEmpty_eq_false_iff, ne_eq,
      List.map_eq_nil_iff, List.all_eq_true, List.mem_map]
    refine ⟨h0, ?_⟩
    rintro z ⟨x, _, rfl⟩
    exact channel_traits x

theorem factor_dim {F : Factor ε} {ts : List (Target (geoLib ε))} {p : List (Channel ε)}
    (h : Observes F ts p) : F.dim = (p.map Channel.dim).sum := by
  unfold Factor.dim compoundSize
  rw [sumSequence_eq, (observes_elems h).2, List.map_map]; rfl

theorem boxMinus_flat (x : Channel ε) (a b : x.ty.Val) :
    boxMinusVal ε x.ty a b = some (coords x.ty a - coords x.ty b) := by
  obtain ⟨ty, h, _, _⟩ := x
  rcases h with ⟨k, rfl⟩ | rfl <;> rfl

theorem minus_channels (y : (x : Channel ε) → x.ty.Val) : ∀ p : List (Channel ε),
    compoundMinus (L := geoLib ε) (p.map fun x => ⟨x.ty, some (y x)⟩)
      (p.map fun x => ⟨x.ty, some x.z⟩) =
      some (p.map fun x => ⟨x.ty, some (coords x.ty (y x) - coords x.ty x.z)⟩)
  | [] => rfl
  | x :: p => by
    have ih := minus_channels y p
    unfold compoundMinus at ih ⊢
    simp only [List.map_cons, expandBin, ih]
    simp only [elemMinus, dif_pos]
    have := boxMinus_flat x (y x) x.z
    simp only [Option.bind_some]
    rw [this]

/-- The residual of finite values. -/
theorem residual_eq {F : Factor ε} {ts : List (Target (geoLib ε))} {p : List (Channel ε)}
    (h : Observes F ts p) (y : (x : Channel ε) → x.ty.Val)
    {W : Matrix (Fin F.dim) (Fin F.dim) ℝ} (hW : F.noise.invSqrt = some W) :
    ∃ r : Fin F.dim → ℝ,
      F.residual (p.map fun x => ⟨x.ty, some (y x)⟩) = some (some (W *ᵥ r)) ∧
      ∀ (above : List (Channel ε)) (x : Channel ε) (below : List (Channel ε)), p = above ++ x :: below → ∀ (j : x.ty.Idx) (i : Fin F.dim),
        (i : ℕ) = (above.map Channel.dim).sum + x.ty.enum j → r i = coords x.ty (y x) j - coords x.ty x.z j := by
  obtain ⟨v, hv1, hv2⟩ := c47_rows (L := geoLib ε) (p.map fun x => ⟨x.ty, some (coords x.ty (y x) - coords x.ty x.z)⟩)
  have key : ∀ (above : List (Channel ε)) (x : Channel ε) (below : List (Channel ε)), p = above ++ x :: below → ∀ j : x.ty.Idx,
      v ((above.map Channel.dim).sum + x.ty.enum j) = some (some (coords x.ty (y x) j - coords x.ty x.z j)) := by
    intro above x below hp j
    have := hv2 (above.map fun x => ⟨x.ty, some (coords x.ty (y x) - coords x.ty x.z)⟩) ⟨x.ty, some (coords x.ty (y x) - coords x.ty x.z)⟩
      (below.map fun x => ⟨x.ty, some (coords x.ty (y x) - coords x.ty x.z)⟩) (by rw [hp]; simp) j
    rw [List.map_map] at this
    exact this
  have all : ∀ i : Fin F.dim, ∃ a, v i = some (some a) := by
    intro i
    obtain ⟨above, x, below, k, h1, h2, h3⟩ := list_decomp Channel.dim p i (by
      rw [← factor_dim h]; exact i.2)
    have := key above x below h1 (x.ty.enum.symm ⟨k, h2⟩)
    rw [Equiv.apply_symm_apply] at this
    rw [h3]
    exact ⟨_, this⟩
  refine ⟨fun i => ((v i).join).getD 0, ?_, ?_⟩
  · unfold Factor.residual
    have e1 : (F.value.elems.map fun z => (⟨z.1, some z.2⟩ : (τ : Ty) × Option τ.Val)) =
        p.map fun x => ⟨x.ty, some x.z⟩ := by rw [(observes_elems h).2, List.map_map]; rfl
    rw [e1, minus_channels, Option.bind_some, hv1, Option.bind_some]
    have e2 : readVec F.dim v = some (some fun i : Fin F.dim => ((v i).join).getD 0) := by
      unfold readVec
      rw [if_pos (fun r => by obtain ⟨a, ha⟩ := all r; simp [ha]),
        if_pos (fun r => by obtain ⟨a, ha⟩ := all r; simp [ha])]
    rw [e2]
    have e3 : F.noise.inverseSqrtCov .lvalue = some (some W) := congrArg some hW
    rw [Option.bind_some, e3]
    rfl
  · intro above x below hp j i hi
    simp only [hi, key above x below hp j]
    rfl

/-- Two lists of equal length and equal classes are the two sides of a list of channels. -/
theorem pair_up : ∀ (c : Compound (geoLib ε)) (l : List ((τ : Ty) × τ.Val)),
    (∀ z ∈ l, z.1.vectorTraits = true) → c.length = l.length →
    (c.map fun e => e.1) = (l.map fun z => z.1) →
    ∃ p : List (Channel ε), c = p.map (fun x => ⟨x.ty, x.e⟩) ∧ l = p.map fun x => ⟨x.ty, x.z⟩
  | [], [], _, _, _ => ⟨[], rfl, rfl⟩
  | e :: c, z :: l, h, hl, ht => by
    obtain ⟨p, h1, h2⟩ := pair_up c l (fun y hy => h y (List.mem_cons_of_mem _ hy))
      (by simpa using hl) (by simpa using (List.cons.inj ht).2)
    obtain ⟨τ, e⟩ := e
    obtain ⟨σ, z⟩ := z
    have hτ : τ = σ := (List.cons.inj ht).1
    subst hτ
    have hflat : (∃ k, τ = .vec k) ∨ τ = .point := by
      have := h ⟨τ, z⟩ List.mem_cons_self
      cases τ <;> simp [Ty.vectorTraits] at this ⊢
    exact ⟨⟨τ, hflat, e, z⟩ :: p, by rw [h1]; rfl, by rw [h2]; rfl⟩

theorem expandBin_len {α β γ : Type} {f : α → β → Option γ} : ∀ {a : List α} {b : List β} {c : List γ},
    expandBin f a b = some c → c.length = a.length ∧ a.length ≤ b.length
  | [], _, c, h => by cases h; simp
  | _ :: _, [], _, h => by cases h
  | x :: xs, y :: ys, c, h => by
    simp only [expandBin] at h
    split at h
    · rename_i z zs h1 h2
      cases h
      have := expandBin_len h2
      simp [this.1, this.2]
    · cases h

/-- Subtraction keeps the classes. -/
theorem minus_types : ∀ {a b : CVal (geoLib ε)} {d : TVal (geoLib ε)},
    compoundMinus (L := geoLib ε) a b = some d →
    (d.map fun z => z.1) = (a.map fun z => z.1) ∧
    (a.map fun z => z.1) = (b.take a.length).map fun z => z.1
  | [], _, d, h => by cases h; simp
  | _ :: _, [], _, h => by cases h
  | x :: xs, y :: ys, d, h => by
    unfold compoundMinus at h
    simp only [expandBin] at h
    split at h
    · rename_i z zs h1 h2
      cases h
      have := minus_types (a := xs) (b := ys) h2
      unfold elemMinus at h1
      split_ifs at h1 with he
      cases h1
      simp [this.1, ← this.2, he]
    · cases h

/-- Nothing is written past the end of the current block. -/
theorem push_past : ∀ (d : TVal (geoLib ε)) {c c' : CommaInit},
    d.foldlM (fun ci x => CommaInit.push ci ((geoLib ε).dim x.1) (itemOf x.2)) c = some c' →
    (∀ r, c.row + c.height ≤ r → c.buf r = none) →
    (∀ r, c'.row + c'.height ≤ r → c'.buf r = none) ∧ c'.n = c.n
  | [], c, c', h, hc => by cases h; exact ⟨hc, rfl⟩
  | x :: d, c, c', h, hc => by
    rw [List.foldlM_cons] at h
    obtain ⟨b, hb, h⟩ := Option.bind_eq_some_iff.mp h
    unfold CommaInit.push at hb
    split_ifs at hb
    cases hb
    have := push_past d h (by
      intro r hr
      simp only at hr ⊢
      rw [if_neg (by omega)]
      exact hc r (by omega))
    exact this

theorem valueAsVector_past {d : TVal (geoLib ε)} {v : ℕ → Option (Option ℝ)}
    (h : valueAsVector d = some v) {r : ℕ}
    (hr : (d.map fun x => (geoLib ε).dim x.1).sum ≤ r) : v r = none := by
  unfold valueAsVector at h
  obtain ⟨c, hc, h⟩ := Option.bind_eq_some_iff.mp h
  have h1 := push_past d hc (fun _ _ => rfl)
  unfold CommaInit.finished at h
  split_ifs at h with he
  cases h
  apply h1.1
  rw [he, h1.2]
  unfold CommaInit.start compoundSize
  rw [sumSequence_eq]
  exact hr

theorem Ty.dim_pos (τ : Ty) : 0 < τ.dim := by
  rcases τ with k | _ | _ | _
  · cases k <;> exact Nat.succ_pos _
  all_goals exact Nat.succ_pos _

/-- A residual that compiles compares values of the same classes, all of them. -/
theorem residual_types {F : Factor ε} {a : CVal (geoLib ε)} (h : F.residual a ≠ none) :
    (a.map fun z => z.1) = F.value.elems.map fun z => z.1 := by
  obtain ⟨x, hx⟩ := Option.ne_none_iff_exists'.1 h
  unfold Factor.residual at hx
  obtain ⟨d, hd, hx⟩ := Option.bind_eq_some_iff.mp hx
  obtain ⟨v, hv, hx⟩ := Option.bind_eq_some_iff.mp hx
  obtain ⟨r, hr, -⟩ := Option.bind_eq_some_iff.mp hx
  obtain ⟨h1, h2⟩ := minus_types hd
  obtain ⟨h3, h4⟩ := expandBin_len hd
  unfold readVec at hr
  split_ifs at hr with hall
  all_goals
    have hsum : F.dim ≤ (d.map fun x => (geoLib ε).dim x.1).sum := by
      by_contra hlt
      exact hall ⟨_, not_le.mp hlt⟩ (valueAsVector_past hv le_rfl)
    have e1 : (d.map fun x => (geoLib ε).dim x.1) =
        ((F.value.elems.take a.length).map fun z => z.1.dim) := by
      have : (d.map fun z => z.1) = (F.value.elems.take a.length).map fun z => z.1 := by
        rw [h1, h2, ← List.map_take, List.map_map]; rfl
      have := congrArg (List.map Ty.dim) this
      rw [List.map_map, List.map_map] at this
      exact this
    unfold Factor.dim compoundSize at hsum
    rw [e1, sumSequence_eq] at hsum
    have hlen : F.value.elems.length ≤ a.length := by
      by_contra hlt
      have hs : (F.value.elems.map fun z => z.1.dim).sum =
          ((F.value.elems.take a.length).map fun z => z.1.dim).sum +
          ((F.value.elems.drop a.length).map fun z => z.1.dim).sum := by
        rw [← List.sum_append, ← List.map_append, List.take_append_drop]
      cases hq : F.value.elems.drop a.length with
      | nil => rw [List.drop_eq_nil_iff] at hq; omega
      | cons q l =>
        rw [hq] at hs
        have := q.1.dim_pos
        simp only [List.map_cons, List.sum_cons] at hs
        omega
    rw [h2, ← List.map_take, List.map_map, List.take_of_length_le hlen]
    rfl

theorem residual_some {F : Factor ε} {ts : List (Target (geoLib ε))} {p : List (Channel ε)}
    (h : Observes F ts p) (s : Store (geoLib ε)) : F.evaluate s ts ≠ none := by
  unfold Factor.evaluate
  rw [if_pos (observes_accepted h), compound_value, (observes_elems h).1, List.map_map]
  have hm : ∃ d : TVal (geoLib ε), compoundMinus (L := geoLib ε)
      (p.map fun x => ⟨x.ty, value s x.e⟩) (p.map fun x => ⟨x.ty, some x.z⟩) = some d := by
    clear h
    induction p with
    | nil => exact ⟨[], rfl⟩
    | cons x p ih =>
      obtain ⟨d, hd⟩ := ih
      unfold compoundMinus at hd ⊢
      simp only [List.map_cons, expandBin, hd, elemMinus, dif_pos]
      exact ⟨_, rfl⟩
  obtain ⟨d, hd⟩ := hm
  obtain ⟨v, hv1, hv2⟩ := c47_rows (L := geoLib ε) d
  have ht := (minus_types hd).1
  have hdim : F.dim = (d.map fun x => (geoLib ε).dim x.1).sum := by
    rw [factor_dim h]
    have := congrArg (List.map Ty.dim) ht
    rw [List.map_map, List.map_map, List.map_map] at this
    exact congrArg List.sum this.symm
  have all : ∀ i : Fin F.dim, v i ≠ none := by
    intro i
    obtain ⟨above, x, below, k, h1, h2, h3⟩ := list_decomp (fun x => (geoLib ε).dim x.1) d i
      (by rw [← hdim]; exact i.2)
    have := hv2 above x below h1 (((geoLib ε).enum x.1).symm ⟨k, h2⟩)
    rw [Equiv.apply_symm_apply] at this
    rw [h3, this]
    simp
  unfold Factor.residual
  have e1 : (F.value.elems.map fun z => (⟨z.1, some z.2⟩ : (τ : Ty) × Option τ.Val)) =
      p.map fun x => ⟨x.ty, some x.z⟩ := by rw [(observes_elems h).2, List.map_map]; rfl
  rw [e1]
  have e2 : compoundMinus (L := geoLib ε)
      (p.map ((fun e => (⟨e.1, value s e.2⟩ : (τ : Ty) × Option τ.Val)) ∘
        fun x => (⟨x.ty, x.e⟩ : Elem (geoLib ε)))) (p.map fun x => ⟨x.ty, some x.z⟩) = some d := hd
  rw [e2, Option.bind_some, hv1, Option.bind_some]
  unfold readVec
  rw [if_pos all, Option.bind_some]
  simp [Noise.inverseSqrtCov]

theorem coords_sub {τ : Ty} (hτ : (∃ k, τ = .vec k) ∨ τ = .point) {a b : τ.Val} {f : τ.Idx → ℝ}
    (h : (geoLib ε).boxMinus τ a b = some f) : coords τ a = coords τ b + f := by
  rcases hτ with ⟨k, rfl⟩ | rfl
  all_goals
    have h' : some (a - b) = some f := h
    rw [← Option.some.inj h']
    exact (add_sub_cancel b a).symm

/-- One channel under a perturbation of `t`. -/
theorem channel_response (hε : 0 < ε) (hε1 : ε ≤ 1) (s : Store (geoLib ε)) (t : Target (geoLib ε))
    {τ : Ty} (hτ : (∃ k, τ = .vec k) ∨ τ = .point) (e : Expr (geoLib ε) τ) (hreg : RegularAt ε s e)
    (ho : ∀ o ∈ objects e, o.addr = t.addr → o.ty = t.ty → o = t)
    {J : Matrix τ.Idx t.ty.Idx ℝ} (hJ : total (occurrences s t e) = some J) {v₀ : τ.Val}
    (hv : value s e = some v₀) :
    ∃ f : (t.ty.Idx → ℝ) → τ.Idx → ℝ,
      (∀ᶠ d in 𝓝 0, ∀ v, boxPlusVal ε t.ty (s t.addr t.ty) d = some v →
        ∃ y, value (s.set t.addr t.ty v) e = some y ∧ coords τ y = coords τ v₀ + f d) ∧
      f 0 = 0 ∧ HasFDerivAt f (linMap J) 0 := by
  by_cases ht : t ∈ objects e
  · obtain ⟨f, h1, h2, h3⟩ := response_deriv hε hε1 s t e hreg ht ho hJ
    refine ⟨f, ?_, h2, h3⟩
    filter_upwards [h1] with d hd v hv'
    unfold response at hd
    rw [hv', hv] at hd
    simp only [Option.bind_some] at hd
    cases hy : value (s.set t.addr t.ty v) e with
    | none => rw [hy] at hd; simp at hd
    | some y =>
      rw [hy] at hd
      exact ⟨y, rfl, coords_sub hτ hd⟩
  · have hn : occurrences s t e = [] := occ_nil ht
    rw [hn] at hJ
    have hJ0 : J = 0 := (Option.some.inj hJ).symm
    subst hJ0
    refine ⟨fun _ => 0, Eventually.of_forall fun d v _ => ?_, rfl, ?_⟩
    · rw [value_set_of_not_mem s t v e (fun o h1 h2 h3 => ht (ho o h1 h2 h3 ▸ h1)), hv]
      exact ⟨v₀, rfl, (add_zero _).symm⟩
    · have : linMap (0 : Matrix τ.Idx t.ty.Idx ℝ) = 0 := by
        ext; simp
      rw [this]
      exact hasFDerivAt_const _ _

end WG
