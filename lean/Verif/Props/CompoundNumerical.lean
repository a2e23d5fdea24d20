import Verif.Model.CompoundNumerical
import Verif.Props.Compound
import Verif.Props.Numerical

/-!
# C55: the numerical Jacobian of a compound
-/

namespace WG
open Matrix Spec Filter Topology

variable {L : Lib} {ε : ℝ}

theorem compoundMinus_map (c : Compound L) (f g : (e : Elem L) → Option (L.Val e.1)) :
    compoundMinus (c.map fun e => ⟨e.1, f e⟩) (c.map fun e => ⟨e.1, g e⟩) =
      some (c.map fun e => ⟨e.1, (f e).bind fun x => (g e).bind fun y => L.boxMinus e.1 x y⟩) := by
  induction c with
  | nil => rfl
  | cons e c ih =>
    unfold compoundMinus at ih ⊢
    simp only [List.map_cons, expandBin, ih]
    unfold elemMinus
    rw [dif_pos rfl]

/-- **C55 (stacking).** When the compound itself is not stored at the address of the target, a column
of its numerical Jacobian is the stack, from top to bottom, of the columns of the numerical Jacobians
of its elements; rows of an element whose column is not finite are not finite, the others are
unaffected. -/
theorem c55_stacks (s : Store L) (a t : ℕ) (σ : L.Ty) (δ : ℝ) (c : Compound L) (j : L.Idx σ)
    (ha : a ≠ t) : ∃ v, c.numColumn s a t σ δ j = some v ∧
      ∀ above x below, c = above ++ x :: below → ∀ i : L.Idx x.1,
        v (height above + L.enum x.1 i) = some ((x.2.numColumn s t σ δ j).map fun y => y i) := by
  unfold Compound.numColumn Compound.evalDelta
  rw [if_neg ha, Option.bind_some, compound_value, compoundMinus_map, Option.bind_some]
  obtain ⟨v, hv, h⟩ := c47_rows (c.map fun e : Elem L => (⟨e.1,
    (e.2.evalDelta s t σ (coordStep j δ)).bind fun x => (value s e.2).bind fun y =>
      L.boxMinus e.1 x y⟩ : (τ : L.Ty) × Option (L.Idx τ → ℝ)))
  rw [hv]
  refine ⟨_, rfl, ?_⟩
  rintro above x below rfl i
  have h1 := h _ _ _ (List.map_append ..) i
  rw [List.map_map] at h1
  have h2 : ((above.map ((fun y : (τ : L.Ty) × Option (L.Idx τ → ℝ) => L.dim y.1) ∘
      fun e : Elem L => (⟨e.1, (e.2.evalDelta s t σ (coordStep j δ)).bind fun x =>
        (value s e.2).bind fun y => L.boxMinus e.1 x y⟩ : (τ : L.Ty) × Option (L.Idx τ → ℝ)))).sum)
      = height above := rfl
  rw [h2] at h1
  refine (congrArg (divRow δ) h1).trans ?_
  unfold Expr.numColumn Expr.eval
  rw [mk_val]
  simp only [divRow, Option.map_some]
  cases x.2.evalDelta s t σ (coordStep j δ) with
  | none => rfl
  | some p =>
    cases value s x.2 with
    | none => rfl
    | some q =>
      simp only [Option.bind_some]
      cases L.boxMinus x.1 p q with
      | none => rfl
      | some d => by_cases hδ : δ = 0 <;> simp [hδ]

/-- Every row of a compound belongs to one coordinate of one element. -/
theorem row_decomp : ∀ (c : Compound L) (r : ℕ), r < height c →
    ∃ (above : Compound L) (x : Elem L) (below : Compound L) (i : L.Idx x.1), c = above ++ x :: below ∧ r = height above + L.enum x.1 i
  | [], r, h => by simp [height] at h
  | x :: c, r, h => by
    by_cases hr : r < L.dim x.1
    · exact ⟨[], x, c, (L.enum x.1).symm ⟨r, hr⟩, rfl, by simp [height]⟩
    · have h' : r < L.dim x.1 + height c := by simpa [height] using h
      obtain ⟨above, y, below, i, h1, h2⟩ := row_decomp c (r - L.dim x.1) (by omega)
      refine ⟨x :: above, y, below, i, by rw [h1]; rfl, ?_⟩
      have h3 : height (x :: above) = L.dim x.1 + height above := by simp [height]
      omega

/-- **C55 (compounds of affine expressions).** For every non-zero step, every row of the numerical
column is finite and is the entry of the stacked analytic Jacobian. -/
theorem c55_affine_exact (s : Store (geoLib ε)) (t : Target (geoLib ε)) (hft : IsFlat t.ty)
    (c : Compound (geoLib ε)) (a : ℕ) (ha : a ≠ t.addr)
    (hc : ∀ x ∈ c, IsFlat x.1 ∧ AffineIn t x.2 ∧ Distinguished t x.2 ∧ (x.2.eval s).isSome ∧
      (total (occurrences s t x.2)).isSome)
    {m : Rows (geoLib ε) t.ty} (hm : IsStacked s t c m) {δ : ℝ} (hδ : δ ≠ 0) (j : t.ty.Idx) :
    ∃ v, c.numColumn s a t.addr t.ty δ j = some v ∧ ∀ r, r < height c →
      ∃ row, m r = some (some row) ∧ v r = some (some (row j)) := by
  obtain ⟨v, hv, h⟩ := c55_stacks s a t.addr t.ty δ c j ha
  refine ⟨v, hv, fun r hr => ?_⟩
  obtain ⟨above, x, below, i, rfl, rfl⟩ := row_decomp c r hr
  obtain ⟨h1, h2, h3, h4, h5⟩ := hc x (by simp)
  obtain ⟨y, hy⟩ := Option.isSome_iff_exists.mp h4
  obtain ⟨J, hJ⟩ := Option.isSome_iff_exists.mp h5
  refine ⟨J i, ?_, ?_⟩
  · rw [hm above x below rfl i, hJ]; rfl
  · rw [h above x below rfl i, numColumn_affine s t hft h1 x.2 h2 h3 hy hJ hδ j]; rfl

/-- **C55 (convergence).** At a regular point where the analytic Jacobian of every element is finite,
for all small enough steps every row of the numerical column is finite, and as the step tends to zero
it tends to the entry of the stacked analytic Jacobian. -/
theorem c55_converges (hε : 0 < ε) (hε1 : ε ≤ 1) (s : Store (geoLib ε)) (t : Target (geoLib ε))
    (c : Compound (geoLib ε)) (a : ℕ) (ha : a ≠ t.addr) (hvt : Valid t.ty (s t.addr t.ty))
    (hc : ∀ x ∈ c, RegularAt ε s x.2 ∧ Distinguished t x.2 ∧
      (total (occurrences s t x.2)).isSome)
    {m : Rows (geoLib ε) t.ty} (hm : IsStacked s t c m) (j : t.ty.Idx) :
    ∃ G : ℝ → ℕ → ℝ,
      (∀ᶠ δ in 𝓝[≠] 0, ∃ v, c.numColumn s a t.addr t.ty δ j = some v ∧
        ∀ r, r < height c → v r = some (some (G δ r))) ∧
      ∀ r, r < height c → ∃ row, m r = some (some row) ∧
        Tendsto (fun δ => G δ r) (𝓝[≠] 0) (𝓝 (row j)) := by
  classical
  have key : ∀ r, ∃ g : ℝ → ℝ, r < height c →
      (∀ᶠ δ in 𝓝[≠] 0, ∀ v, c.numColumn s a t.addr t.ty δ j = some v → v r = some (some (g δ))) ∧
      ∃ row, m r = some (some row) ∧ Tendsto g (𝓝[≠] 0) (𝓝 (row j)) := by
    intro r
    by_cases hr : r < height c
    · obtain ⟨above, x, below, i, hx, rfl⟩ := row_decomp c r hr
      obtain ⟨h1, h2, h3⟩ := hc x (by simp [hx])
      obtain ⟨J, hJ⟩ := Option.isSome_iff_exists.mp h3
      obtain ⟨G, g1, g2⟩ := numColumn_tendsto hε hε1 s t x.2 h1 hvt h2 hJ j
      refine ⟨fun δ => G δ i, fun _ => ⟨?_, J i, ?_, ?_⟩⟩
      · filter_upwards [g1] with δ hδ v hv
        obtain ⟨v', hv', h⟩ := c55_stacks s a t.addr t.ty δ c j ha
        rw [hv] at hv'
        rw [Option.some.inj hv', h above x below hx i, hδ]; rfl
      · rw [hm above x below hx i, hJ]; rfl
      · exact (continuous_apply i).continuousAt.tendsto.comp g2
    · exact ⟨fun _ => 0, fun h => absurd h hr⟩
  choose g hg using key
  refine ⟨fun δ r => g r δ, ?_, fun r hr => (hg r hr).2⟩
  have hall : ∀ᶠ δ in 𝓝[≠] (0 : ℝ), ∀ r ∈ Finset.range (height c), ∀ v,
      c.numColumn s a t.addr t.ty δ j = some v → v r = some (some (g r δ)) :=
    (eventually_all_finset _).mpr fun r hr => (hg r (Finset.mem_range.mp hr)).1
  filter_upwards [hall] with δ hδ
  obtain ⟨v, hv, -⟩ := c55_stacks s a t.addr t.ty δ c j ha
  exact ⟨v, hv, fun r hr => hδ r (Finset.mem_range.mpr hr) v hv⟩

/-- Two translations in a compound; the second, `v`, is held by value. -/
def exHeld (ε : ℝ) : Compound (geoLib ε) :=
  [⟨.vec .trans, gleaf ε 5 0 (.vec .trans)⟩, ⟨.vec .trans, gleaf ε 9 0 (.vec .trans)⟩]

/-- **C55 (what goes wrong otherwise).** `isSame` compares addresses and nothing else.  If the
compound starts with the storage of one of its elements, `v`, so that both have the same address, the
numerical Jacobian with respect to `v` reports that the *other* element depends on `v`: for every
step it puts the identity where the analytic Jacobian has zero. -/
theorem c55_same_address (s : Store (geoLib ε)) {δ : ℝ} (hδ : δ ≠ 0) (j : Fin 3)
    {m : Rows (geoLib ε) (.vec .trans)} (hm : IsStacked s ⟨9, 0, .vec .trans⟩ (exHeld ε) m) :
    (∃ v, (exHeld ε).numColumn s 9 9 (.vec .trans) δ j = some v ∧ v j = some (some 1)) ∧
      ∃ row, m j = some (some row) ∧ row j = 0 := by
  constructor
  · have h1 : (exHeld ε).evalDelta s 9 9 (.vec .trans) δ j = some
        [⟨.vec .trans, some fun i : Fin 3 => s 5 (.vec .trans) i + if 0 + (i : ℕ) = j then δ else 0⟩,
         ⟨.vec .trans, some fun i : Fin 3 => (s 9 (.vec .trans) i + if i = j then δ else 0) +
           if 0 + 3 + (i : ℕ) = j then δ else 0⟩] := by
      have hc : compoundSize [3, 3] = 6 := by simp [compoundSize, sumSequence_eq]
      unfold Compound.evalDelta
      rw [if_pos rfl, if_pos]
      · rfl
      · show (j : ℕ) < compoundSize [3, 3]
        omega
    obtain ⟨v, hv, h⟩ := c47_rows (L := geoLib ε)
      [⟨.vec .trans, some fun i : Fin 3 => (s 5 (.vec .trans) i + if 0 + (i : ℕ) = j then δ else 0) -
          s 5 (.vec .trans) i⟩,
       ⟨.vec .trans, some fun i : Fin 3 => ((s 9 (.vec .trans) i + if i = j then δ else 0) +
           if 0 + 3 + (i : ℕ) = j then δ else 0) - s 9 (.vec .trans) i⟩]
    have h2 : (exHeld ε).numColumn s 9 9 (.vec .trans) δ j = some fun r => divRow δ (v r) := by
      unfold Compound.numColumn
      rw [h1]
      exact congrArg (Option.map fun v r => divRow δ (v r)) hv
    refine ⟨_, h2, ?_⟩
    have h3 := h [] _ _ rfl j
    have h4 : v j = some (some δ) := by
      refine Eq.trans (congrArg v ?_) (h3.trans ?_)
      · exact (Nat.zero_add _).symm
      · simp
    rw [h4]
    simp [divRow, hδ]
  · have h := hm [] ⟨.vec .trans, gleaf ε 5 0 (.vec .trans)⟩ _ rfl j
    have h0 : total (occurrences s ⟨9, 0, .vec .trans⟩ (gleaf ε 5 0 (.vec .trans))) =
        some 0 := by
      have : occurrences s ⟨9, 0, .vec .trans⟩ (gleaf ε 5 0 (.vec .trans)) = [] :=
        dif_neg (by simp)
      rw [this]; rfl
    refine ⟨(0 : M3) j, ?_, rfl⟩
    refine Eq.trans (congrArg m (Nat.zero_add _).symm) (h.trans ?_)
    exact congrArg (fun o : OMat (Fin 3) (Fin 3) => some (Option.map (fun A : M3 => A j) o)) h0

/-- What `c55_affine_exact` asks of the compound `(b - b, a)` of a translation `b` and a rotation
vector `a`. -/
theorem exSwap_affine (s : Store (geoLib ε)) : ∀ x ∈ exSwap ε, IsFlat x.1 ∧
    AffineIn (⟨2, 0, .vec .relrot⟩ : Target (geoLib ε)) x.2 ∧
    Distinguished (⟨2, 0, .vec .relrot⟩ : Target (geoLib ε)) x.2 ∧ (x.2.eval s).isSome ∧
      (total (occurrences s (⟨2, 0, .vec .relrot⟩ : Target (geoLib ε)) x.2)).isSome := by
  intro x hx
  simp only [exSwap, List.mem_cons, List.not_mem_nil, or_false] at hx
  rcases hx with rfl | rfl
  · refine ⟨trivial, by simp [AffineIn, depBin], by simp [Distinguished, objects, nodeAddrs], rfl, ?_⟩
    simp only [occurrences]
    rw [dif_neg (by simp)]
    rfl
  · refine ⟨trivial, trivial, by simp [Distinguished, objects, nodeAddrs], rfl, ?_⟩
    exact Option.isSome_iff_exists.mpr ⟨_, total_self s 2 0 (.vec .relrot)⟩

/-- **C55 (the numerical Jacobian exposes misplaced rows).** For the compound `(b - b, a)`, whose
`jacobian(a)` has its rows in the wrong place (C24), the numerical Jacobian at any non-zero step has
them in the right place: the two differ in the first row. -/
theorem c55_exposes (s : Store (geoLib ε)) (a : ℕ) (ha : a ≠ 2) {δ : ℝ} (hδ : δ ≠ 0) :
    ∃ m v, (exSwap ε).jacobianAuto s ⟨2, 0, .vec .relrot⟩ = some m ∧
      (exSwap ε).numColumn s a 2 (.vec .relrot) δ (0 : Fin 3) = some v ∧
      (∀ m', IsStacked s ⟨2, 0, .vec .relrot⟩ (exSwap ε) m' → ∀ r, r < 6 →
        ∃ row, m' r = some (some row) ∧ v r = some (some (row (0 : Fin 3)))) ∧
      ∃ r, r < 6 ∧ v r ≠ (m r).map fun x => x.map fun row => row (0 : Fin 3) := by
  obtain ⟨m, hm⟩ := exSwap_accepted ε s
  obtain ⟨m₁, -, hst⟩ := compound_dynamic s ⟨2, 0, .vec .relrot⟩ (exSwap ε)
    fun e he => (exSwap_affine s e he).2.2.1
  obtain ⟨v, hv, h⟩ := c55_affine_exact s ⟨2, 0, .vec .relrot⟩ trivial (exSwap ε) a ha
    (exSwap_affine s) hst hδ (0 : Fin 3)
  refine ⟨m, v, hm, hv, fun m' hm' r hr => ?_, 3, by omega, ?_⟩
  · obtain ⟨v', hv', h'⟩ := c55_affine_exact s ⟨2, 0, .vec .relrot⟩ trivial (exSwap ε) a ha
      (exSwap_affine s) hm' hδ (0 : Fin 3)
    rw [hv] at hv'
    exact Option.some.inj hv' ▸ h' r hr
  · have h1 := (compound_wrong_rows s _ _ _ _ m hm (by simp [types, objects])
      (by simp [types, objects]) (by simp) rfl).2 (0 : Fin 3)
    have h2 := hst [⟨.vec .trans, .bin 9 (.sub .trans) (gleaf ε 1 0 (.vec .trans))
      (gleaf ε 1 0 (.vec .trans))⟩] ⟨.vec .relrot, gleaf ε 2 0 (.vec .relrot)⟩ [] rfl (0 : Fin 3)
    have h3 : m₁ 3 = some (some ((1 : M3) 0)) := by
      refine Eq.trans h2 ?_
      exact congrArg (fun o : OMat (Fin 3) (Fin 3) => some (Option.map (fun A : M3 => A 0) o))
        (total_self (L := geoLib ε) s 2 0 (.vec .relrot))
    obtain ⟨row, h4, h5⟩ := h 3 (by simp [height, exSwap, geoLib, Ty.dim])
    have h6 : row = (1 : M3) 0 := Option.some.inj (Option.some.inj (h4.symm.trans h3))
    have h7 : m 3 = some (some 0) := h1
    rw [h5, h6, h7]
    intro h8
    have h9 := Option.some.inj (Option.some.inj h8)
    simp at h9

/-- `c55_converges` at a point that is not affine: `(R * (R * v), v)` with respect to `R`. -/
example (j : (Ty.rot .quat).Idx) (c : Compound (geoLib dblEps))
    (hc : c = [⟨.vec .trans, exTwice dblEps⟩, ⟨.vec .trans, gleaf dblEps 3 0 (.vec .trans)⟩]) :
    ∃ m, Compound.dynJacobian (L := geoLib dblEps) demo 1 (.rot .quat) c = some m ∧ ∃ G : ℝ → ℕ → ℝ,
      (∀ᶠ δ in 𝓝[≠] 0, ∃ v, Compound.numColumn (L := geoLib dblEps) demo 20 1 (.rot .quat) δ c j = some v ∧
        ∀ r, r < height c → v r = some (some (G δ r))) ∧
      ∀ r, r < height c → ∃ row, m r = some (some row) ∧
        Tendsto (fun δ => G δ r) (𝓝[≠] 0) (𝓝 (row j)) := by
  have hr : RegularAt dblEps demo (exTwice dblEps) :=
    ⟨demo_valid _ _, ⟨demo_valid _ _, trivial, fun _ _ _ _ => trivial⟩, fun _ _ _ _ => trivial⟩
  have ht : (⟨1, 0, .rot .quat⟩ : Target (geoLib dblEps)) ∈ objects (exTwice dblEps) := by
    simp [exTwice, objects]
  obtain ⟨J, hJ⟩ := c14_finite dblEps_pos dblEps_lt.le demo ⟨1, 0, .rot .quat⟩ _ hr
    ⟨trivial, trivial, trivial⟩ ht (.inl rfl)
  have hJ := (c20_auto (L := geoLib dblEps) demo _ _ ht (.inl rfl)).symm.trans hJ
  have key : ∀ x ∈ c, RegularAt dblEps demo x.2 ∧
      Distinguished (⟨1, 0, .rot .quat⟩ : Target (geoLib dblEps)) x.2 ∧
      (total (occurrences (L := geoLib dblEps) demo ⟨1, 0, .rot .quat⟩ x.2)).isSome := by
    subst hc
    intro x hx
    simp only [List.mem_cons, List.not_mem_nil, or_false] at hx
    rcases hx with rfl | rfl
    · exact ⟨hr, by simp [Distinguished, exTwice, objects, nodeAddrs],
        Option.isSome_iff_exists.mpr ⟨J, hJ⟩⟩
    · refine ⟨demo_valid _ _, by simp [Distinguished, objects, nodeAddrs], ?_⟩
      simp only [occurrences]
      rw [dif_neg (by simp)]
      rfl
  obtain ⟨m, hm, hst⟩ := compound_dynamic (L := geoLib dblEps) demo ⟨1, 0, .rot .quat⟩ c
    fun e he => (key e he).2.1
  exact ⟨m, hm, c55_converges dblEps_pos dblEps_lt.le demo ⟨1, 0, .rot .quat⟩ c 20 (by simp)
    (demo_valid _ _) key hst j⟩

end WG
