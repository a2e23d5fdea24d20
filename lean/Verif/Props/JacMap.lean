import Verif.Model.MatrixMap
import Verif.Lemmas.Jac

/-!
# C26: the Jacobian map
-/

namespace WG
open Matrix

namespace MatrixMap
variable {K ρ : Type} [DecidableEq K]

/-- The registered blocks lie inside the storage and those of different keys are disjoint. -/
def Separate (m : MatrixMap K ρ) : Prop :=
  (∀ k p, m.index k = some p → p.1 + p.2 ≤ m.cols) ∧
  ∀ k k' p p', k ≠ k' → m.index k = some p → m.index k' = some p' →
    p.1 + p.2 ≤ p'.1 ∨ p'.1 + p'.2 ≤ p.1

theorem Separate.register {m : MatrixMap K ρ} (h : m.Separate) (kw : K × ℕ) :
    (m.register kw).Separate := by
  obtain ⟨h1, h2⟩ := h
  have key : ∀ k p, (m.register kw).index k = some p →
      m.index k = some p ∨ (k = kw.1 ∧ m.index k = none ∧ p = (m.cols, kw.2)) := by
    intro k p hk
    simp only [MatrixMap.register] at hk
    split_ifs at hk with e
    · rcases hi : m.index k with _ | q
      · rw [hi] at hk
        exact .inr ⟨e, rfl, (Option.some.inj hk).symm⟩
      · rw [hi] at hk
        exact .inl hk
    · exact .inl hk
  constructor
  · intro k p hk
    show p.1 + p.2 ≤ m.cols + kw.2
    rcases key k p hk with h | ⟨_, _, rfl⟩
    · have := h1 k p h; omega
    · rfl
  · intro k k' p p' hne hk hk'
    rcases key k p hk with h | ⟨e, _, rfl⟩ <;> rcases key k' p' hk' with h' | ⟨e', _, rfl⟩
    · exact h2 k k' p p' hne h h'
    · exact .inl (h1 k p h)
    · exact .inr (h1 k' p' h')
    · exact absurd (e.trans e'.symm) hne

theorem separate_mk' (g : ℕ → ρ → Num?) (kws : List (K × ℕ)) : (mk' g kws).Separate := by
  have : ∀ (m : MatrixMap K ρ), m.Separate → (kws.foldl register m).Separate := by
    induction kws with
    | nil => exact fun m h => h
    | cons kw kws ih => exact fun m h => ih _ (h.register kw)
  exact this _ ⟨by simp, by simp⟩

theorem index_foldl (kws : List (K × ℕ)) : ∀ (m : MatrixMap K ρ) (k : K),
    ((kws.foldl register m).index k).map (·.2) =
      ((m.index k).map (·.2)).orElse fun _ => (kws.find? fun kw => kw.1 = k).map (·.2) := by
  induction kws with
  | nil => intro m k; cases h : m.index k <;> simp [h]
  | cons kw kws ih =>
    intro m k
    rw [List.foldl_cons, ih]
    by_cases e : k = kw.1
    · subst e
      rcases h : m.index kw.1 with _ | q <;> simp [register, h]
    · have : ¬ kw.1 = k := fun h => e h.symm
      simp [register, e, List.find?, this]

/-- The registered widths: the first one given for each key. -/
theorem index_mk' (g : ℕ → ρ → Num?) (kws : List (K × ℕ)) (k : K) :
    ((mk' g kws).index k).map (·.2) = (kws.find? fun kw => kw.1 = k).map (·.2) := by
  rw [mk', index_foldl]; rfl

omit [DecidableEq K] in
theorem at'_isSome (m : MatrixMap K ρ) (k : K) : (m.at' k).isSome = (m.index k).isSome := by
  simp [at']

end MatrixMap

section
variable {K ρ : Type} [DecidableEq K]
open MatrixMap

/-- What was added to entry `(r, j)` of key `k`, in order. -/
def additions (k : K) (r : ρ) (j : ℕ) : List (K × (w : ℕ) × (ρ → Fin w → Num?)) → List Num?
  | [] => []
  | ⟨k', w, b⟩ :: ops =>
    if k' = k then (if h : j < w then b r ⟨j, h⟩ else some 0) :: additions k r j ops
    else additions k r j ops

/-- Sum of possibly non-finite numbers, left to right. -/
def Num?.sum (l : List Num?) : Num? := l.foldl Num?.add (some 0)

theorem accumulate_spec {m : MatrixMap K ρ} (h : m.Separate) {k : K} {p : ℕ × ℕ}
    (hk : m.index k = some p) (b : ρ → Fin p.2 → Num?) :
    ∃ m', m.accumulate k p.2 b = some m' ∧ m'.index = m.index ∧ m'.cols = m.cols ∧
      ∀ k' p', m.index k' = some p' → ∀ r (j : Fin p'.2), m'.storage (p'.1 + j) r =
        if k' = k then Num?.add (m.storage (p'.1 + j) r)
          (if hj : (j : ℕ) < p.2 then b r ⟨j, hj⟩ else some 0)
        else m.storage (p'.1 + j) r := by
  have ht : (m.touch k).index = m.index := by
    funext k'
    simp only [touch]
    split_ifs with e
    · subst e; rw [hk]; rfl
    · rfl
  refine ⟨⟨(m.touch k).index, m.cols, fun c r =>
    (if hc : p.1 ≤ c ∧ c < p.1 + p.2 then
      Num?.add (m.storage c r) (b r ⟨c - p.1, Nat.sub_lt_left_of_lt_add hc.1 hc.2⟩)
    else m.storage c r)⟩, ?_, ?_, ?_, ?_⟩
  · unfold accumulate
    simp only [ht, hk, Option.bind_some, dite_true]
    rfl
  · exact ht
  · rfl
  · intro k' p' hk' r j
    have hj := j.2
    by_cases e : k' = k
    · subst e
      obtain rfl : p = p' := Option.some.inj (hk.symm.trans hk')
      rw [if_pos rfl, dif_pos hj]
      show (if hc : p.1 ≤ p.1 + (j : ℕ) ∧ p.1 + (j : ℕ) < p.1 + p.2 then _ else _) = _
      rw [dif_pos ⟨by omega, by omega⟩]
      have : (⟨p.1 + (j : ℕ) - p.1, by omega⟩ : Fin p.2) = j := Fin.ext (by simp)
      rw [this]
    · rw [if_neg e]
      show (if hc : p.1 ≤ p'.1 + (j : ℕ) ∧ p'.1 + (j : ℕ) < p.1 + p.2 then _ else _) = _
      rw [dif_neg]
      rintro ⟨h1, h2⟩
      rcases h.2 k' k p' p e hk' hk with h3 | h3 <;> omega

/-- **C26.** Registering any keys with any widths, clearing, and then accumulating any sequence of
blocks of registered keys with the registered widths (that of the first registration of the key)
succeeds; afterwards the block of every registered key has its registered width and each of its
entries is the sum of what was added to that key and position, whatever was added to other keys. -/
theorem c26_accumulate (garbage : ℕ → ρ → Num?) (kws : List (K × ℕ))
    (ops : List (K × (w : ℕ) × (ρ → Fin w → Num?)))
    (hops : ∀ op ∈ ops, (kws.find? fun kw => kw.1 = op.1) = some (op.1, op.2.1)) :
    ∃ m, ((mk' garbage kws).setZero).accumulateAll ops = some m ∧
      ∀ k w, (kws.find? fun kw => kw.1 = k) = some (k, w) →
        m.at' k = some ⟨w, fun r j => Num?.sum (additions k r j ops)⟩ := by
  have hsep : ((mk' garbage kws).setZero).Separate := separate_mk' garbage kws
  have hidx : ∀ k, (((mk' garbage kws).setZero).index k).map (·.2) =
      (kws.find? fun kw => kw.1 = k).map (·.2) := index_mk' garbage kws
  have hz : ∀ c r, ((mk' garbage kws).setZero).storage c r = some 0 := fun _ _ => rfl
  obtain ⟨m0, hm0⟩ : ∃ m0, m0 = (mk' garbage kws).setZero := ⟨_, rfl⟩
  rw [← hm0] at hsep hidx hz ⊢
  -- generalise over the contents
  have gen : ∀ (ops : List (K × (w : ℕ) × (ρ → Fin w → Num?))),
      (∀ op ∈ ops, (kws.find? fun kw => kw.1 = op.1) = some (op.1, op.2.1)) →
      ∀ m : MatrixMap K ρ, m.Separate → m.index = m0.index →
      ∃ m', m.accumulateAll ops = some m' ∧ m'.index = m.index ∧
        ∀ k p, m.index k = some p → ∀ r (j : Fin p.2), m'.storage (p.1 + j) r =
          (additions k r j ops).foldl Num?.add (m.storage (p.1 + j) r) := by
    intro ops
    induction ops with
    | nil => intro _ m _ _; exact ⟨m, rfl, rfl, fun _ _ _ _ _ => rfl⟩
    | cons op ops ih =>
      obtain ⟨k, w, b⟩ := op
      intro hops m hs hi
      have hk := hops ⟨k, w, b⟩ (by simp)
      simp only at hk
      have hw := hidx k
      rw [hk, ← hi] at hw
      obtain ⟨p, hp, rfl⟩ : ∃ p, m.index k = some p ∧ p.2 = w := by
        rcases h : m.index k with _ | p
        · rw [h] at hw; simp at hw
        · rw [h] at hw; exact ⟨p, rfl, by simpa using hw⟩
      obtain ⟨m1, h1, h2, h3, h4⟩ := accumulate_spec hs hp b
      have hs1 : m1.Separate := by
        refine ⟨fun k q h => ?_, fun k k' q q' hne h h' => ?_⟩
        · rw [h3]; rw [h2] at h; exact hs.1 k q h
        · rw [h2] at h h'; exact hs.2 k k' q q' hne h h'
      obtain ⟨m', h5, h6, h7⟩ := ih (fun op h => hops op (by simp [h])) m1 hs1 (h2.trans hi)
      refine ⟨m', ?_, h6.trans h2, ?_⟩
      · show (m.accumulate k p.2 b).bind _ = _
        rw [h1]; exact h5
      · intro k' p' hk' r j
        rw [h7 k' p' (h2 ▸ hk') r j, h4 k' p' hk' r j]
        by_cases e : k' = k
        · subst e
          simp only [additions, if_true, List.foldl_cons]
        · have e' : ¬ k = k' := fun h => e h.symm
          simp only [additions, e, e', if_false]
  obtain ⟨m, h1, h2, h3⟩ := gen ops hops m0 hsep rfl
  refine ⟨m, h1, fun k w hk => ?_⟩
  have hw := hidx k
  rw [hk] at hw
  obtain ⟨p, hp, rfl⟩ : ∃ p, m0.index k = some p ∧ p.2 = w := by
    rcases h : m0.index k with _ | p
    · rw [h] at hw; simp at hw
    · rw [h] at hw; exact ⟨p, rfl, by simpa using hw⟩
  unfold at'
  rw [h2, hp]
  refine congrArg some ?_
  show (⟨p.2, _⟩ : (w : ℕ) × (ρ → Fin w → Num?)) = ⟨p.2, _⟩
  congr 1
  funext r j
  rw [h3 k p hp r j, hz]
  rfl

/-- **C26.** Keys that were not registered are reported missing by `count` and `at`, and stay
missing under any accumulations on registered keys; registered keys are reported present. -/
theorem c26_missing (garbage : ℕ → ρ → Num?) (kws : List (K × ℕ))
    (ops : List (K × (w : ℕ) × (ρ → Fin w → Num?)))
    (hops : ∀ op ∈ ops, op.1 ∈ kws.map (·.1)) (m : MatrixMap K ρ)
    (hm : ((mk' garbage kws).setZero).accumulateAll ops = some m) (k : K) :
    (k ∉ kws.map (·.1) → m.count k = 0 ∧ m.at' k = none) ∧
      (k ∈ kws.map (·.1) → m.count k = 1 ∧ (m.at' k).isSome) := by
  have hidx : ∀ k, (((mk' garbage kws).setZero).index k).map (·.2) =
      (kws.find? fun kw => kw.1 = k).map (·.2) := index_mk' garbage kws
  have hfind : ∀ k, ((kws.find? fun kw => kw.1 = k).map (·.2)).isSome ↔ k ∈ kws.map (·.1) := by
    intro k
    rw [Option.isSome_map, List.find?_isSome, List.mem_map]
    simp
  have gen : ∀ (ops : List (K × (w : ℕ) × (ρ → Fin w → Num?))),
      (∀ op ∈ ops, op.1 ∈ kws.map (·.1)) → ∀ m m' : MatrixMap K ρ,
      (∀ k, (m.index k).isSome ↔ k ∈ kws.map (·.1)) → m.accumulateAll ops = some m' →
      (∀ k, (m'.index k).isSome ↔ k ∈ kws.map (·.1)) := by
    intro ops
    induction ops with
    | nil => intro _ m m' h h'; cases h'; exact h
    | cons op ops ih =>
      obtain ⟨k, w, b⟩ := op
      intro ho m m' h h'
      change (m.accumulate k w b).bind _ = _ at h'
      rcases hacc : m.accumulate k w b with _ | m1
      · rw [hacc] at h'; cases h'
      · rw [hacc] at h'
        refine ih (fun op h => ho op (by simp [h])) m1 m' ?_ h'
        have hk := ho ⟨k, w, b⟩ (by simp)
        have hm1 : m1.index = (m.touch k).index := by
          unfold accumulate at hacc
          simp only at hacc
          rcases hp : (m.touch k).index k with _ | p
          · rw [hp] at hacc; cases hacc
          · rw [hp] at hacc
            simp only [Option.bind_some] at hacc
            split_ifs at hacc
            cases hacc; rfl
        intro k'
        rw [hm1]
        simp only [touch]
        split_ifs with e
        · subst e
          have := (h k').2 hk
          rcases hq : m.index k' with _ | q
          · rw [hq] at this; cases this
          · simpa using hk
        · exact h k'
  have h := gen ops hops _ m (fun k => by rw [← hfind k, ← hidx k, Option.isSome_map]) hm k
  constructor
  · intro hk
    have : m.index k = none := by
      rcases hq : m.index k with _ | q
      · rfl
      · exact absurd (h.1 (by rw [hq]; rfl)) hk
    simp [count, at', this]
  · intro hk
    have := h.2 hk
    exact ⟨by simp [count, this], by rw [at'_isSome]; exact this⟩

/-- **C26** (negation of a stronger reading). Reading a missing key through `operator[]` makes it
present: `count` then reports 1 and `at` returns an empty block. -/
theorem c26_touch_inserts (garbage : ℕ → ρ → Num?) (k : K) :
    ((mk' garbage ([] : List (K × ℕ))).count k = 0) ∧
      ((mk' garbage ([] : List (K × ℕ))).touch k).count k = 1 := by
  constructor <;> simp [mk', count, touch]

/-- A concrete case: keys 7 and 3 (7 registered twice), three accumulations. -/
example : ∃ m, ((mk' (ρ := Fin 1) (fun _ _ => none) [(7, 2), (7, 2), (3, 1)]).setZero).accumulateAll
      [⟨7, 2, fun _ j => some (j : ℕ)⟩, ⟨3, 1, fun _ _ => some 5⟩, ⟨7, 2, fun _ _ => some 10⟩] =
        some m ∧
      m.at' 7 = some ⟨2, fun r j => Num?.sum (additions 7 r j
        [⟨7, 2, fun _ j => some (j : ℕ)⟩, ⟨3, 1, fun _ _ => some 5⟩, ⟨7, 2, fun _ _ => some 10⟩])⟩ := by
  obtain ⟨m, h1, h2⟩ := c26_accumulate (ρ := Fin 1) (fun _ _ => none) [(7, 2), (7, 2), (3, 1)]
    [⟨7, 2, fun _ j => some (j : ℕ)⟩, ⟨3, 1, fun _ _ => some 5⟩, ⟨7, 2, fun _ _ => some 10⟩]
    (by intro op h; simp at h; rcases h with rfl | rfl | rfl <;> simp [List.find?])
  exact ⟨m, h1, h2 7 2 (by simp [List.find?])⟩

end

end WG
