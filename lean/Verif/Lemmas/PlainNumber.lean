import Verif.Spec.PlainNumber
import Verif.Lemmas.DiffMain

/-!
# Lemmas on expressions with plain numbers
-/

namespace WG
open Spec Matrix Filter Topology

variable {ε : ℝ}

theorem sc_zero (x : Fin 1 → ℝ) : sc (x 0) = x := by
  funext i
  rw [Subsingleton.elim i 0]
  rfl

theorem memReals_obj (s : Store (numLib ε)) (a : ℕ) (α : NTy) :
    memReals s (10 * a + code α) (NTy.real α) = asReal α (s a α) := by
  rcases α with _ | k | k | τ
  · have h1 : (10 * a + 1) / 10 = a := by omega
    have h2 : (10 * a + 1) % 10 = 1 := by omega
    simp [memReals, code, asReal, NTy.real, h1, h2]
  · cases k
    · have h1 : (10 * a + 2) / 10 = a := by omega
      have h2 : (10 * a + 2) % 10 = 2 := by omega
      simp [memReals, code, asReal, NTy.real, h1, h2]
    · have h1 : (10 * a + 3) / 10 = a := by omega
      have h2 : (10 * a + 3) % 10 = 3 := by omega
      simp [memReals, code, asReal, NTy.real, h1, h2]
    · have h1 : (10 * a + 4) / 10 = a := by omega
      have h2 : (10 * a + 4) % 10 = 4 := by omega
      simp [memReals, code, asReal, NTy.real, h1, h2]
    · have h1 : (10 * a + 5) / 10 = a := by omega
      have h2 : (10 * a + 5) % 10 = 5 := by omega
      simp [memReals, code, asReal, NTy.real, h1, h2]
  · cases k
    · have h1 : (10 * a + 6) / 10 = a := by omega
      have h2 : (10 * a + 6) % 10 = 6 := by omega
      simp [memReals, code, asReal, NTy.real, h1, h2]
    · have h1 : (10 * a + 7) / 10 = a := by omega
      have h2 : (10 * a + 7) % 10 = 7 := by omega
      simp [memReals, code, asReal, NTy.real, h1, h2]
    · have h1 : (10 * a + 8) / 10 = a := by omega
      have h2 : (10 * a + 8) % 10 = 8 := by omega
      simp [memReals, code, asReal, NTy.real, h1, h2]
    · have h1 : (10 * a + 9) / 10 = a := by omega
      have h2 : (10 * a + 9) % 10 = 9 := by omega
      simp [memReals, code, asReal, NTy.real, h1, h2]
  · have h1 : (10 * a + 0) / 10 = a := by omega
    have h2 : (10 * a + 0) % 10 = 0 := by omega
    change memReals s (10 * a + 0) τ = s a (NTy.geo τ)
    rcases τ with k | _ | k | k
    · cases k <;> simp [memReals]
    all_goals simp [memReals]

theorem code_lt (α : NTy) : code α < 10 := by
  rcases α with _ | k | k | τ <;> first | (cases k <;> simp [code]) | simp [code]

/-- Class and code determine a class. -/
theorem code_inj {α β : NTy} (h : code α = code β) (hr : NTy.real α = NTy.real β) : α = β := by
  rcases α with _ | k | k | τ <;> rcases β with _ | k' | k' | τ' <;> (try cases k) <;>
    (try cases k') <;> first | rfl | (exact congrArg NTy.geo hr) | (simp [code] at h)

theorem objReals_inj {t u : Target (numLib ε)} (h : objReals t = objReals u) : t = u := by
  obtain ⟨a, c, α⟩ := t
  obtain ⟨a', c', α'⟩ := u
  unfold objReals at h
  simp only [Target.mk.injEq] at h
  have h1 := code_lt α
  have h2 := code_lt α'
  have hc : code α = code α' := by omega
  have hα := code_inj hc h.2.2
  subst hα
  congr 1 <;> omega

/-- Unary operations agree with those over `double`. -/
theorem evalU_reals (s : Store (geoLib ε)) (a : ℕ) {α β : NTy} (op : NUn α β)
    (e : Expr (geoLib ε) α.real) (x : Option α.Val) (h : value s e = x.map (asReal α)) :
    value s (unReals a op e) = (x.bind (nEvalUn ε op)).map (asReal β) := by
  cases op with
  | geo op =>
    change (value s e).bind (evalUn ε op) = _
    rw [h]
    cases x <;> simp [nEvalUn, asReal]
    rename_i x
    cases evalUn ε op x <;> rfl
  | ref =>
    change value s e = _
    rw [h]
    cases x <;> rfl
  | refInt k =>
    change value s e = _
    rw [h]
    cases x <;> rfl

/-- Binary operations agree with those over `double`. -/
theorem evalB_reals {α β γ : NTy} (op : NBin α β γ) (x : α.Val) (y : β.Val) :
    evalBin (binReals op) (asReal α x) (asReal β y) = (nEvalBin op x y).map (asReal γ) := by
  cases op with
  | geo op =>
    change evalBin op x y = (evalBin op x y).map _
    cases evalBin op x y <;> rfl
  | sumI k =>
    change some (vSum (n := Fin 1) x (sc (y : ℝ))) = some (sc (x 0 + (y : ℝ)))
    rw [← sc_zero (vSum (n := Fin 1) x (sc (y : ℝ)))]
    rfl
  | subI k =>
    change some (vSub (n := Fin 1) x (sc (y : ℝ))) = some (sc (x 0 - (y : ℝ)))
    rw [← sc_zero (vSub (n := Fin 1) x (sc (y : ℝ)))]
    rfl
  | productI k => rfl
  | productL k => rfl
  | divideI k =>
    change (sDivide (x (0 : Fin 1)) (y : ℝ)).map sc = ((sDivide (x (0 : Fin 1)) (y : ℝ)).map sc).map _
    cases sDivide (x (0 : Fin 1)) (y : ℝ) <;> rfl
  | divideL k =>
    change (sDivide (x : ℝ) (y (0 : Fin 1))).map sc = ((sDivide (x : ℝ) (y (0 : Fin 1))).map sc).map _
    cases sDivide (x : ℝ) (y (0 : Fin 1)) <;> rfl
  | scaleI k v => rfl
  | scaleRI k v => rfl
  | scaleDivI k v =>
    change vScaleDiv (n := v.Idx) x (y : ℝ) = (vScaleDiv (n := v.Idx) x (y : ℝ)).map _
    cases vScaleDiv (n := v.Idx) x (y : ℝ) <;> rfl

/-- The value of an expression is the value of the expression over `double`. -/
theorem value_inReals (s : Store (numLib ε)) : {α : NTy} → (e : Expr (numLib ε) α) →
    value (memReals s) (inReals e) = (value s e).map (asReal α)
  | _, .leaf a c α => congrArg some (memReals_obj s a α)
  | _, .un a op e => evalU_reals (memReals s) a op (inReals e) (value s e) (value_inReals s e)
  | _, .bin a op l r => by
    have hl := value_inReals s l
    have hr := value_inReals s r
    change ((value (memReals s) (inReals l)).bind fun x => (value (memReals s) (inReals r)).bind
      fun y => evalBin (binReals op) x y) = ((value s l).bind fun x => (value s r).bind
      fun y => nEvalBin op x y).map _
    rw [hl, hr]
    cases value s l with
    | none => rfl
    | some x =>
      cases value s r with
      | none => rfl
      | some y => exact evalB_reals op x y
  | _, .proxy a e => value_inReals s e

theorem objects_unReals (a : ℕ) {α β : NTy} (op : NUn α β) (e : Expr (geoLib ε) α.real) :
    objects (unReals a op e) = objects e := by
  cases op <;> rfl

theorem objects_inReals : {α : NTy} → (e : Expr (numLib ε) α) →
    objects (inReals e) = (objects e).map objReals
  | _, .leaf a c α => rfl
  | _, .un a op e => by
    change objects (unReals a op (inReals e)) = (objects e).map objReals
    rw [objects_unReals, objects_inReals e]
  | _, .bin a op l r => by
    change objects (inReals l) ++ objects (inReals r) = (objects l ++ objects r).map objReals
    rw [List.map_append, objects_inReals l, objects_inReals r]
  | _, .proxy a e => objects_inReals e

/-- An expression of an integer class contains no `double`. -/
theorem not_floating_of_mem (k : IntK) : {α : NTy} → (e : Expr (numLib ε) α) →
    α = .integer k ∨ α = .intScalar k → ∀ o ∈ objects e, ¬ Floating o
  | _, .leaf a c α, h, o, ho, hf => by
    have : o = ⟨a, c, α⟩ := by simpa [objects] using ho
    subst this
    rcases h with h | h
    · exact (hf k).1 h
    · exact (hf k).2 h
  | _, .un a (op : NUn _ _) e, h, o, ho, hf => by
    have ih := not_floating_of_mem k e
    cases op with
    | geo op => rcases h with h | h <;> cases h
    | ref => rcases h with h | h <;> cases h
    | refInt k' =>
      rcases h with h | h <;> cases h
      exact ih (.inl rfl) o ho hf
  | _, .bin a (op : NBin _ _ _) l r, h, _, _, _ => by
    cases op <;> (rcases h with h | h <;> cases h)
  | _, .proxy a e, h, o, ho, hf => not_floating_of_mem k e h o ho hf

/-- A number can be read. -/
theorem value_number (s : Store (numLib ε)) : {α : NTy} → (e : Expr (numLib ε) α) →
    (α = .number ∨ ∃ k, α = .integer k) → ∃ x, value s e = some x
  | _, .leaf a c α, _ => ⟨_, rfl⟩
  | _, .un a (op : NUn _ _) e, h => by cases op <;> rcases h with h | ⟨_, h⟩ <;> cases h
  | _, .bin a (op : NBin _ _ _) l r, h => by cases op <;> rcases h with h | ⟨_, h⟩ <;> cases h
  | _, .proxy a e, h => value_number s e h

/-- Local Jacobians with respect to the left operand agree. -/
theorem jacL_reals {α β γ : NTy} (op : NBin α β γ) (v : γ.Val) (x : α.Val) (y : β.Val)
    (hg : GoodQuotient op x y) :
    jacL (binReals op) (asReal γ v) (asReal α x) (asReal β y) = nJacL op v x y := by
  cases op with
  | geo op => rfl
  | sumI k => rfl
  | subI k => rfl
  | productI k => rfl
  | productL k => rfl
  | divideI k =>
    change divideJacL ((y : ℤ) : ℝ) = (intRecip y).map fun q => mat1 (q : ℝ)
    change (y : ℤ) = 1 ∨ (y : ℤ) = -1 at hg
    rcases hg with h | h <;> rw [h] <;> norm_num [divideJacL, rdiv, intRecip]
  | divideL k => rfl
  | scaleI k v => rfl
  | scaleRI k v => rfl
  | scaleDivI k v => rfl

/-- Classes of objects holding `double`s. -/
def NTy.floating : NTy → Prop
  | .number => True
  | .integer _ => False
  | .intScalar _ => False
  | .geo _ => True

theorem wrap_of_fits {k : IntK} {z : ℤ} (h : Fits k z) : k.wrap z = some z := by
  obtain ⟨h1, h2⟩ := h
  cases k <;> simp only [least, greatest] at h1 h2 <;> unfold IntK.wrap <;>
    simp only [IntK.signed, IntK.bits] <;> norm_num <;> omega

theorem wrap_neg {k : IntK} {z : ℤ}
    (h : modulus k = none ∧ least k < z ∧ z ≤ greatest k ∨ z = 0) : k.wrap (-z) = some (-z) := by
  rcases h with ⟨hs, h⟩ | rfl
  · refine wrap_of_fits ?_
    unfold Fits
    cases k <;> simp_all [modulus, least, greatest] <;> omega
  · cases k <;> simp [IntK.wrap, IntK.signed]

/-- Local Jacobians with respect to a right operand over `double` agree. -/
theorem jacR_reals {α β γ : NTy} (op : NBin α β γ) (v : γ.Val) (x : α.Val) (y : β.Val)
    (hg : GoodQuotient op x y) (hβ : β.floating) :
    jacR (binReals op) (asReal γ v) (asReal α x) (asReal β y) = nJacR op v x y := by
  cases op with
  | geo op => rfl
  | sumI k => exact hβ.elim
  | subI k => exact hβ.elim
  | productI k => exact hβ.elim
  | productL k => rfl
  | divideI k => exact hβ.elim
  | divideL k =>
    change divideJacR ((x : ℤ) : ℝ) (y (0 : Fin 1)) = (k.wrap (-(x : ℤ))).bind fun q =>
      (rdiv (q : ℝ) (y (0 : Fin 1) * y (0 : Fin 1))).map mat1
    rw [wrap_neg hg]
    change _ = (rdiv ((-(x : ℤ) : ℤ) : ℝ) (y (0 : Fin 1) * y (0 : Fin 1))).map mat1
    rw [Int.cast_neg]
    rfl
  | scaleI k v => rfl
  | scaleRI k v => exact hβ.elim
  | scaleDivI k v => exact hβ.elim

theorem wrap_sq {k : IntK} {z : ℤ} (h : z * z ≤ greatest k) : k.wrap (z * z) = some (z * z) :=
  wrap_of_fits ⟨le_trans (by cases k <;> simp [least]) (mul_self_nonneg z), h⟩

/-- Local Jacobians with respect to the right operand agree. -/
theorem jacR_reals_all {α β γ : NTy} (op : NBin α β γ) (v : γ.Val) (x : α.Val) (y : β.Val)
    (hg : GoodQuotient op x y) (hs : GoodSquare op y) :
    jacR (binReals op) (asReal γ v) (asReal α x) (asReal β y) = nJacR op v x y := by
  cases op with
  | geo op => rfl
  | sumI k => rfl
  | subI k => rfl
  | productI k => rfl
  | productL k => rfl
  | divideI k =>
    change divideJacR (x (0 : Fin 1)) ((y : ℤ) : ℝ) = (k.wrap ((y : ℤ) * (y : ℤ))).bind fun q =>
      (rdiv (-(x (0 : Fin 1))) (q : ℝ)).map mat1
    rw [wrap_sq hs]
    change _ = (rdiv (-(x (0 : Fin 1))) (((y : ℤ) * (y : ℤ) : ℤ) : ℝ)).map mat1
    rw [Int.cast_mul]
    rfl
  | divideL k => exact jacR_reals _ v x y hg trivial
  | scaleI k v => rfl
  | scaleRI k v => rfl
  | scaleDivI k w =>
    change scaleDivJacR (n := w.Idx) x ((y : ℤ) : ℝ) = (k.wrap ((y : ℤ) * (y : ℤ))).bind fun q =>
      if q = 0 then none else some (colMat (n := w.Idx) fun i => -x i / (q : ℝ))
    rw [wrap_sq hs]
    change _ = if (y : ℤ) * (y : ℤ) = 0 then none else some (colMat (n := w.Idx) fun i =>
      -x i / (((y : ℤ) * (y : ℤ) : ℤ) : ℝ))
    unfold scaleDivJacR
    rw [Int.cast_mul]
    have : ((y : ℤ) : ℝ) * ((y : ℤ) : ℝ) = 0 ↔ (y : ℤ) * (y : ℤ) = 0 := by norm_cast
    simp only [this]

theorem floating_of_target {t : Target (numLib ε)} (h : Floating t) : NTy.floating t.ty := by
  obtain ⟨a, c, α⟩ := t
  rcases α with _ | k | k | τ
  · trivial
  · exact (h k).1 rfl
  · exact (h k).2 rfl
  · trivial

/-- Occurrences in an operand of an integer class. -/
theorem occ_int {s : Store (numLib ε)} {t : Target (numLib ε)} (ht : Floating t) {α : NTy}
    (e : Expr (numLib ε) α) (hα : ¬ α.floating) :
    occurrences s t e = [] ∧ occurrences (memReals s) (objReals t) (inReals e) = [] := by
  have hk : ∃ k, α = .integer k ∨ α = .intScalar k := by
    rcases α with _ | k | k | τ
    · exact (hα trivial).elim
    · exact ⟨k, .inl rfl⟩
    · exact ⟨k, .inr rfl⟩
    · exact (hα trivial).elim
  obtain ⟨k, hk⟩ := hk
  have hn : t ∉ objects e := fun h => not_floating_of_mem k e hk t h ht
  refine ⟨occ_nil hn, occ_nil ?_⟩
  rw [objects_inReals]
  intro h
  obtain ⟨o, ho, h⟩ := List.mem_map.1 h
  exact hn (objReals_inj h ▸ ho)

theorem one_mul_map {m n : Type} [Fintype m] [DecidableEq m] (As : List (OMat m n)) :
    As.map (OMat.mul (some (1 : Matrix m m ℝ))) = As := by
  induction As with
  | nil => rfl
  | cons A As ih =>
    rw [List.map_cons, ih]
    cases A with
    | none => rfl
    | some A =>
      change some (1 * A) :: As = _
      rw [Matrix.one_mul]
      rfl

theorem occ_same_leaf {L : Lib} (s : Store L) (a c : ℕ) (τ : L.Ty) :
    occurrences s ⟨a, c, τ⟩ (.leaf a c τ) = [some 1] := by
  unfold occurrences
  rw [dif_pos rfl]
  rfl

theorem occ_other_leaf {L : Lib} (s : Store L) {t : Target L} {a c : ℕ} {τ : L.Ty}
    (h : ¬ (⟨a, c, τ⟩ : Target L) = t) : occurrences s t (.leaf a c τ) = [] := by
  unfold occurrences
  rw [dif_neg h]

/-- The products of local derivatives are those over `double`. -/
theorem occ_inReals (s : Store (numLib ε)) (t : Target (numLib ε)) (ht : Floating t) :
    {α : NTy} → (e : Expr (numLib ε) α) → GoodQuotients s e →
    occurrences (memReals s) (objReals t) (inReals e) = occurrences s t e
  | _, .leaf a c α, _ => by
    by_cases h : (⟨a, c, α⟩ : Target (numLib ε)) = t
    · subst h
      exact (occ_same_leaf (memReals s) _ _ _).trans (occ_same_leaf s a c α).symm
    · have h' : ¬ objReals (⟨a, c, α⟩ : Target (numLib ε)) = objReals t := fun h' => h (objReals_inj h')
      exact (occ_other_leaf (memReals s) h').trans (occ_other_leaf s h).symm
  | _, .un a (op : NUn _ _) e, hg => by
    have ih := occ_inReals s t ht e hg
    have hv := value_inReals s e
    have hn := value_number s e
    have hi := fun h => occ_int (s := s) ht e h
    change occurrences (memReals s) (objReals t) (unReals a op (inReals e)) =
      (occurrences s t e).map (OMat.mul (slopeU s op e))
    cases op with
    | geo op =>
      change (occurrences (memReals s) (objReals t) (inReals e)).map
        (OMat.mul (slopeU (L := geoLib ε) (memReals s) op (inReals e))) = _
      rw [ih]
      congr 2
      unfold slopeU
      rw [hv]
      cases value s e <;> rfl
    | ref =>
      change occurrences (memReals s) (objReals t) (inReals e) = _
      obtain ⟨x, hx⟩ := hn (.inl rfl)
      have : slopeU (L := numLib ε) s NUn.ref e = some (1 : Matrix (Fin 1) (Fin 1) ℝ) := by
        unfold slopeU
        rw [hx]
        rfl
      rw [this, ih]
      exact (one_mul_map _).symm
    | refInt k =>
      change occurrences (memReals s) (objReals t) (inReals e) = _
      rw [ih, (hi id).1]
      rfl
  | _, .bin (α := α') (β := β') a (op : NBin α' β' _) l r, hg => by
    have ihl := occ_inReals s t ht l hg.1
    have ihr := occ_inReals s t ht r hg.2.1
    have hl := value_inReals s l
    have hr := value_inReals s r
    change (occurrences (memReals s) (objReals t) (inReals l)).map
        (OMat.mul (slopeL (L := geoLib ε) (memReals s) (binReals op) (inReals l) (inReals r))) ++
      (occurrences (memReals s) (objReals t) (inReals r)).map
        (OMat.mul (slopeR (L := geoLib ε) (memReals s) (binReals op) (inReals l) (inReals r))) =
      (occurrences s t l).map (OMat.mul (slopeL s op l r)) ++
        (occurrences s t r).map (OMat.mul (slopeR s op l r))
    have h1 : slopeL (L := geoLib ε) (memReals s) (binReals op) (inReals l) (inReals r) =
        slopeL s op l r := by
      unfold slopeL
      rw [hl, hr]
      cases hx : value s l with
      | none => rfl
      | some x =>
        cases hy : value s r with
        | none => rfl
        | some y =>
          change (evalBin (binReals op) (asReal _ x) (asReal _ y)).bind _ = _
          rw [evalB_reals]
          change _ = (nEvalBin op x y).bind fun v => nJacL op v x y
          cases nEvalBin op x y with
          | none => rfl
          | some v => exact jacL_reals op v x y (hg.2.2 x y hx hy)
    rw [h1, ihl, ihr]
    congr 1
    by_cases hβ : NTy.floating β'
    · have h2 : slopeR (L := geoLib ε) (memReals s) (binReals op) (inReals l) (inReals r) =
          slopeR s op l r := by
        unfold slopeR
        rw [hl, hr]
        cases hx : value s l with
        | none => rfl
        | some x =>
          cases hy : value s r with
          | none => rfl
          | some y =>
            change (evalBin (binReals op) (asReal _ x) (asReal _ y)).bind _ = _
            rw [evalB_reals]
            change _ = (nEvalBin op x y).bind fun v => nJacR op v x y
            cases nEvalBin op x y with
            | none => rfl
            | some v => exact jacR_reals op v x y (hg.2.2 x y hx hy) hβ
      rw [h2]
      rfl
    · rw [(occ_int ht r hβ).1]
      rfl
  | _, .proxy a e, hg => occ_inReals s t ht e hg

/-- The products of local derivatives are those over `double`, for integers too. -/
theorem occ_inReals_all (s : Store (numLib ε)) (t : Target (numLib ε)) :
    {α : NTy} → (e : Expr (numLib ε) α) → GoodQuotients s e → GoodSquares s e →
    occurrences (memReals s) (objReals t) (inReals e) = occurrences s t e
  | _, .leaf a c α, _, _ => by
    by_cases h : (⟨a, c, α⟩ : Target (numLib ε)) = t
    · subst h
      exact (occ_same_leaf (memReals s) _ _ _).trans (occ_same_leaf s a c α).symm
    · have h' : ¬ objReals (⟨a, c, α⟩ : Target (numLib ε)) = objReals t := fun h' => h (objReals_inj h')
      exact (occ_other_leaf (memReals s) h').trans (occ_other_leaf s h).symm
  | _, .un a (op : NUn _ _) e, hg, hq => by
    have ih := occ_inReals_all s t e hg hq
    have hv := value_inReals s e
    have hn := value_number s e
    change occurrences (memReals s) (objReals t) (unReals a op (inReals e)) =
      (occurrences s t e).map (OMat.mul (slopeU s op e))
    cases op with
    | geo op =>
      change (occurrences (memReals s) (objReals t) (inReals e)).map
        (OMat.mul (slopeU (L := geoLib ε) (memReals s) op (inReals e))) = _
      rw [ih]
      congr 2
      unfold slopeU
      rw [hv]
      cases value s e <;> rfl
    | ref =>
      change occurrences (memReals s) (objReals t) (inReals e) = _
      obtain ⟨x, hx⟩ := hn (.inl rfl)
      have : slopeU (L := numLib ε) s NUn.ref e = some (1 : Matrix (Fin 1) (Fin 1) ℝ) := by
        unfold slopeU
        rw [hx]
        rfl
      rw [this, ih]
      exact (one_mul_map _).symm
    | refInt k =>
      change occurrences (memReals s) (objReals t) (inReals e) = _
      obtain ⟨x, hx⟩ := hn (.inr ⟨k, rfl⟩)
      have : slopeU (L := numLib ε) s (NUn.refInt k) e = some (1 : Matrix (Fin 1) (Fin 1) ℝ) := by
        unfold slopeU
        rw [hx]
        rfl
      rw [this, ih]
      exact (one_mul_map _).symm
  | _, .bin (α := α') (β := β') a (op : NBin α' β' _) l r, hg, hq => by
    have ihl := occ_inReals_all s t l hg.1 hq.1
    have ihr := occ_inReals_all s t r hg.2.1 hq.2.1
    have hl := value_inReals s l
    have hr := value_inReals s r
    change (occurrences (memReals s) (objReals t) (inReals l)).map
        (OMat.mul (slopeL (L := geoLib ε) (memReals s) (binReals op) (inReals l) (inReals r))) ++
      (occurrences (memReals s) (objReals t) (inReals r)).map
        (OMat.mul (slopeR (L := geoLib ε) (memReals s) (binReals op) (inReals l) (inReals r))) =
      (occurrences s t l).map (OMat.mul (slopeL s op l r)) ++
        (occurrences s t r).map (OMat.mul (slopeR s op l r))
    have h1 : slopeL (L := geoLib ε) (memReals s) (binReals op) (inReals l) (inReals r) =
        slopeL s op l r := by
      unfold slopeL
      rw [hl, hr]
      cases hx : value s l with
      | none => rfl
      | some x =>
        cases hy : value s r with
        | none => rfl
        | some y =>
          change (evalBin (binReals op) (asReal _ x) (asReal _ y)).bind _ = _
          rw [evalB_reals]
          change _ = (nEvalBin op x y).bind fun v => nJacL op v x y
          cases nEvalBin op x y with
          | none => rfl
          | some v => exact jacL_reals op v x y (hg.2.2 x y hx hy)
    have h2 : slopeR (L := geoLib ε) (memReals s) (binReals op) (inReals l) (inReals r) =
        slopeR s op l r := by
      unfold slopeR
      rw [hl, hr]
      cases hx : value s l with
      | none => rfl
      | some x =>
        cases hy : value s r with
        | none => rfl
        | some y =>
          change (evalBin (binReals op) (asReal _ x) (asReal _ y)).bind _ = _
          rw [evalB_reals]
          change _ = (nEvalBin op x y).bind fun v => nJacR op v x y
          cases nEvalBin op x y with
          | none => rfl
          | some v => exact jacR_reals_all op v x y (hg.2.2 x y hx hy) (hq.2.2 y hy)
    rw [h1, h2, ihl, ihr]
    rfl
  | _, .proxy a e, hg, hq => occ_inReals_all s t e hg hq

/-- Every address over `double` stands for an object, or holds the same value in all memories. -/
theorem cover (b : ℕ) (τ : Ty) :
    (∃ a α, b = 10 * a + code α ∧ τ = NTy.real α) ∨ (τ ≠ .vec .scalar ∧ b % 10 ≠ 0) := by
  by_cases hτ : τ = .vec .scalar
  · subst hτ
    left
    have h : ∃ α, b % 10 = code α ∧ Ty.vec .scalar = NTy.real α := by
      have : b % 10 < 10 := Nat.mod_lt _ (by norm_num)
      interval_cases b % 10
      · exact ⟨.geo (.vec .scalar), rfl, rfl⟩
      · exact ⟨.number, rfl, rfl⟩
      · exact ⟨.integer .int, rfl, rfl⟩
      · exact ⟨.integer .uint, rfl, rfl⟩
      · exact ⟨.integer .long, rfl, rfl⟩
      · exact ⟨.integer .ulong, rfl, rfl⟩
      · exact ⟨.intScalar .int, rfl, rfl⟩
      · exact ⟨.intScalar .uint, rfl, rfl⟩
      · exact ⟨.intScalar .long, rfl, rfl⟩
      · exact ⟨.intScalar .ulong, rfl, rfl⟩
    obtain ⟨α, h, hr⟩ := h
    exact ⟨b / 10, α, by omega, hr⟩
  · by_cases hb : b % 10 = 0
    · exact .inl ⟨b / 10, .geo τ, by change b = 10 * (b / 10) + 0; omega, rfl⟩
    · exact .inr ⟨hτ, hb⟩

theorem memReals_const (s : Store (numLib ε)) {b : ℕ} {τ : Ty} (hτ : τ ≠ .vec .scalar)
    (hb : b % 10 ≠ 0) : memReals s b τ = someVal τ := by
  rcases τ with k | _ | k | k
  · cases k <;> first | exact absurd rfl hτ | simp [memReals, hb]
  all_goals simp [memReals, hb]

/-- Assigning to an object. -/
theorem memReals_set (s : Store (numLib ε)) (t : Target (numLib ε)) (v : (numLib ε).Val t.ty) :
    memReals (s.set t.addr t.ty v) =
      (memReals s).set (objReals t).addr (objReals t).ty (asReal t.ty v) := by
  obtain ⟨a, c, α⟩ := t
  funext b τ
  rcases cover b τ with ⟨a', α', rfl, rfl⟩ | ⟨hτ, hb⟩
  · rw [memReals_obj]
    by_cases h : a' = a ∧ α = α'
    · obtain ⟨rfl, rfl⟩ := h
      rw [Store.set_get]
      exact (Store.set_get (L := geoLib ε) (memReals s) _ _ _).symm
    · rw [Store.set_of_ne _ _ h, ← memReals_obj]
      refine (Store.set_of_ne (L := geoLib ε) (memReals s) _ ?_).symm
      rintro ⟨h1, h2⟩
      have h3 := code_lt α
      have h4 := code_lt α'
      change 10 * a' + code α' = 10 * a + code α at h1
      exact h ⟨by omega, code_inj (by omega) h2⟩
  · rw [memReals_const _ hτ hb, ← memReals_const s hτ hb]
    refine (Store.set_of_ne (L := geoLib ε) (memReals s) _ ?_).symm
    rintro ⟨h1, h2⟩
    change b = 10 * a + code α at h1
    change NTy.real α = τ at h2
    rcases α with _ | k | k | τ'
    · exact hτ h2.symm
    · exact hτ h2.symm
    · exact hτ h2.symm
    · change b = 10 * a + 0 at h1
      omega

/-- Adding to an object holding `double`s. -/
theorem boxPlus_reals {α : NTy} (hα : α.floating) (x : α.Val) (d : α.real.Idx → ℝ) :
    boxPlusVal ε α.real (asReal α x) d = (nBoxPlus ε α x d).map (asReal α) := by
  rcases α with _ | k | k | τ
  · change some (vSum (n := Fin 1) x d) = some (sc (x 0 + d 0))
    rw [← sc_zero (vSum (n := Fin 1) x d)]
    rfl
  · exact hα.elim
  · exact hα.elim
  · change boxPlusVal ε τ x d = (boxPlusVal ε τ x d).map _
    cases boxPlusVal ε τ x d <;> rfl

/-- The response of an expression is that over `double`. -/
theorem response_inReals (s : Store (numLib ε)) (t : Target (numLib ε)) (ht : Floating t) {τ : Ty}
    (e : Expr (numLib ε) (.geo τ)) (d : (NTy.real t.ty).Idx → ℝ) :
    response (memReals s) (objReals t) (inReals e) d = responseN s t e d := by
  have hb := boxPlus_reals (ε := ε) (floating_of_target ht) (s t.addr t.ty) d
  have h0 := value_inReals s e
  unfold response responseN
  change ((boxPlusVal ε (NTy.real t.ty) (memReals s (10 * t.addr + code t.ty) (NTy.real t.ty)) d).bind
    _) = _
  rw [memReals_obj, hb]
  cases nBoxPlus ε t.ty (s t.addr t.ty) d with
  | none => rfl
  | some v =>
    change ((value ((memReals s).set (objReals t).addr (objReals t).ty (asReal t.ty v))
      (inReals e)).bind _) = (value (s.set t.addr t.ty v) e).bind _
    rw [← memReals_set, value_inReals, h0]
    cases value (s.set t.addr t.ty v) e with
    | none => rfl
    | some y => cases value s e <;> rfl

end WG
