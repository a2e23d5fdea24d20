import Verif.Lemmas.PlainNumber
import Verif.Props.Numerical
import Verif.Props.Differentiation
import Verif.Props.Evaluation

/-!
# C66: plain numbers in expressions
-/

namespace WG
open Spec Matrix Filter Topology

variable {ε : ℝ}

/-- **C66 (values).** An expression with plain numbers, named or not, integer or not, has the value
of the expression with `Scalar` objects holding those numbers. -/
theorem c66_value (s : Store (numLib ε)) {τ : Ty} (e : Expr (numLib ε) (.geo τ)) :
    e.eval s = (inReals e).eval (memReals s) := by
  unfold Expr.eval
  rw [mk_val, mk_val, value_inReals]
  change _ = (value s e).map id
  rw [Option.map_id]
  rfl

/-- **C66 (accepted).** `l op r` with a number on one side compiles exactly if the other side is an
expression, except that an integer cannot be on the left of `+` and `-`. -/
theorem c66_accepted (op : NOp) (m n : ℕ) (l r : NArg ε) :
    (op.apply m n l r).isSome ↔
      ((∃ e, l = .expr e) ∨ (∃ e, r = .expr e)) ∧
        ¬ ((op = .add ∨ op = .sub) ∧ ∃ b k a, l = .int b k a) := by
  cases op <;> cases l <;> cases r <;>
    simp [NOp.apply, NOp.likeLeft, NArg.arith, Arith.common, Arith.narrows]

/-- **C66 (narrowing).** The result of `l op r` does not fit the type it is stored in exactly if an
integer is added to a floating-point operand on its right, or one is subtracted from it. -/
theorem c66_narrowing (op : NOp) (l r : NArg ε) :
    (op.likeLeft = true ∧ (l.arith.common r.arith).narrows l.arith = true) ↔
      (op = .add ∨ op = .sub) ∧ (∃ b k a, l = .int b k a) ∧ ¬ ∃ b k a, r = .int b k a := by
  cases op <;> cases l <;> cases r <;>
    simp [NOp.likeLeft, NArg.arith, Arith.common, Arith.narrows]
  all_goals split_ifs <;> simp

theorem value_realOperand (s : Store (numLib ε)) (n : ℕ) (b : Bool) (a : ℕ) :
    (value s (realOperand ε n b a)).map (fun x : Fin 1 → ℝ => x 0) = readArg s (.real b a) := by
  cases b <;> rfl

theorem value_intOperand (s : Store (numLib ε)) (n : ℕ) (b : Bool) (k : IntK) (a : ℕ) :
    (value s (intOperand ε n b k a)).map (fun z : ℤ => (z : ℝ)) = readArg s (.int b k a) := by
  cases b <;> rfl

theorem divide_map (x y : ℝ) :
    ((sDivide x y).map sc).map (fun v : Fin 1 → ℝ => v 0) = arithOf .div x y := by
  change _ = if y = 0 then none else some (x / y)
  unfold sDivide rdiv
  split_ifs <;> rfl

/-- **C66 (arithmetic).** The value of `l op r` is the result of the operation on the numbers. -/
theorem c66_arithmetic (s : Store (numLib ε)) (op : NOp) (m n : ℕ) (l r : NArg ε)
    {e : Expr (numLib ε) (.geo (.vec .scalar))} (he : op.apply m n l r = some e) {x y : ℝ}
    (hx : readArg s l = some x) (hy : readArg s r = some y) :
    (e.eval s).map (fun v : Fin 1 → ℝ => v 0) = arithOf op x y := by
  have key : ∀ (f g : Expr (numLib ε) (.geo (.vec .scalar))),
      (value s f).map (fun v : Fin 1 → ℝ => v 0) = some x →
      (value s g).map (fun v : Fin 1 → ℝ => v 0) = some y →
      (Expr.eval s (.bin m (NBin.geo op.bin) f g)).map (fun v : Fin 1 → ℝ => v 0) =
        arithOf op x y := by
    intro f g hf hg
    unfold Expr.eval
    rw [mk_val]
    obtain ⟨u, hu, hu'⟩ := Option.map_eq_some_iff.1 hf
    obtain ⟨w, hw, hw'⟩ := Option.map_eq_some_iff.1 hg
    change (((value s f).bind fun a => (value s g).bind fun b => evalBin op.bin a b)).map _ = _
    rw [hu, hw]
    subst hu' hw'
    cases op with
    | add => rfl
    | sub => rfl
    | mul => rfl
    | div =>
      exact divide_map (u (0 : Fin 1)) (w (0 : Fin 1))
  have keyI : ∀ (k : IntK) (f : Expr (numLib ε) (.geo (.vec .scalar)))
      (g : Expr (numLib ε) (.intScalar k)),
      (value s f).map (fun v : Fin 1 → ℝ => v 0) = some x →
      (value s g).map (fun z : ℤ => (z : ℝ)) = some y →
      (Expr.eval s (.bin m (op.binI k) f g)).map (fun v : Fin 1 → ℝ => v 0) = arithOf op x y := by
    intro k f g hf hg
    unfold Expr.eval
    rw [mk_val]
    obtain ⟨u, hu, hu'⟩ := Option.map_eq_some_iff.1 hf
    obtain ⟨w, hw, hw'⟩ := Option.map_eq_some_iff.1 hg
    change (((value s f).bind fun a => (value s g).bind fun b => nEvalBin (op.binI k) a b)).map _ = _
    rw [hu, hw]
    subst hu' hw'
    cases op with
    | add => rfl
    | sub => rfl
    | mul => rfl
    | div =>
      exact divide_map (u (0 : Fin 1)) (w : ℝ)
  unfold NOp.apply at he
  split_ifs at he with hc
  cases l with
  | expr f =>
    cases r with
    | expr g =>
      cases he
      exact key f g hx hy
    | real b a =>
      cases he
      exact key f _ hx ((value_realOperand s n b a).trans hy)
    | int b k a =>
      cases he
      exact keyI k f _ hx ((value_intOperand s n b k a).trans hy)
  | real b a =>
    cases r with
    | expr g =>
      cases he
      exact key _ g ((value_realOperand s n b a).trans hx) hy
    | real b a => cases he
    | int b k a => cases he
  | int b k a =>
    cases r with
    | expr g =>
      have hx' := (value_intOperand s n b k a).trans hx
      obtain ⟨u, hu, hu'⟩ := Option.map_eq_some_iff.1 hx'
      obtain ⟨w, hw, hw'⟩ := Option.map_eq_some_iff.1 (show (value s g).map _ = _ from hy)
      subst hu' hw'
      cases op with
      | add => cases he
      | sub => cases he
      | mul =>
        cases he
        unfold Expr.eval
        rw [mk_val]
        change (((value s (intOperand ε n b k a)).bind fun a => (value s g).bind fun b =>
          nEvalBin (.productL k) a b)).map _ = _
        rw [hu, hw]
        rfl
      | div =>
        cases he
        unfold Expr.eval
        rw [mk_val]
        change (((value s (intOperand ε n b k a)).bind fun a => (value s g).bind fun b =>
          nEvalBin (.divideL k) a b)).map _ = _
        rw [hu, hw]
        exact divide_map (u : ℝ) (w (0 : Fin 1))
    | real b a => cases he
    | int b k a => cases he

/-- **C66 (capture).** A named number is read when the expression is evaluated: it is the value last
assigned to it.  A temporary is kept by value: assigning to a variable does not change it. -/
theorem c66_capture (s : Store (numLib ε)) (a b : ℕ) (k : IntK) (v : Fin 1 → ℝ) (z : ℤ) :
    readArg (s.set a NTy.number v) (.real true a) = some (v 0) ∧
      readArg (s.set a (NTy.integer k) z) (.int true k a) = some (z : ℝ) ∧
      readArg (s.set a NTy.number v) (.real false b) = readArg s (.real false b) ∧
      readArg (s.set a (NTy.integer k) z) (.int false k b) = readArg s (.int false k b) := by
  refine ⟨?_, ?_, ?_, ?_⟩
  · exact congrArg (fun w : Fin 1 → ℝ => some (w 0)) (Store.set_get s a NTy.number v)
  · exact congrArg (fun w : ℤ => some (w : ℝ)) (Store.set_get s a (NTy.integer k) z)
  · exact congrArg (fun w : Fin 1 → ℝ => some (w 0)) (Store.set_of_ne s (a := a) (b := b)
      (τ := NTy.number) (σ := NTy.geo (.vec .scalar)) v (by rintro ⟨-, h⟩; cases h))
  · exact congrArg (fun w : ℤ => some (w : ℝ)) (Store.set_of_ne s (a := a) (b := b)
      (τ := NTy.integer k) (σ := NTy.intScalar k) z (by rintro ⟨-, h⟩; cases h))

/-- The sum over the occurrences over `double` is the derivative. -/
theorem deriv_of_reals (hε : 0 < ε) (hε1 : ε ≤ 1) (s : Store (numLib ε)) (t : Target (numLib ε))
    (hf : Floating t) {τ : Ty} (e : Expr (numLib ε) (.geo τ)) (hreg : RegularN s e)
    (ht : t ∈ objects e) (ho : ∀ o ∈ objects e, o.addr = t.addr → o.ty = t.ty → o = t)
    {J : Matrix τ.Idx (NTy.real t.ty).Idx ℝ}
    (hJ : total (occurrences (memReals s) (objReals t) (inReals e)) = some J) :
    IsDerivativeN s t e J := by
  have h := response_deriv hε hε1 (memReals s) (objReals t) (inReals e) hreg
    (by rw [objects_inReals]; exact List.mem_map_of_mem ht) ?_ hJ
  · obtain ⟨F, h1, h2, h3⟩ := h
    refine ⟨F, h1.mono fun d hd => ?_, h2, h3⟩
    rw [← response_inReals s t hf e d]
    exact hd
  · intro o h1 h2 h3
    rw [objects_inReals] at h1
    obtain ⟨o', ho', rfl⟩ := List.mem_map.1 h1
    change 10 * o'.addr + code o'.ty = 10 * t.addr + code t.ty at h2
    have := code_lt o'.ty
    have := code_lt t.ty
    rw [ho o' ho' (by omega) (code_inj (by omega) h3)]

/-- **C66 (derivatives, partial).** At a regular point the Jacobian with respect to a `double`, a
`Scalar` or any other object over `double` is the derivative, for the static and the dynamic
evaluators, provided no scalar is divided by an integer other than `1` and `-1` and no integer of an
unsigned type is divided by a scalar.  Without that proviso it is false (`c66_integer_divisor`,
`c66_unsigned`). -/
theorem c66_derivative_partial (hε : 0 < ε) (hε1 : ε ≤ 1) (s : Store (numLib ε))
    (t : Target (numLib ε)) (hf : Floating t) {τ : Ty} (e : Expr (numLib ε) (.geo τ))
    (hreg : RegularN s e) (hq : GoodQuotients s e) (ht : t ∈ objects e)
    (ho : ∀ o ∈ objects e, o.addr = t.addr → o.ty = t.ty → o = t)
    {J : Matrix τ.Idx (NTy.real t.ty).Idx ℝ}
    (hJ : (e.noProxy ∨ e.fwdCompiles t ∧ Distinguished t e) ∧ e.jacobianAuto s t = some J ∨
      Distinguished t e ∧ e.dynJacobian s t.addr t.ty = some J) :
    IsDerivativeN s t e J := by
  have h : total (occurrences s t e) = some J := by
    rcases hJ with ⟨hc, h⟩ | ⟨hd, h⟩
    · rw [← c20_auto s t e ht hc]
      exact h
    · rw [← (c21_dynamic_forward s t e hd).1]
      exact h
  refine deriv_of_reals hε hε1 s t hf e hreg ht ho ?_
  rw [occ_inReals s t hf e hq]
  exact h

/-- **C66 (integers as targets, partial).** The Jacobian with respect to any object, an integer among
them, is the derivative with respect to the `Scalar` standing for it, provided in addition that the
squares of integer divisors fit their types. -/
theorem c66_integer_target_partial (hε : 0 < ε) (hε1 : ε ≤ 1) (s : Store (numLib ε))
    (t : Target (numLib ε)) {τ : Ty} (e : Expr (numLib ε) (.geo τ))
    (hreg : RegularN s e) (hq : GoodQuotients s e) (hs : GoodSquares s e) (ht : t ∈ objects e)
    (ho : ∀ o ∈ objects e, o.addr = t.addr → o.ty = t.ty → o = t)
    {J : Matrix τ.Idx (NTy.real t.ty).Idx ℝ}
    (hJ : (e.noProxy ∨ e.fwdCompiles t ∧ Distinguished t e) ∧ e.jacobianAuto s t = some J ∨
      Distinguished t e ∧ e.dynJacobian s t.addr t.ty = some J) :
    IsDerivative (memReals s) (objReals t) (inReals e) J := by
  have h : total (occurrences s t e) = some J := by
    rcases hJ with ⟨hc, h⟩ | ⟨hd, h⟩
    · rw [← c20_auto s t e ht hc]
      exact h
    · rw [← (c21_dynamic_forward s t e hd).1]
      exact h
  refine response_deriv hε hε1 (memReals s) (objReals t) (inReals e) hreg
    (by rw [objects_inReals]; exact List.mem_map_of_mem ht) ?_ ?_
  · intro o h1 h2 h3
    rw [objects_inReals] at h1
    obtain ⟨o', ho', rfl⟩ := List.mem_map.1 h1
    change 10 * o'.addr + code o'.ty = 10 * t.addr + code t.ty at h2
    have := code_lt o'.ty
    have := code_lt t.ty
    rw [ho o' ho' (by omega) (code_inj (by omega) h3)]
  · rw [occ_inReals_all s t e hq hs]
    exact h

/-- A column of the numerical Jacobian in terms of the response. -/
theorem numColumnN_eq (s : Store (numLib ε)) (t : Target (numLib ε)) {τ : Ty}
    (e : Expr (numLib ε) (.geo τ)) (hd : Distinguished t e) (j : (NTy.real t.ty).Idx) {δ : ℝ}
    (hδ : δ ≠ 0) {y : τ.Idx → ℝ} (h : responseN s t e (coordStep j δ) = some y) :
    e.numColumn s t.addr t.ty δ j = some fun i => y i / δ := by
  unfold responseN at h
  obtain ⟨v, hv, h⟩ := Option.bind_eq_some_iff.mp h
  obtain ⟨w, hw, h⟩ := Option.bind_eq_some_iff.mp h
  obtain ⟨w0, hw0, h⟩ := Option.bind_eq_some_iff.mp h
  unfold Expr.numColumn Expr.eval
  rw [evalDelta_eq s t _ hv e hd, hw, mk_val, hw0]
  simp only [Option.bind_some]
  change (boxMinusVal ε τ w w0).bind _ = _
  rw [h]
  simp [hδ]

/-- **C66 (numerical).** The numerical Jacobian with respect to an object over `double` converges to
the derivative, integers or not. -/
theorem c66_numerical (s : Store (numLib ε)) (t : Target (numLib ε)) {τ : Ty}
    (e : Expr (numLib ε) (.geo τ)) (hd : Distinguished t e)
    {J : Matrix τ.Idx (NTy.real t.ty).Idx ℝ} (hJ : IsDerivativeN s t e J)
    (j : (NTy.real t.ty).Idx) :
    ∃ G : ℝ → τ.Idx → ℝ, (∀ᶠ δ in 𝓝[≠] 0, e.numColumn s t.addr t.ty δ j = some (G δ)) ∧
      Tendsto G (𝓝[≠] 0) (𝓝 fun i => J i j) := by
  obtain ⟨F, h1, h2, h3⟩ := hJ
  have hlin : HasDerivAt (fun δ : ℝ => δ • (coordStep j 1 : (NTy.real t.ty).Idx → ℝ))
      (coordStep j 1) 0 := by
    simpa using (hasDerivAt_id (0 : ℝ)).smul_const (coordStep j 1 : (NTy.real t.ty).Idx → ℝ)
  have h3' : HasFDerivAt F (linMap J)
      ((fun δ : ℝ => δ • (coordStep j 1 : (NTy.real t.ty).Idx → ℝ)) 0) := by
    simpa using h3
  have hF : HasDerivAt (fun δ : ℝ => F (δ • coordStep j 1)) (linMap J (coordStep j 1)) 0 :=
    h3'.comp_hasDerivAt 0 hlin
  have hcol : linMap J (coordStep j 1) = fun i => J i j := by
    funext i
    change (J *ᵥ coordStep j 1) i = _
    simp [mulVec, dotProduct, coordStep]
  refine ⟨fun δ i => F (δ • coordStep j 1) i / δ, ?_, ?_⟩
  · have hev : ∀ᶠ δ : ℝ in 𝓝 0, responseN s t e (δ • coordStep j 1) =
        some (F (δ • coordStep j 1)) := by
      have hcont : Tendsto (fun δ : ℝ => δ • (coordStep j 1 : (NTy.real t.ty).Idx → ℝ)) (𝓝 0)
          (𝓝 0) := by
        have := hlin.continuousAt.tendsto
        simpa using this
      exact hcont.eventually h1
    filter_upwards [hev.filter_mono nhdsWithin_le_nhds, self_mem_nhdsWithin] with δ h hδ
    refine numColumnN_eq s t e hd j hδ ?_
    rw [coordStep_eq]
    exact h
  · have := hasDerivAt_iff_tendsto_slope.mp hF
    rw [hcol] at this
    refine this.congr' ?_
    filter_upwards [self_mem_nhdsWithin] with δ hδ
    funext i
    simp [slope, h2]
    rw [div_eq_inv_mul]

theorem truncate_small {δ : ℝ} (h : |δ| < 1) : truncate δ = 0 := by
  obtain ⟨h1, h2⟩ := abs_lt.1 h
  unfold truncate
  split_ifs with h0
  · exact Int.floor_eq_zero_iff.2 ⟨h0, h2⟩
  · exact Int.ceil_eq_zero_iff.2 ⟨h1, by linarith⟩

/-- **C66 (integers, numerical).** The numerical Jacobian with respect to an integer is zero for every
step smaller than one, whatever the expression: the step is truncated. -/
theorem c66_numerical_integer (s : Store (numLib ε)) (t : Target (numLib ε)) {v : VK}
    (e : Expr (numLib ε) (.geo (.vec v))) (hd : Distinguished t e) (hi : ¬ Floating t)
    (hr : Representable s t) {δ : ℝ} (h0 : δ ≠ 0) (h1 : |δ| < 1) {w : v.Idx → ℝ}
    (hw : value s e = some w) (j : (NTy.real t.ty).Idx) :
    e.numColumn s t.addr t.ty δ j = some fun _ => 0 := by
  obtain ⟨a, c, α⟩ := t
  have hb : (numLib ε).boxPlus α (s a α) (coordStep j δ) = some (s a α) := by
    cases α with
    | number => exact absurd (fun k => ⟨by simp, by simp⟩) hi
    | geo τ => exact absurd (fun k => ⟨by simp, by simp⟩) hi
    | integer k =>
      change k.wrap ((s a (.integer k) : ℤ) + truncate (if (0 : Fin 1) = j then δ else 0)) = _
      rw [if_pos (Subsingleton.elim _ _), truncate_small h1, add_zero]
      exact wrap_of_fits hr
    | intScalar k =>
      change k.wrap ((s a (.intScalar k) : ℤ) + truncate (if (0 : Fin 1) = j then δ else 0)) = _
      rw [if_pos (Subsingleton.elim _ _), truncate_small h1, add_zero]
      exact wrap_of_fits hr
  unfold Expr.numColumn Expr.eval
  rw [evalDelta_eq s ⟨a, c, α⟩ _ hb e hd, Store.set_self, mk_val, hw]
  simp only [Option.bind_some]
  change (boxMinusVal ε (.vec v) w w).bind _ = _
  have : boxMinusVal ε (.vec v) w w = some fun _ => 0 := by
    change some (fun i => w i - w i) = _
    simp
  rw [this]
  simp [h0]

theorem mat1_mul {n : Type} (c : ℝ) (J : Matrix (Fin 1) n ℝ) : mat1 c * J = c • J := by
  ext i j
  rw [Subsingleton.elim i 0]
  simp [mat1, Matrix.mul_apply]

theorem total_of_none {m n : Type} : (As : List (OMat m n)) → none ∈ As → total As = none
  | [], h => by cases h
  | A :: As, h => by
    unfold total
    rw [List.sum_cons]
    rcases List.mem_cons.1 h with h | h
    · rw [← h]
      rfl
    · have := total_of_none As h
      unfold total at this
      rw [this]
      cases A <;> rfl

/-- `l / r` with a scalar expression and an integer. -/
abbrev overInt (m : ℕ) {k : IntK} (l : Expr (numLib ε) (.geo (.vec .scalar)))
    (r : Expr (numLib ε) (.intScalar k)) : Expr (numLib ε) (.geo (.vec .scalar)) :=
  .bin m (NBin.divideI k) l r

/-- `l / r` with an integer and a scalar expression. -/
abbrev intOver (m : ℕ) {k : IntK} (l : Expr (numLib ε) (.intScalar k))
    (r : Expr (numLib ε) (.geo (.vec .scalar))) : Expr (numLib ε) (.geo (.vec .scalar)) :=
  .bin m (NBin.divideL k) l r

/-- The truncated reciprocal of an integer other than `1`, `-1` and `0` is zero. -/
theorem intRecip_zero {z : ℤ} (h : 2 ≤ |z|) : intRecip z = some 0 := by
  have h0 : z ≠ 0 := by
    rintro rfl
    simp at h
  unfold intRecip
  rw [if_neg h0]
  have h1 : (Int.tdiv 1 z).natAbs = 0 := by
    rw [Int.natAbs_tdiv]
    apply Nat.div_eq_of_lt
    have : 2 ≤ z.natAbs := by
      have := Int.natCast_natAbs z
      omega
    omega
  rw [Int.natAbs_eq_zero.1 h1]

/-- **C66 (dividing by an integer: false).** When a scalar expression is divided by an integer other
than `1`, `-1` and `0`, the Jacobian returned with respect to every object over `double` is zero; the
derivative is the Jacobian of the dividend divided by the integer. -/
theorem c66_integer_divisor (hε : 0 < ε) (hε1 : ε ≤ 1) (s : Store (numLib ε))
    (t : Target (numLib ε)) (hf : Floating t) (m : ℕ) (k : IntK)
    (l : Expr (numLib ε) (.geo (.vec .scalar))) (r : Expr (numLib ε) (.intScalar k))
    (hp : l.noProxy ∧ r.noProxy) {x : Fin 1 → ℝ} (hx : l.eval s = some x) {z : ℤ}
    (hz : r.eval s = some z) (h2 : 2 ≤ |z|)
    (hreg : RegularN s (overInt m l r)) (hq : GoodQuotients s l)
    (ht : t ∈ objects l)
    (ho : ∀ o ∈ objects l ++ objects r, o.addr = t.addr → o.ty = t.ty → o = t)
    {J : Matrix (Fin 1) (NTy.real t.ty).Idx ℝ} (hJ : l.jacobianAuto s t = some J) :
    (overInt m l r).jacobianAuto s t = some 0 ∧
      IsDerivativeN s t (overInt m l r) ((z : ℝ)⁻¹ • J) := by
  unfold Expr.eval at hx hz
  rw [mk_val] at hx hz
  have hJ' : total (occurrences s t l) = some J := (c20_auto s t l ht (.inl hp.1)).symm.trans hJ
  have hne : occurrences s t l ≠ [] := by
    intro h
    exact (occ_nil_iff s t l).1 h ht
  have hz0 : (z : ℝ) ≠ 0 := by
    intro h
    rw [Int.cast_eq_zero] at h
    rw [h] at h2
    simp at h2
  have hint := occ_int (s := s) hf r id
  constructor
  · rw [c20_auto s t (overInt m l r) (List.mem_append_left _ ht)
      (.inl (by simp [Expr.noProxy, hp.1, hp.2]))]
    change total ((occurrences s t l).map (OMat.mul (slopeL s (NBin.divideI k) l r)) ++
      (occurrences s t r).map _) = _
    have hs : slopeL (L := numLib ε) s (NBin.divideI k) l r =
        (some (mat1 0) : Option (Matrix (Fin 1) (Fin 1) ℝ)) := by
      unfold slopeL
      rw [hx, hz]
      change ((sDivide (x 0) (z : ℝ)).map sc).bind (fun _ =>
        (intRecip z).map fun q => mat1 (q : ℝ)) = _
      rw [intRecip_zero h2]
      unfold sDivide rdiv
      rw [if_neg hz0]
      simp
    rw [hint.1, List.map_nil, List.append_nil, total_map_mul _ _ hne, hJ', hs]
    change some (mat1 0 * J) = _
    rw [mat1_mul, zero_smul]
  · refine deriv_of_reals hε hε1 s t hf _ hreg (List.mem_append_left _ ht) ho ?_
    have h1 := occ_inReals s t hf l hq
    change total ((occurrences (memReals s) (objReals t) (inReals l)).map
      (OMat.mul (slopeL (L := geoLib ε) (memReals s) Bin.divide (inReals l) (inReals r))) ++
      (occurrences (memReals s) (objReals t) (inReals r)).map _) = _
    have hs : slopeL (L := geoLib ε) (memReals s) Bin.divide (inReals l) (inReals r) =
        (some (mat1 ((z : ℝ)⁻¹)) : Option (Matrix (Fin 1) (Fin 1) ℝ)) := by
      unfold slopeL
      rw [value_inReals, value_inReals, hx, hz]
      change ((sDivide (x 0) (z : ℝ)).map sc).bind (fun _ => divideJacL (z : ℝ)) = _
      unfold divideJacL sDivide rdiv
      rw [if_neg hz0, if_neg hz0]
      simp
    rw [hint.2, List.map_nil, List.append_nil, h1, hs]
    refine (total_map_mul _ _ hne).trans ?_
    rw [hJ']
    change some (mat1 _ * J) = _
    rw [mat1_mul]

/-- **C66 (unsigned dividends: false).** When an integer of an unsigned type is divided by a scalar
expression, the Jacobian returned is that of the integer's complement: `2 ^ 32 - n` or `2 ^ 64 - n`
in place of `-n`. -/
theorem c66_unsigned (hε : 0 < ε) (hε1 : ε ≤ 1) (s : Store (numLib ε))
    (t : Target (numLib ε)) (hf : Floating t) (m : ℕ) (k : IntK) {M : ℤ} (hM : modulus k = some M)
    (l : Expr (numLib ε) (.intScalar k)) (r : Expr (numLib ε) (.geo (.vec .scalar)))
    (hp : l.noProxy ∧ r.noProxy) {z : ℤ} (hz : l.eval s = some z) (h0 : 0 < z)
    (h1 : z < M) {y : Fin 1 → ℝ} (hy : r.eval s = some y) (hy0 : y 0 ≠ 0)
    (hreg : RegularN s (intOver m l r)) (hq : GoodQuotients s r)
    (ht : t ∈ objects r)
    (ho : ∀ o ∈ objects l ++ objects r, o.addr = t.addr → o.ty = t.ty → o = t)
    {J : Matrix (Fin 1) (NTy.real t.ty).Idx ℝ} (hJ : r.jacobianAuto s t = some J) :
    (intOver m l r).jacobianAuto s t =
        some (((M - z) / (y 0 * y 0)) • J) ∧
      IsDerivativeN s t (intOver m l r)
        ((-z / (y 0 * y 0)) • J) := by
  have hk : k.signed = false ∧ M = 2 ^ k.bits := by
    cases k <;> simp_all [modulus, IntK.signed, IntK.bits]
  obtain ⟨hk, hM'⟩ := hk
  unfold Expr.eval at hy hz
  rw [mk_val] at hy hz
  have hJ' : total (occurrences s t r) = some J := (c20_auto s t r ht (.inl hp.2)).symm.trans hJ
  have hne : occurrences s t r ≠ [] := by
    intro h
    exact (occ_nil_iff s t r).1 h ht
  have hyy : y 0 * y 0 ≠ 0 := mul_ne_zero hy0 hy0
  have hint := occ_int (s := s) hf l id
  constructor
  · rw [c20_auto s t (intOver m l r) (List.mem_append_right _ ht)
      (.inl (by simp [Expr.noProxy, hp.1, hp.2]))]
    change total ((occurrences s t l).map _ ++
      (occurrences s t r).map (OMat.mul (slopeR s (NBin.divideL k) l r))) = _
    have hw : k.wrap (-z) = some (M - z) := by
      unfold IntK.wrap
      rw [hk, if_neg (by simp)]
      congr 1
      rw [hM'] at h1 ⊢
      rw [← Int.add_emod_left (2 ^ k.bits) (-z)]
      exact Int.emod_eq_of_lt (by linarith) (by linarith)
    have hs : slopeR (L := numLib ε) s (NBin.divideL k) l r =
        (some (mat1 ((M - z) / (y 0 * y 0))) : Option (Matrix (Fin 1) (Fin 1) ℝ)) := by
      unfold slopeR
      rw [hy, hz]
      change ((sDivide (z : ℝ) (y 0)).map sc).bind (fun _ => (k.wrap (-z)).bind fun q =>
        (rdiv (q : ℝ) (y 0 * y 0)).map mat1) = _
      rw [hw]
      unfold sDivide rdiv
      rw [if_neg hy0]
      simp [hy0]
    rw [hint.1, List.map_nil, List.nil_append, total_map_mul _ _ hne, hJ', hs]
    change some (mat1 _ * J) = _
    rw [mat1_mul]
  · refine deriv_of_reals hε hε1 s t hf _ hreg (List.mem_append_right _ ht) ho ?_
    have h1 := occ_inReals s t hf r hq
    change total ((occurrences (memReals s) (objReals t) (inReals l)).map _ ++
      (occurrences (memReals s) (objReals t) (inReals r)).map
      (OMat.mul (slopeR (L := geoLib ε) (memReals s) Bin.divide (inReals l) (inReals r)))) = _
    have hs : slopeR (L := geoLib ε) (memReals s) Bin.divide (inReals l) (inReals r) =
        (some (mat1 (-z / (y 0 * y 0))) : Option (Matrix (Fin 1) (Fin 1) ℝ)) := by
      unfold slopeR
      rw [value_inReals, value_inReals, hy, hz]
      change ((sDivide (z : ℝ) (y 0)).map sc).bind (fun _ => divideJacR (z : ℝ) (y 0)) = _
      unfold divideJacR sDivide rdiv
      rw [if_neg hy0, if_neg hyy]
      simp
    rw [hint.2, List.map_nil, List.nil_append, h1, hs]
    refine (total_map_mul _ _ hne).trans ?_
    rw [hJ']
    change some (mat1 _ * J) = _
    rw [mat1_mul]

/-- The object of an integer operand. -/
def intTarget (ε : ℝ) (named : Bool) (k : IntK) (a : ℕ) : Target (numLib ε) :=
  ⟨a, 0, if named then NTy.integer k else NTy.intScalar k⟩

/-- **C66 (reverse mode: false).** `evalWithJacobians()` also computes the Jacobian with respect to
an integer divisor.  That is undefined behaviour if the divisor is of a signed type which cannot hold
its square (`s / 100000` with `int`). -/
theorem c66_reverse_overflow (s : Store (numLib ε)) (m n : ℕ) (k : IntK) (hk : k.signed = true)
    (l : Expr (numLib ε) (.geo (.vec .scalar))) (b : Bool) (a : ℕ)
    (hp : l.noProxy) (hu : (overInt m l (intOperand ε n b k a)).uniqueLeaves) {x : Fin 1 → ℝ}
    (hx : l.eval s = some x) {z : ℤ}
    (hz : (intOperand ε n b k a).eval s = some z) (h2 : 2 ^ (k.bits - 1) ≤ z * z) :
    ⟨(intTarget ε b k a).ty, none⟩ ∈
      ((overInt m l (intOperand ε n b k a)).reverse s).2 := by
  unfold Expr.eval at hx hz
  rw [mk_val] at hx hz
  have hmem : intTarget ε b k a ∈ objects (overInt m l (intOperand ε n b k a)) := by
    refine List.mem_append_right _ ?_
    cases b <;> exact List.mem_singleton.2 rfl
  have hp' : (overInt m l (intOperand ε n b k a)).noProxy := by
    change (l.noProxy && (intOperand ε n b k a).noProxy) = true
    rw [hp]
    cases b <;> rfl
  rw [(c17_reverse_eq_forward s _ hu).2]
  refine List.mem_map.2 ⟨intTarget ε b k a, hmem, ?_⟩
  rw [c20_auto s _ _ hmem (.inl hp')]
  congr 1
  apply total_of_none
  refine List.mem_append_right _ ?_
  have hs : slopeR (L := numLib ε) s (NBin.divideI k) l (intOperand ε n b k a) = none := by
    unfold slopeR
    rw [hx, hz]
    change ((sDivide (x 0) (z : ℝ)).map sc).bind (fun _ => (k.wrap (z * z)).bind _) = none
    have hw : k.wrap (z * z) = none := by
      unfold IntK.wrap
      rw [if_pos hk, if_neg]
      rintro ⟨-, h⟩
      exact absurd h2 (not_le.2 h)
    rw [hw]
    cases (sDivide (x 0) (z : ℝ)).map sc <;> rfl
  rw [hs]
  have hr : intTarget ε b k a ∈ objects (intOperand ε n b k a) := by
    cases b <;> exact List.mem_singleton.2 rfl
  obtain ⟨A, hA⟩ := List.exists_mem_of_ne_nil _
    fun h => (occ_nil_iff s (intTarget ε b k a) (intOperand ε n b k a)).1 h hr
  exact List.mem_map.2 ⟨A, hA, rfl⟩

/-- Derivatives are unique. -/
theorem IsDerivativeN.unique {s : Store (numLib ε)} {t : Target (numLib ε)} {τ : Ty}
    {e : Expr (numLib ε) (.geo τ)} {J J' : Matrix τ.Idx (NTy.real t.ty).Idx ℝ}
    (h : IsDerivativeN s t e J) (h' : IsDerivativeN s t e J') : J = J' := by
  obtain ⟨F, h1, -, h3⟩ := h
  obtain ⟨F', h1', -, h3'⟩ := h'
  have hFF : F' =ᶠ[𝓝 0] F := by
    filter_upwards [h1, h1'] with d hd hd'
    rw [hd] at hd'
    exact (Option.some.inj hd').symm
  have := (h3.congr_of_eventuallyEq hFF).unique h3'
  ext i v
  have h4 := congrFun (congrArg (fun f : (_ → ℝ) →L[ℝ] _ => f (Pi.single v 1)) this) i
  simpa using h4

/-- Contents of memory for the examples: scalars and numbers are `3`, integers are `z`. -/
noncomputable def numMem (ε : ℝ) (z : ℤ) : Store (numLib ε)
  | _, .number => sc 3
  | _, .integer _ => z
  | _, .intScalar _ => z
  | _, .geo (.vec .scalar) => sc 3
  | _, .geo τ => someVal τ

/-- The variable `s` of the examples. -/
abbrev sLeaf (ε : ℝ) : Expr (numLib ε) (.geo (.vec .scalar)) :=
  .leaf (L := numLib ε) 0 0 (NTy.geo (.vec .scalar))

theorem regular_overInt (ε : ℝ) {z : ℤ} (hz : z ≠ 0) (b : Bool) (k : IntK) :
    RegularN (numMem ε z) (overInt 1 (sLeaf ε) (intOperand ε 2 b k 3)) := by
  refine ⟨trivial, by cases b <;> exact trivial, fun x y _ hy => ?_⟩
  have h : value (numMem ε z) (intOperand ε 2 b k 3) = some z := by cases b <;> rfl
  rw [value_inReals, h] at hy
  cases hy
  change (z : ℝ) ≠ 0
  exact_mod_cast hz

/-- **C66 (false).** `s / 2`: the Jacobian returned with respect to `s` is not the derivative. -/
theorem c66_false (hε : 0 < ε) (hε1 : ε ≤ 1) :
    ∃ (s : Store (numLib ε)) (t : Target (numLib ε)) (e : Expr (numLib ε) (.geo (.vec .scalar)))
      (J : Matrix (Fin 1) (NTy.real t.ty).Idx ℝ), Floating t ∧ RegularN s e ∧ t ∈ objects e ∧
      (∀ o ∈ objects e, o.addr = t.addr → o.ty = t.ty → o = t) ∧ e.noProxy ∧
      (∃ l r, NOp.div.apply 1 2 l r = some e) ∧
      e.jacobianAuto s t = some J ∧ ¬ IsDerivativeN s t e J := by
  let t : Target (numLib ε) := ⟨0, 0, NTy.geo (.vec .scalar)⟩
  let e := overInt 1 (sLeaf ε) (intOperand ε 2 false .int 3)
  have hf : Floating t := fun k => ⟨by rintro ⟨⟩, by rintro ⟨⟩⟩
  have ho : ∀ o ∈ objects e, o.addr = t.addr → o.ty = t.ty → o = t := by
    intro o h h1 h2
    rcases List.mem_append.1 h with h | h <;> have h := List.mem_singleton.1 h <;> subst h
    · rfl
    · cases h1
  have hl : (sLeaf ε).jacobianAuto (numMem ε 2) t =
      (some 1 : Option (Matrix (Fin 1) (Fin 1) ℝ)) := by
    rw [c20_auto _ _ _ (List.mem_singleton.2 rfl) (.inl rfl)]
    rw [show occurrences (numMem ε 2) t (sLeaf ε) = [some 1] from occ_same_leaf _ 0 0 _]
    exact add_zero (M := OMat (Fin 1) (Fin 1)) (some 1)
  have h := c66_integer_divisor hε hε1 (numMem ε 2) t hf 1 .int (sLeaf ε)
    (intOperand ε 2 false .int 3) ⟨rfl, rfl⟩ (x := sc 3) rfl (z := 2) rfl (by norm_num)
    (regular_overInt ε (by norm_num) false .int) trivial (List.mem_singleton.2 rfl) ho
    (J := (1 : Matrix (Fin 1) (Fin 1) ℝ)) hl
  refine ⟨numMem ε 2, t, e, 0, hf, regular_overInt ε (by norm_num) false .int,
    List.mem_append_left _ (List.mem_singleton.2 rfl), ho, rfl,
    ⟨.expr (sLeaf ε), .int false .int 3, rfl⟩, h.1, fun h' => ?_⟩
  have := congrFun (congrFun (IsDerivativeN.unique h' h.2) (0 : Fin 1)) (0 : Fin 1)
  norm_num at this

section Examples

/-- `2 * s` with the literal `2` has value `6`; `s / x` with a variable `x` holding `2` has value
`1.5`. -/
example : ((NOp.mul.apply (ε := dblEps) 1 2 (.int false .int 3) (.expr (sLeaf _))).bind fun e =>
    (e.eval (numMem dblEps 2)).map fun v : Fin 1 → ℝ => v 0) = some (2 * 3) := by
  have h := c66_arithmetic (numMem dblEps 2) .mul 1 2 (.int false .int 3) (.expr (sLeaf _)) rfl
    (x := 2) (y := 3) (congrArg some (by norm_num [numMem])) rfl
  exact h

example : ((NOp.div.apply (ε := dblEps) 1 2 (.expr (sLeaf _)) (.int true .int 3)).bind fun e =>
    (e.eval (numMem dblEps 2)).map fun v : Fin 1 → ℝ => v 0) = some (3 / 2) := by
  have h := c66_arithmetic (numMem dblEps 2) .div 1 2 (.expr (sLeaf _)) (.int true .int 3) rfl
    (x := 3) (y := 2) rfl (congrArg some (by norm_num [numMem]))
  rw [show arithOf .div 3 2 = some (3 / 2 : ℝ) from if_neg (by norm_num)] at h
  exact h

/-- `1 + s` is rejected and `s + 1` is not. -/
example : (NOp.add.apply (ε := dblEps) 1 2 (.int false .int 3) (.expr (sLeaf _))).isSome = false ∧
    (NOp.add.apply (ε := dblEps) 1 2 (.expr (sLeaf _)) (.int false .int 3)).isSome = true := by
  refine ⟨?_, (c66_accepted _ _ _ _ _).2 ⟨.inl ⟨_, rfl⟩, by rintro ⟨-, _, _, _, h⟩; cases h⟩⟩
  rw [Bool.eq_false_iff]
  intro h
  exact ((c66_accepted _ _ _ _ _).1 h).2 ⟨.inl rfl, _, _, _, rfl⟩

/-- `x * s` with a variable `x` holding `3`: the object of `x`. -/
noncomputable abbrev xObj : Target (numLib dblEps) := ⟨5, 0, NTy.number⟩

/-- `x * s / 1` with a variable `x`. -/
noncomputable abbrev xTimesS : Expr (numLib dblEps) (.geo (.vec .scalar)) :=
  overInt 1 (.bin 4 (NBin.geo Bin.product) (realOperand dblEps 6 true 5) (sLeaf _))
    (intOperand dblEps 2 false .int 3)

/-- The hypotheses of `c66_derivative_partial` hold of `x * s / 1` and the object `x`, whose Jacobian
is `s`. -/
example : Floating xObj ∧ RegularN (numMem dblEps 1) xTimesS ∧ GoodQuotients (numMem dblEps 1) xTimesS ∧
    xObj ∈ objects xTimesS ∧ (∀ o ∈ objects xTimesS, o.addr = xObj.addr → o.ty = xObj.ty → o = xObj) ∧
    xTimesS.noProxy = true ∧
    xTimesS.jacobianAuto (numMem dblEps 1) xObj =
      (some (mat1 3) : Option (Matrix (Fin 1) (Fin 1) ℝ)) := by
  have hmem : xObj ∈ objects xTimesS := by simp [objects, realOperand]
  refine ⟨fun k => ⟨by rintro ⟨⟩, by rintro ⟨⟩⟩, ⟨⟨trivial, trivial, fun _ _ _ _ => trivial⟩, trivial,
    ?_⟩, ⟨⟨trivial, trivial, fun _ _ _ _ => trivial⟩, trivial, ?_⟩, hmem, ?_, rfl, ?_⟩
  · intro x y _ hy
    rw [value_inReals, show value (numMem dblEps 1) (intOperand dblEps 2 false .int 3) = some (1 : ℤ)
      from rfl] at hy
    cases hy
    change ((1 : ℤ) : ℝ) ≠ 0
    norm_num
  · rintro x y - hy
    have h : (some y : Option ℤ) = some 1 := hy.symm
    exact .inl (Option.some.inj h)
  · intro o h h1 _
    have h' : o ∈ [xObj, ⟨0, 0, NTy.geo (.vec .scalar)⟩, ⟨3, 0, NTy.intScalar .int⟩] := h
    simp only [List.mem_cons, List.not_mem_nil, or_false] at h'
    rcases h' with rfl | rfl | rfl
    · rfl
    · cases h1
    · cases h1
  · rw [c20_auto _ _ _ hmem (.inl rfl)]
    have h1 : slopeL (L := numLib dblEps) (numMem dblEps 1) (NBin.divideI .int)
        (.bin 4 (NBin.geo Bin.product) (realOperand dblEps 6 true 5) (sLeaf _))
        (intOperand dblEps 2 false .int 3) =
        (some (mat1 1) : Option (Matrix (Fin 1) (Fin 1) ℝ)) := by
      unfold slopeL
      change ((sDivide (3 * 3) ((1 : ℤ) : ℝ)).map sc).bind
        (fun _ => (intRecip 1).map fun q => mat1 (q : ℝ)) = _
      simp [sDivide, rdiv, intRecip]
    have h2 : occurrences (numMem dblEps 1) xObj (Expr.leaf (L := numLib dblEps) 5 0 NTy.number) =
      [some 1] := occ_same_leaf _ 5 0 _
    have h3 : occurrences (numMem dblEps 1) xObj (sLeaf dblEps) = [] :=
      occ_other_leaf _ (by intro h; cases h)
    have h4 : occurrences (numMem dblEps 1) xObj (intOperand dblEps 2 false .int 3) = [] :=
      occ_other_leaf _ (by intro h; cases h)
    change total (List.map _ (List.map _ (List.map _ (occurrences (numMem dblEps 1) xObj
      (Expr.leaf (L := numLib dblEps) 5 0 NTy.number))) ++ List.map _ (occurrences (numMem dblEps 1)
      xObj (sLeaf dblEps))) ++ List.map _ (occurrences (numMem dblEps 1) xObj
      (intOperand dblEps 2 false .int 3))) = _
    rw [h1, h2, h3, h4]
    refine (add_zero (M := OMat (Fin 1) (Fin 1)) (some (mat1 1 * (mat1 3 * (1 * 1))))).trans ?_
    rw [mat1_mul, one_smul, Matrix.mul_one, Matrix.mul_one]

/-- `1u / s` at `s = 3`: `c66_unsigned` applies, and the matrix returned is `(2 ^ 32 - 1) / 9`. -/
example : (intOver 1 (intOperand dblEps 2 false .uint 3) (sLeaf _)).jacobianAuto (numMem dblEps 1)
    ⟨0, 0, NTy.geo (.vec .scalar)⟩ =
      (some (((2 ^ 32 - 1) / (3 * 3) : ℝ) • (1 : Matrix (Fin 1) (Fin 1) ℝ)) : OMat _ _) := by
  have hl : (sLeaf dblEps).jacobianAuto (numMem dblEps 1) ⟨0, 0, NTy.geo (.vec .scalar)⟩ =
      (some 1 : Option (Matrix (Fin 1) (Fin 1) ℝ)) := by
    rw [c20_auto _ _ _ (List.mem_singleton.2 rfl) (.inl rfl)]
    rw [show occurrences (numMem dblEps 1) _ (sLeaf dblEps) = [some 1] from occ_same_leaf _ 0 0 _]
    exact add_zero (M := OMat (Fin 1) (Fin 1)) (some 1)
  have h := (c66_unsigned (ε := dblEps) dblEps_pos dblEps_lt.le (numMem dblEps 1)
    ⟨0, 0, NTy.geo (.vec .scalar)⟩ (fun k => ⟨by rintro ⟨⟩, by rintro ⟨⟩⟩) 1 .uint rfl
    (intOperand dblEps 2 false .uint 3) (sLeaf _) ⟨rfl, rfl⟩ (z := 1) rfl (by norm_num)
    (by norm_num [IntK.bits]) (y := sc 3) rfl (by norm_num [sc])
    ⟨trivial, trivial, fun x y _ hy => by cases hy; change (3 : ℝ) ≠ 0; norm_num⟩ trivial
    (List.mem_singleton.2 rfl) (by
      intro o h h1 h2
      rcases List.mem_append.1 h with h | h <;> have h := List.mem_singleton.1 h <;> subst h
      · cases h1
      · rfl) hl).1
  rw [h]
  norm_num [sc]
  rfl

/-- `n * s` for a named integer `n`. -/
noncomputable abbrev nTimesS : Expr (numLib dblEps) (.geo (.vec .scalar)) :=
  .bin 1 (NBin.productL .int) (intOperand dblEps 2 true .int 3) (sLeaf _)

/-- The integer `n`. -/
abbrev nObj (ε : ℝ) : Target (numLib ε) := ⟨3, 0, NTy.integer .int⟩

/-- The hypotheses of `c66_integer_target_partial` and `c66_numerical_integer` hold of `n * s` and the
object `n`: the Jacobian is `s` and the numerical Jacobian is zero. -/
example : RegularN (numMem dblEps 7) nTimesS ∧ GoodQuotients (numMem dblEps 7) nTimesS ∧
    GoodSquares (numMem dblEps 7) nTimesS ∧ nObj dblEps ∈ objects nTimesS ∧
    (∀ o ∈ objects nTimesS, o.addr = 3 → o.ty = NTy.integer .int → o = nObj dblEps) ∧
    nTimesS.noProxy = true ∧ ¬ Floating (nObj dblEps) ∧ Representable (numMem dblEps 7) (nObj dblEps) ∧
    nTimesS.jacobianAuto (numMem dblEps 7) (nObj dblEps) =
      (some (mat1 3) : Option (Matrix (Fin 1) (Fin 1) ℝ)) ∧
    nTimesS.numColumn (numMem dblEps 7) 3 (NTy.integer .int) (1 / 2) (0 : Fin 1) =
      some fun _ => 0 := by
  have hmem : nObj dblEps ∈ objects nTimesS := by simp [objects, intOperand]
  have hf : ¬ Floating (nObj dblEps) := fun h => (h .int).1 rfl
  have hr : Representable (numMem dblEps 7) (nObj dblEps) := by
    change Fits .int 7
    norm_num [Fits, least, greatest]
  refine ⟨⟨trivial, trivial, fun _ _ _ _ => trivial⟩, ⟨trivial, trivial, fun _ _ _ _ => trivial⟩,
    ⟨trivial, trivial, fun _ _ => trivial⟩, hmem, ?_, rfl, hf, hr, ?_, ?_⟩
  · intro o h h1 _
    have h' : o ∈ [nObj dblEps, ⟨0, 0, NTy.geo (.vec .scalar)⟩] := h
    simp only [List.mem_cons, List.not_mem_nil, or_false] at h'
    rcases h' with rfl | rfl
    · rfl
    · cases h1
  · rw [c20_auto _ _ _ hmem (.inl rfl)]
    have h2 : occurrences (numMem dblEps 7) (nObj dblEps)
      (Expr.leaf (L := numLib dblEps) 3 0 (NTy.integer .int)) = [some 1] := occ_same_leaf _ 3 0 _
    have h3 : occurrences (numMem dblEps 7) (nObj dblEps) (sLeaf dblEps) = [] :=
      occ_other_leaf _ (by intro h; cases h)
    change total (List.map _ (List.map _ (occurrences (numMem dblEps 7) (nObj dblEps)
      (Expr.leaf (L := numLib dblEps) 3 0 (NTy.integer .int)))) ++ List.map _ (occurrences
      (numMem dblEps 7) (nObj dblEps) (sLeaf dblEps))) = _
    rw [h2, h3]
    refine (add_zero (M := OMat (Fin 1) (Fin 1)) (some (mat1 3 * (1 * 1)))).trans ?_
    rw [Matrix.mul_one, Matrix.mul_one]
  · refine c66_numerical_integer (numMem dblEps 7) (nObj dblEps) nTimesS ?_ hf hr (by norm_num)
      (by rw [abs_of_pos] <;> norm_num) (w := sc (7 * 3)) ?_ 0
    · refine ⟨?_, by simp [nodeAddrs, intOperand]⟩
      intro o h h1
      have h' : o ∈ [nObj dblEps, ⟨0, 0, NTy.geo (.vec .scalar)⟩] := h
      simp only [List.mem_cons, List.not_mem_nil, or_false] at h'
      rcases h' with rfl | rfl
      · rfl
      · cases h1
    · change some (sc (sProduct ((7 : ℤ) : ℝ) 3)) = _
      norm_num [sProduct]

/-- `s / 100000` in reverse mode. -/
example : ⟨NTy.intScalar .int, none⟩ ∈
    ((overInt 1 (sLeaf dblEps) (intOperand dblEps 2 false .int 3)).reverse
      (numMem dblEps 100000)).2 := by
  refine c66_reverse_overflow (numMem dblEps 100000) 1 2 .int rfl (sLeaf dblEps) false 3 rfl ?_
    (x := sc 3) rfl (z := 100000) rfl (by norm_num [IntK.bits])
  rw [uniqueLeaves_iff]
  refine ⟨rfl, ?_⟩
  simp [types, objects, intOperand]

end Examples

end WG
