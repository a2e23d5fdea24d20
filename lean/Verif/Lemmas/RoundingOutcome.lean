import Verif.Lemmas.RoundingOps

/-! # Outcomes of floating-point evaluation: errors, existence, exact arithmetic -/

namespace WG.Round
open Matrix Spec

variable {ε : ℝ} {F : Fl}

theorem ok_of_valid : (τ : Ty) → {x : τ.Val} → Valid τ x → Ok τ (size τ x) x
  | .vec _, _, _ => le_rfl
  | .point, _, _ => le_rfl
  | .rot .quat, _, h => (validRot_quat _).mp h
  | .rot .mat, _, h => Spec.IsRotation.transpose_mul_self h
  | .rot .aa, _, _ => trivial
  | .rigid .mat, _, h => ⟨((validRigid_mat _).mp h).1.transpose_mul_self, le_rfl⟩
  | .rigid .compact, _, h => ⟨(validRot_quat _).mp h, le_rfl⟩

theorem size_nonneg : (τ : Ty) → (x : τ.Val) → 0 ≤ size τ x
  | .vec _, _ => len_nonneg _
  | .point, _ => len_nonneg _
  | .rot _, _ => le_rfl
  | .rigid .mat, _ => len_nonneg _
  | .rigid .compact, _ => len_nonneg _

/-- The invariant of the induction. -/
theorem near_of_computes {η : ℝ} (hη : 0 ≤ η) {s s' : Store (geoLib ε)} :
    {τ : Ty} → (e : Expr (geoLib ε) τ) →
    (∀ t ∈ e.leaves, Valid t.ty (s t.addr t.ty) ∧
      Within t.ty η (size t.ty (s t.addr t.ty)) (s t.addr t.ty) (s' t.addr t.ty)) →
    {v z : τ.Val} → e.eval (L := geoLib ε) s = some v → Computes F s' e z →
    0 ≤ amp s e ∧ 1 ≤ factor F.u η e ∧ Ok τ (amp s e) v ∧
      Within τ (factor F.u η e - 1) (amp s e) v z
  | _, .leaf a c τ, hs, v, z, hv, hz => by
    obtain ⟨h1, h2⟩ := hs ⟨a, c, τ⟩ (List.mem_singleton.mpr rfl)
    cases Option.some.inj hv
    cases hz
    refine ⟨size_nonneg τ _, by simpa [factor] using hη, ok_of_valid τ h1, ?_⟩
    have e : factor F.u η (ε := ε) (.leaf a c τ) - 1 = η := add_sub_cancel_left _ _
    rw [e]
    exact h2
  | _, .un _ op e, hs, v, z, hv, hz => by
    obtain ⟨x, hx, hop⟩ := Option.bind_eq_some_iff.mp hv
    obtain ⟨x', hx', h'⟩ := hz
    obtain ⟨i1, i2, i3, i4⟩ := near_of_computes hη e hs hx hx'
    exact un_near op i2 i1 i3 i4 hop h'
  | _, .bin _ op l r, hs, v, z, hv, hz => by
    obtain ⟨x, hx, h1⟩ := Option.bind_eq_some_iff.mp hv
    obtain ⟨y, hy, hop⟩ := Option.bind_eq_some_iff.mp h1
    obtain ⟨x', y', hx', hy', h'⟩ := hz
    obtain ⟨i1, i2, i3, i4⟩ :=
      near_of_computes hη l (fun t ht => hs t (List.mem_append_left _ ht)) hx hx'
    obtain ⟨j1, j2, j3, j4⟩ :=
      near_of_computes hη r (fun t ht => hs t (List.mem_append_right _ ht)) hy hy'
    exact bin_near op i2 j2 i1 j1 i3 j3 i4 j4 hop h'
  | _, .proxy _ e, hs, v, z, hv, hz => near_of_computes hη e hs hv hz

/-! ### Outcomes exist -/

theorem flSum_exists : (l : List (ℝ × ℝ)) → l ≠ [] → ∃ z, FlSum F l z
  | [p], _ => ⟨_, .mul p.1 p.2⟩
  | p :: q :: l, _ => by
    obtain ⟨z, hz⟩ := flSum_exists (q :: l) (by simp)
    exact ⟨_, .add (.mul p.1 p.2) hz (List.Perm.refl _)⟩

theorem flDot_exists {n : Type} [Fintype n] [Nonempty n] (a b : n → ℝ) : ∃ z, FlDot F a b z := by
  refine flSum_exists _ ?_
  simp [Finset.univ_eq_empty_iff]

theorem flMul_exists (A B : M3) : ∃ C, FlMul F A B C := by
  choose C hC using fun i j => flDot_exists (F := F) (fun k => A i k) fun k => B k j
  exact ⟨C, hC⟩

theorem flQuatMul_exists (a b : Quat) : ∃ c, FlQuatMul F a b c := by
  obtain ⟨w, hw⟩ := flSum_exists (F := F)
    [(a.w, b.w), (-a.x, b.x), (-a.y, b.y), (-a.z, b.z)] (by simp)
  obtain ⟨x, hx⟩ := flSum_exists (F := F)
    [(a.w, b.x), (a.x, b.w), (a.y, b.z), (-a.z, b.y)] (by simp)
  obtain ⟨y, hy⟩ := flSum_exists (F := F)
    [(a.w, b.y), (a.y, b.w), (a.z, b.x), (-a.x, b.z)] (by simp)
  obtain ⟨z, hz⟩ := flSum_exists (F := F)
    [(a.w, b.z), (a.z, b.w), (a.x, b.y), (-a.y, b.x)] (by simp)
  exact ⟨⟨w, x, y, z⟩, hw, hx, hy, hz⟩

theorem flQuatRotate_exists (q : Quat) (v : V3) : ∃ z, FlQuatRotate F q v z := by
  choose c hc using fun i => flSum_exists (F := F) (crossTerms q.vec v i)
    (by fin_cases i <;> simp [crossTerms])
  choose z hz using fun i => flSum_exists (F := F)
    ((v i, 1) :: (q.w, F.rnd (c i + c i)) :: crossTerms q.vec (fun i => F.rnd (c i + c i)) i) (by simp)
  exact ⟨z, c, _, hc, fun _ => rfl, hz⟩

theorem flToMatrix_exists (q : Quat) : ∃ m, FlToMatrix F q m := by
  choose m hm using fun i j => flSum_exists (F := F) (matTerms (fun i => F.rnd (2 * q.vec i)) q i j)
    (by fin_cases i <;> fin_cases j <;> simp [matTerms])
  exact ⟨m, _, fun _ => rfl, hm⟩

theorem flRotate_exists (k : RigK) (R : k.rotK.Val) (v : V3) : ∃ z, FlRotate F k.rotK R v z := by
  cases k with
  | mat =>
    choose z hz using fun i => flDot_exists (F := F) (fun j => (show M3 from R) i j) v
    exact ⟨z, hz⟩
  | compact => exact flQuatRotate_exists R v

theorem flCompose_exists (k : RigK) (a b : k.rotK.Val) : ∃ c, FlCompose F k.rotK a b c := by
  cases k with
  | mat => exact flMul_exists a b
  | compact => exact flQuatMul_exists a b

theorem flRigidCompose_exists (k : RigK) (x y : k.Val) : ∃ z, FlRigidCompose F k x y z := by
  obtain ⟨R, hR⟩ := flCompose_exists (F := F) k (k.rot x) (k.rot y)
  obtain ⟨t, ht⟩ := flRotate_exists (F := F) k (k.rot x) (k.trans y)
  exact ⟨_, R, t, hR, ht, _, fun _ => rfl, rfl⟩

theorem flRigidMixed_exists (x : QuatTrans) (y : M4) : ∃ z, FlRigidMixed F x y z := by
  obtain ⟨m, hm⟩ := flToMatrix_exists (F := F) x.q
  obtain ⟨R, hR⟩ := flMul_exists (F := F) m (rotBlock y)
  obtain ⟨t, ht⟩ := flQuatRotate_exists (F := F) x.q (transBlock y)
  exact ⟨_, m, R, t, _, hm, hR, ht, fun _ => rfl, rfl⟩

instance (k : VK) : Nonempty k.Idx := by cases k <;> exact inferInstance

theorem flUn_exists {a b : Ty} (op : Un a b) (h : CovUn op) (x : a.Val) : ∃ z, FlUn F op x z := by
  cases op with
  | sqNorm k =>
    obtain ⟨t, ht⟩ := flDot_exists (F := F) (n := k.Idx) x x
    exact ⟨sc t, ht⟩
  | norm k =>
    obtain ⟨t, ht⟩ := flDot_exists (F := F) (n := k.Idx) x x
    exact ⟨sc _, t, ht, rfl⟩
  | invRigid k =>
    obtain ⟨t, ht⟩ := flRotate_exists (F := F) k (invRot k.rotK (k.rot x)) (k.trans x)
    exact ⟨_, t, ht, rfl⟩
  | convRot a b =>
    obtain ⟨h1, h2, h3⟩ := h
    cases a <;> cases b <;> first | exact absurd rfl h1 | exact absurd rfl h2 | skip
    · exact ⟨_, rfl⟩
    · exact flToMatrix_exists x
    · exact absurd ⟨rfl, rfl⟩ h3
    · exact ⟨_, rfl⟩
  | convRigid a b =>
    cases a <;> cases b
    · exact ⟨_, rfl⟩
    · exact absurd ⟨rfl, rfl⟩ h
    · obtain ⟨R, hR⟩ := flToMatrix_exists (F := F) (QuatTrans.q x)
      exact ⟨_, R, hR, rfl⟩
    · exact ⟨_, rfl⟩
  | minus k => exact ⟨_, rfl⟩
  | invRot k => exact ⟨_, rfl⟩
  | getRot k => exact ⟨_, rfl⟩
  | getTrans k => exact ⟨_, rfl⟩
  | zeroTrans k => exact ⟨_, rfl⟩
  | recast k => exact ⟨_, rfl⟩
  | _ => exact h.elim

theorem flBin_exists {a b c : Ty} (op : Bin a b c) (h : CovBin op) (x : a.Val) (y : b.Val) :
    ∃ z, FlBin F op x y z := by
  cases op with
  | sum k => exact ⟨_, fun _ => rfl⟩
  | sumPV => exact ⟨_, fun _ => rfl⟩
  | sumVP => exact ⟨_, fun _ => rfl⟩
  | sub k => exact ⟨_, fun _ => rfl⟩
  | subPP => exact ⟨_, fun _ => rfl⟩
  | subPV => exact ⟨_, fun _ => rfl⟩
  | scale k => exact ⟨_, fun _ => rfl⟩
  | scaleR k => exact ⟨_, fun _ => rfl⟩
  | scaleDiv k => exact h.elim
  | dot k =>
    obtain ⟨t, ht⟩ := flDot_exists (F := F) (n := k.Idx) x y
    exact ⟨sc t, ht⟩
  | product => exact ⟨sc _, rfl⟩
  | divide => exact h.elim
  | composeQ => exact flQuatMul_exists x y
  | composeM => exact flMul_exists x y
  | flipQ => exact flQuatMul_exists y x
  | flipM => exact flMul_exists y x
  | composeRigid p q =>
    cases p <;> cases q
    · exact flRigidCompose_exists .mat x y
    · exact absurd ⟨rfl, rfl⟩ h
    · exact flRigidMixed_exists x y
    · exact flRigidCompose_exists .compact x y
  | flipRigid p q =>
    cases p <;> cases q
    · exact flRigidCompose_exists .mat y x
    · exact flRigidMixed_exists y x
    · exact absurd ⟨rfl, rfl⟩ h
    · exact flRigidCompose_exists .compact y x
  | rotateQ => exact flRotate_exists .compact x y
  | rotateM => exact flRotate_exists .mat x y
  | transform k =>
    obtain ⟨t, ht⟩ := flRotate_exists (F := F) k (k.rot x) y
    exact ⟨_, t, ht, fun _ => rfl⟩

/-! ### Exact arithmetic -/

theorem growth_zero (hu : F.u = 0) (n : ℕ) : growth F.u n = 0 := by
  rw [hu]
  simp [growth]

theorem rnd_exact (hu : F.u = 0) (x : ℝ) : F.rnd x = x := by
  have := F.err x
  rw [hu, zero_mul] at this
  exact sub_eq_zero.mp (abs_nonpos_iff.mp this)

theorem eq_of_len {n : Type} [Fintype n] {v w : n → ℝ} (h : len (v - w) ≤ 0) : v = w := by
  have h1 : len (v - w) ^ 2 = 0 := by rw [le_antisymm h (len_nonneg _), sq, zero_mul]
  rw [len_sq] at h1
  funext i
  have := (Finset.sum_eq_zero_iff_of_nonneg fun i _ => sq_nonneg ((v - w) i)).mp h1 i (Finset.mem_univ i)
  exact sub_eq_zero.mp (pow_eq_zero_iff (two_ne_zero) |>.mp this)

theorem eq_of_frob {A B : M3} (h : frob (A - B) ≤ 0) : A = B := by
  have := eq_of_len (v := fun p : Fin 3 × Fin 3 => A p.1 p.2) (w := fun p => B p.1 p.2) h
  funext i j
  exact congrFun this (i, j)

theorem eq_of_coeffs {a b : Quat} (h : len (coeffs a - coeffs b) ≤ 0) : a = b := by
  have := eq_of_len h
  have h0 := congrFun this 0
  have h1 := congrFun this 1
  have h2 := congrFun this 2
  have h3 := congrFun this 3
  simp only [coeffs, Matrix.cons_val_zero, Matrix.cons_val_one, Matrix.cons_val] at h0 h1 h2 h3
  cases a
  cases b
  simp_all

theorem flDot_exact (hu : F.u = 0) {n : Type} [Fintype n] {a b : n → ℝ} {z : ℝ} (h : FlDot F a b z) :
    z = a ⬝ᵥ b := by
  have := flDot_err h
  rw [growth_zero hu, zero_mul] at this
  exact sub_eq_zero.mp (abs_nonpos_iff.mp this)

theorem flMul_exact (hu : F.u = 0) {A B C : M3} (h : FlMul F A B C) : C = A * B := by
  have := mul_err h
  rw [growth_zero hu, zero_mul] at this
  exact eq_of_frob this

theorem flQuatMul_exact (hu : F.u = 0) {a b c : Quat} (h : FlQuatMul F a b c) : c = a.mul b := by
  have := quatMul_err h
  rw [growth_zero hu, zero_mul, mul_zero] at this
  exact eq_of_coeffs this

theorem flQuatRotate_exact (hu : F.u = 0) {q : Quat} {v z : V3} (h : FlQuatRotate F q v z) :
    z = q.rotate v := by
  have := quatRotate_err h (le_max_right 1 _) (le_max_left 1 _)
  rw [growth_zero hu, mul_zero, zero_mul] at this
  exact eq_of_len this

theorem flToMatrix_exact (hu : F.u = 0) {q : Quat} {m : M3} (h : FlToMatrix F q m) :
    m = q.toMatrix := by
  have := toMatrix_err h (le_max_right 1 _) (le_max_left 1 _)
  rw [growth_zero hu, zero_mul, mul_zero] at this
  exact eq_of_frob this

theorem flRotate_exact (hu : F.u = 0) {k : RotK} {R : k.Val} {v z : V3} (h : FlRotate F k R v z) :
    z = rotVec k R v := by
  cases k with
  | quat => exact flQuatRotate_exact hu h
  | mat =>
    funext i
    exact flDot_exact hu (h i)
  | aa => exact h.elim

theorem flCompose_exact (hu : F.u = 0) {k : RotK} {a b c : k.Val} (h : FlCompose F k a b c) :
    c = compRot k a b := by
  cases k with
  | quat => exact flQuatMul_exact hu h
  | mat => exact flMul_exact hu h
  | aa => exact h.elim

theorem flAdd_exact (hu : F.u = 0) {n : Type} {a b z : n → ℝ} (h : FlAdd F a b z) : z = a + b := by
  funext i
  rw [h i, rnd_exact hu]
  rfl

theorem flRigidCompose_exact (hu : F.u = 0) {k : RigK} {x y z : k.Val} (h : FlRigidCompose F k x y z) :
    composeRigid k k x y = some z := by
  obtain ⟨R, t, hR, ht, w, hw, rfl⟩ := h
  rw [flAdd_exact hu hw, flRotate_exact hu ht, flCompose_exact hu hR]
  cases k <;> rfl

theorem flRigidMixed_exact (hu : F.u = 0) {x : QuatTrans} {y z : M4} (h : FlRigidMixed F x y z) :
    composeRigid .compact .mat x y = some z := by
  obtain ⟨m, R, t, w, hm, hR, ht, hw, rfl⟩ := h
  rw [flAdd_exact hu hw, flQuatRotate_exact hu ht, flMul_exact hu hR, flToMatrix_exact hu hm]
  rfl

theorem sc_eq (z : Fin 1 → ℝ) : sc (z 0) = z := by
  funext i
  rw [Subsingleton.elim i 0]
  rfl

theorem flUn_exact (hu : F.u = 0) {a b : Ty} (op : Un a b) {x : a.Val} {z : b.Val}
    (h : FlUn F op x z) : evalUn ε op x = some z := by
  cases op with
  | minus k => exact congrArg some h.symm
  | sqNorm k =>
    have := flDot_exact hu h
    refine congrArg some (Eq.trans ?_ (sc_eq z))
    exact congrArg sc this.symm
  | norm k =>
    obtain ⟨t, ht, hz⟩ := h
    rw [flDot_exact hu ht, rnd_exact hu] at hz
    refine congrArg some (Eq.trans ?_ (sc_eq z))
    exact congrArg sc hz.symm
  | invRigid k =>
    obtain ⟨t, ht, rfl⟩ := h
    rw [flRotate_exact hu ht]
    exact congrArg some (invRigid_eq k x)
  | convRot a b =>
    cases a <;> cases b <;> first | exact h.elim | skip
    · exact congrArg some h.symm
    · exact congrArg some (flToMatrix_exact hu h).symm
    · exact congrArg some h.symm
  | convRigid a b =>
    cases a <;> cases b
    · exact congrArg some h.symm
    · exact h.elim
    · obtain ⟨R, hR, rfl⟩ := h
      rw [flToMatrix_exact hu hR]
      rfl
    · exact congrArg some h.symm
  | invRot k => exact congrArg some h.symm
  | getRot k => exact congrArg some h.symm
  | getTrans k => exact congrArg some h.symm
  | zeroTrans k => exact congrArg some h.symm
  | recast k => exact congrArg some h.symm
  | _ => exact h.elim

theorem flBin_exact (hu : F.u = 0) {a b c : Ty} (op : Bin a b c) {x : a.Val} {y : b.Val} {z : c.Val}
    (h : FlBin F op x y z) : evalBin op x y = some z := by
  cases op with
  | sum k => exact congrArg some (flAdd_exact hu h).symm
  | sumPV => exact congrArg some (flAdd_exact hu h).symm
  | sumVP => exact congrArg some (flAdd_exact hu h).symm
  | sub k => exact congrArg some ((flAdd_exact hu h).trans (sub_eq_add_neg _ _).symm).symm
  | subPP => exact congrArg some ((flAdd_exact hu h).trans (sub_eq_add_neg _ _).symm).symm
  | subPV => exact congrArg some ((flAdd_exact hu h).trans (sub_eq_add_neg _ _).symm).symm
  | scale k =>
    refine congrArg some (funext fun i => ?_)
    rw [h i, rnd_exact hu]
    rfl
  | scaleR k =>
    refine congrArg some (funext fun i => ?_)
    rw [h i, rnd_exact hu]
    rfl
  | scaleDiv k => exact h.elim
  | dot k =>
    have := flDot_exact hu h
    refine congrArg some (Eq.trans ?_ (sc_eq z))
    exact congrArg sc this.symm
  | product =>
    refine congrArg some (Eq.trans ?_ (sc_eq z))
    have h' : z (0 : Fin 1) = F.rnd (x (0 : Fin 1) * y (0 : Fin 1)) := h
    rw [rnd_exact hu] at h'
    exact congrArg sc h'.symm
  | divide => exact h.elim
  | composeQ => exact congrArg some (flQuatMul_exact hu h).symm
  | composeM => exact congrArg some (flMul_exact hu h).symm
  | flipQ => exact congrArg some (flQuatMul_exact hu h).symm
  | flipM => exact congrArg some (flMul_exact hu h).symm
  | composeRigid p q =>
    cases p <;> cases q
    · exact flRigidCompose_exact hu h
    · exact h.elim
    · exact flRigidMixed_exact hu h
    · exact flRigidCompose_exact hu h
  | flipRigid p q =>
    cases p <;> cases q
    · exact flRigidCompose_exact hu h
    · exact flRigidMixed_exact hu h
    · exact h.elim
    · exact flRigidCompose_exact hu h
  | rotateQ => exact congrArg some (flQuatRotate_exact hu h).symm
  | rotateM => exact congrArg some (flRotate_exact (k := .mat) hu h).symm
  | transform k =>
    obtain ⟨t, ht, hz⟩ := h
    rw [flAdd_exact hu hz, flRotate_exact hu ht, ← rotate_eq_rotVec]
    rfl

/-! ### Chains -/

theorem bernoulli {x : ℝ} (hx : 0 ≤ x) : (k : ℕ) → (1 + x) ^ k * (1 - k * x) ≤ 1
  | 0 => by simp
  | k + 1 => by
    have h := bernoulli hx k
    have p : 0 ≤ (1 + x) ^ k := by positivity
    have e : (1 + x) ^ (k + 1) * (1 - (k + 1 : ℕ) * x) =
        (1 + x) ^ k * (1 - k * x) - (1 + x) ^ k * ((k + 1) * x ^ 2) := by
      push_cast
      ring
    rw [e]
    nlinarith [mul_nonneg p (by positivity : 0 ≤ ((k : ℝ) + 1) * x ^ 2)]

theorem pow_growth {x : ℝ} (hx : 0 ≤ x) (k : ℕ) (hk : k * x ≤ 1 / 11) :
    (1 + x) ^ k - 1 ≤ 11 / 10 * (k * x) := by
  have h := bernoulli hx k
  have y0 : 0 ≤ k * x := by positivity
  have p : (1 + x) ^ k ≤ 1 / (1 - k * x) := by
    rw [le_div_iff₀ (by linarith)]
    exact h
  have q : 1 / (1 - k * x) ≤ 1 + 11 / 10 * (k * x) := by
    rw [div_le_iff₀ (by linarith)]
    nlinarith
  linarith

/-! ### Storing leaves -/

theorem len_rnd {n : Type} [Fintype n] {x z : n → ℝ} (h : ∀ i, z i = F.rnd (x i)) :
    len (z - x) ≤ F.u * len x := by
  rw [← abs_of_nonneg (u_nonneg F), ← len_smul]
  refine len_mono fun i => ?_
  rw [Pi.sub_apply, h i, Pi.smul_apply, smul_eq_mul, abs_mul, abs_of_nonneg (u_nonneg F)]
  exact F.err _

theorem coeffs_rnd {x z : Quat} (hx : x.IsUnit)
    (h : z = Quat.mk (F.rnd x.w) (F.rnd x.x) (F.rnd x.y) (F.rnd x.z)) :
    len (coeffs z - coeffs x) ≤ F.u := by
  have := len_rnd (F := F) (x := coeffs x) (z := coeffs z) (by
    intro i
    rw [h]
    fin_cases i <;> rfl)
  rwa [len_unit hx, mul_one] at this

theorem frob_rnd {x z : M3} (hx : xᵀ * x = 1) (h : ∀ i j, z i j = F.rnd (x i j)) :
    frob (z - x) ≤ 2 * F.u := by
  have h1 : frob (z - x) ≤ F.u * frob x := len_rnd (F := F) (x := fun p : Fin 3 × Fin 3 => x p.1 p.2)
    (z := fun p => z p.1 p.2) fun p => h p.1 p.2
  have h2 := frob_orth hx
  have h3 : frob x ≤ 2 := by nlinarith [frob_nonneg x]
  have := mul_le_mul_of_nonneg_left h3 (u_nonneg F)
  linarith

theorem within_stored : (τ : Ty) → {x z : τ.Val} → Valid τ x → Stored F τ x z →
    Within τ (2 * F.u) (size τ x) x z
  | .vec k, x, z, _, h => by
    have := len_rnd (n := k.Idx) h
    have h0 : 0 ≤ F.u * len (n := k.Idx) x := mul_nonneg (u_nonneg F) (len_nonneg _)
    change len (n := k.Idx) (z - x) ≤ 2 * F.u * len (n := k.Idx) x
    linarith
  | .point, x, z, _, h => by
    have := len_rnd (n := Fin 3) h
    have h0 : 0 ≤ F.u * len (n := Fin 3) x := mul_nonneg (u_nonneg F) (len_nonneg _)
    change len (n := Fin 3) (z - x) ≤ 2 * F.u * len (n := Fin 3) x
    linarith
  | .rot .quat, _, _, hx, h =>
    (coeffs_rnd ((validRot_quat _).mp hx) h).trans (by linarith [u_nonneg F])
  | .rot .mat, _, _, hx, h => frob_rnd (Spec.IsRotation.transpose_mul_self hx) h
  | .rot .aa, _, _, _, h => h
  | .rigid .mat, x, z, hx, h => by
    refine ⟨frob_rnd ((validRigid_mat _).mp hx).1.transpose_mul_self h.1, ?_⟩
    have := len_rnd h.2
    have h0 : 0 ≤ F.u * len (transBlock x) := mul_nonneg (u_nonneg F) (len_nonneg _)
    change _ ≤ 2 * F.u * len (transBlock x)
    linarith
  | .rigid .compact, x, z, hx, h => by
    refine ⟨(coeffs_rnd ((validRot_quat _).mp hx) h.1).trans (by linarith [u_nonneg F]), ?_⟩
    have := len_rnd h.2
    have h0 : 0 ≤ F.u * len (QuatTrans.t x) := mul_nonneg (u_nonneg F) (len_nonneg _)
    change _ ≤ 2 * F.u * len (QuatTrans.t x)
    linarith

end WG.Round
