import Verif.Spec.Imu
import Verif.Props.ExpLog
import Verif.Props.DerivativeUser

/-!
# C72: the IMU preintegration residual
-/

namespace WG
open Matrix Spec

variable {ε : ℝ}

/-- The evaluable tree of the residual for rotation matrices (the exponential, a quaternion, is converted). -/
def imuTree (ε : ℝ) (W I J : Frame) (a b c d : ℕ) : Expr (geoLib ε) (.vec .relrot) :=
  .un (L := geoLib ε) 0 .logRot (.bin (L := geoLib ε) 0 .composeM (.bin (L := geoLib ε) 0 .composeM
    (.un (L := geoLib ε) 0 (.invRot .mat) (.bin (L := geoLib ε) 0 .composeM
      (.leaf (L := geoLib ε) a (Labels.two I J).code (.rot .mat))
      (.un (L := geoLib ε) 0 (.convRot .quat .mat) (.un (L := geoLib ε) 0 .expRel
        (.leaf (L := geoLib ε) b (Labels.three J J J).code (.vec .relrot))))))
    (.un (L := geoLib ε) 0 (.invRot .mat) (.leaf (L := geoLib ε) c (Labels.two W I).code (.rot .mat))))
    (.leaf (L := geoLib ε) d (Labels.two W J).code (.rot .mat)))

/-- **C72, frames.** For all frames the expression is accepted and labelled `<J, J, J>`. -/
theorem c72_frames (W I J : Frame) (a b c d : ℕ) :
    (imuResidual W I J .mat .mat .mat a b c d).build ε =
      some (⟨.vec .relrot, imuTree ε W I J a b c d⟩, .three J J J) := by
  have key : ∀ {o : Option Labels} {f : Labels} {x : Tree ε}, o = some f →
      (o.map fun f => (x, f)) = some (x, f) := by rintro o f x rfl; rfl
  have h1 : composeLabels (.rot .mat) (.two I J) (.two J J) = some (.two I J) := if_pos rfl
  have h2 : composeLabels (.rot .mat) (.two J I) (.two I W) = some (.two J W) := if_pos rfl
  have h3 : composeLabels (.rot .mat) (.two J W) (.two W J) = some (.two J J) := if_pos rfl
  have e1 : (FExpr.bin .mul (.leaf a (.rot .mat) (.two I J)) (.un .exp (.leaf b (.vec .relrot) (.three J J J)))).build ε =
      some (⟨.rot .mat, .bin (L := geoLib ε) 0 .composeM
      (.leaf (L := geoLib ε) a (Labels.two I J).code (.rot .mat))
      (.un (L := geoLib ε) 0 (.convRot .quat .mat) (.un (L := geoLib ε) 0 .expRel
        (.leaf (L := geoLib ε) b (Labels.three J J J).code (.vec .relrot))))⟩, .two I J) := key h1
  have e2 : (FExpr.bin .mul
    (.un .inverse (.bin .mul (.leaf a (.rot .mat) (.two I J)) (.un .exp (.leaf b (.vec .relrot) (.three J J J)))))
    (.un .inverse (.leaf c (.rot .mat) (.two W I)))).build ε =
      some (⟨.rot .mat, .bin (L := geoLib ε) 0 .composeM
    (.un (L := geoLib ε) 0 (.invRot .mat) (.bin (L := geoLib ε) 0 .composeM
      (.leaf (L := geoLib ε) a (Labels.two I J).code (.rot .mat))
      (.un (L := geoLib ε) 0 (.convRot .quat .mat) (.un (L := geoLib ε) 0 .expRel
        (.leaf (L := geoLib ε) b (Labels.three J J J).code (.vec .relrot))))))
    (.un (L := geoLib ε) 0 (.invRot .mat) (.leaf (L := geoLib ε) c (Labels.two W I).code (.rot .mat)))⟩,
      .two J W) := by
    rw [FExpr.build, FExpr.build, e1]
    exact key h2
  rw [imuResidual, FExpr.build, FExpr.build, e2]
  show Option.bind (Option.map _ (composeLabels (.rot .mat) (.two J W) (.two W J))) _ = _
  rw [h3]
  rfl

/-- The targets of the test, in its order. -/
abbrev imuTargets (ε : ℝ) (W I J : Frame) (a b c d : ℕ) : List (Target (geoLib ε)) :=
  [⟨a, (Labels.two I J).code, .rot .mat⟩, ⟨b, (Labels.three J J J).code, .vec .relrot⟩,
    ⟨c, (Labels.two W I).code, .rot .mat⟩, ⟨d, (Labels.two W J).code, .rot .mat⟩]

theorem handLogJac_eq {φ : V3} (h : Real.cos √(sqLen φ) ≠ 1) : logRotJac φ = some (handLogJac φ) := by
  have h0 : sqLen φ ≠ 0 := fun h0 => h (by rw [h0]; simp)
  have h1 : √(sqLen φ) ≠ 0 := fun h1 => h (by rw [h1]; simp)
  have h2 : 1 - Real.cos √(sqLen φ) ≠ 0 := sub_ne_zero.2 (Ne.symm h)
  rw [sqLen_eq] at h0 h1 h2
  simp only [logRotJac, rdiv, h0, h1, h2, if_false, handLogJac, sqLen_eq, hat_eq, Option.bind_eq_bind,
    Option.bind_some]

theorem handExpJac_eq (hε : 0 < ε) (C : M3) (φ : V3) : expRelJac ε C φ = some (handExpJac ε C φ) := by
  unfold expRelJac handExpJac
  simp only [sqLen_eq, hat_eq]
  split_ifs with h
  · have h0 : normSq φ ≠ 0 := by intro h0; rw [h0] at h; linarith
    simp only [rdiv, h0, if_false, Option.bind_eq_bind, Option.bind_some]
    rfl
  · rfl

/-- **C72, Jacobians.** For all matrices `D`, `Ri`, `Rj` and rotation vectors `w` at which the residual
`φ` is computed and is not zero (nor a full turn), `evalWithJacobians` returns `φ` and exactly the four
matrices that the test derives by hand, from the library's `exp(w)`, whose matrix is `E`. -/
theorem c72_jacobians (hε : 0 < ε) (W I J : Frame) {a b c d : ℕ} (hac : a ≠ c) (had : a ≠ d) (hcd : c ≠ d)
    (s : Store (geoLib ε)) (D Ri Rj : M3) (w : V3) (hD : s a (.rot .mat) = D) (hw : s b (.vec .relrot) = w)
    (hi : s c (.rot .mat) = Ri) (hj : s d (.rot .mat) = Rj) {q : Quat} (hq : expRel ε w = some q) {φ : V3}
    (hφ : logMat ε ((D * q.toMatrix)ᵀ * Riᵀ * Rj) = some φ) (h1 : Real.cos √(sqLen φ) ≠ 1) :
    let t0 := (D * q.toMatrix)ᵀ
    let t1 := t0 * Riᵀ
    let JR := handLogJac φ * (-t0)
    (imuTree ε W I J a b c d).evalWithJacobians s (imuTargets ε W I J a b c d) =
      some (some φ, [⟨.rot .mat, some JR⟩,
        ⟨.vec .relrot, some (JR * D * handExpJac ε q.toMatrix w)⟩,
        ⟨.rot .mat, some (-(handLogJac φ * t1))⟩, ⟨.rot .mat, some (handLogJac φ * t1)⟩]) := by
  intro t0 t1 JR
  subst hD hw hi hj
  set D : M3 := s a (.rot .mat)
  set Ri : M3 := s c (.rot .mat)
  set Rj : M3 := s d (.rot .mat)
  set w : V3 := s b (.vec .relrot)
  -- the leaves and inner nodes
  let la : Expr (geoLib ε) (.rot .mat) := .leaf (L := geoLib ε) a (Labels.two I J).code (.rot .mat)
  let lb : Expr (geoLib ε) (.vec .relrot) := .leaf (L := geoLib ε) b (Labels.three J J J).code (.vec .relrot)
  let lc : Expr (geoLib ε) (.rot .mat) := .leaf (L := geoLib ε) c (Labels.two W I).code (.rot .mat)
  let ld : Expr (geoLib ε) (.rot .mat) := .leaf (L := geoLib ε) d (Labels.two W J).code (.rot .mat)
  let x1 : Expr (geoLib ε) (.rot .quat) := .un (L := geoLib ε) 0 .expRel lb
  let x2 : Expr (geoLib ε) (.rot .mat) := .un (L := geoLib ε) 0 (.convRot .quat .mat) x1
  let x3 : Expr (geoLib ε) (.rot .mat) := .bin (L := geoLib ε) 0 .composeM la x2
  let x4 : Expr (geoLib ε) (.rot .mat) := .un (L := geoLib ε) 0 (.invRot .mat) x3
  let x5 : Expr (geoLib ε) (.rot .mat) := .un (L := geoLib ε) 0 (.invRot .mat) lc
  let x6 : Expr (geoLib ε) (.rot .mat) := .bin (L := geoLib ε) 0 .composeM x4 x5
  let x7 : Expr (geoLib ε) (.rot .mat) := .bin (L := geoLib ε) 0 .composeM x6 ld
  have v1 : value s x1 = some q := hq
  have v2 : value s x2 = some (q.toMatrix : M3) := by
    show (value s x1).bind _ = _
    rw [v1]; rfl
  have v3 : value s x3 = some (D * q.toMatrix : M3) := by
    show (some D).bind (fun x => (value s x2).bind _) = _
    rw [v2]; rfl
  have v4 : value s x4 = some (t0 : M3) := by
    show (value s x3).bind _ = _
    rw [v3]; rfl
  have v5 : value s x5 = some (Riᵀ : M3) := rfl
  have v6 : value s x6 = some (t1 : M3) := by
    show (value s x4).bind (fun x => (value s x5).bind _) = _
    rw [v4, v5]; rfl
  have v7 : value s x7 = some (t1 * Rj : M3) := by
    show (value s x6).bind (fun x => (some Rj).bind _) = _
    rw [v6]; rfl
  have v8 : value s (imuTree ε W I J a b c d) = some φ := by
    show (value s x7).bind _ = _
    rw [v7]; exact hφ
  -- the local derivatives
  have s1 : slopeU (L := geoLib ε) s (.expRel : Un _ _) lb = some (handExpJac ε q.toMatrix w) := by
    show (some w).bind (fun x => (expRel ε x).bind fun v => expRelJac ε v.toMatrix x) = _
    rw [Option.bind_some, hq, Option.bind_some]
    exact handExpJac_eq hε _ _
  have s2 : slopeU (L := geoLib ε) s (.convRot .quat .mat : Un _ _) x1 = some (1 : M3) := by
    show (value s x1).bind _ = _
    rw [v1]; rfl
  have s3 : slopeL (L := geoLib ε) s (.composeM : Bin _ _ _) la x2 = some (1 : M3) := by
    show (some D).bind (fun x => (value s x2).bind _) = _
    rw [v2]; rfl
  have s3' : slopeR (L := geoLib ε) s (.composeM : Bin _ _ _) la x2 = some D := by
    show (some D).bind (fun x => (value s x2).bind _) = _
    rw [v2]; rfl
  have s4 : slopeU (L := geoLib ε) s (.invRot .mat : Un _ _) x3 = some (-t0) := by
    show (value s x3).bind _ = _
    rw [v3]; rfl
  have s5 : slopeU (L := geoLib ε) s (.invRot .mat : Un _ _) lc = some (-Riᵀ) := rfl
  have s6 : slopeL (L := geoLib ε) s (.composeM : Bin _ _ _) x4 x5 = some (1 : M3) := by
    show (value s x4).bind (fun x => (value s x5).bind _) = _
    rw [v4, v5]; rfl
  have s6' : slopeR (L := geoLib ε) s (.composeM : Bin _ _ _) x4 x5 = some t0 := by
    show (value s x4).bind (fun x => (value s x5).bind _) = _
    rw [v4, v5]; rfl
  have s7 : slopeL (L := geoLib ε) s (.composeM : Bin _ _ _) x6 ld = some (1 : M3) := by
    show (value s x6).bind (fun x => (some Rj).bind _) = _
    rw [v6]; rfl
  have s7' : slopeR (L := geoLib ε) s (.composeM : Bin _ _ _) x6 ld = some t1 := by
    show (value s x6).bind (fun x => (some Rj).bind _) = _
    rw [v6]; rfl
  have s8 : slopeU (L := geoLib ε) s (.logRot : Un _ _) x7 = some (handLogJac φ) := by
    show (value s x7).bind _ = _
    rw [v7]
    show (logMat ε (t1 * Rj)).bind (fun v => logRotJac v) = _
    rw [hφ]
    exact handLogJac_eq h1
  have acc := c22_accepted (L := geoLib ε) s (imuTree ε W I J a b c d) (imuTargets ε W I J a b c d)
    rfl (by
      intro t ht
      simp only [imuTargets, List.mem_cons, List.not_mem_nil, or_false] at ht
      show t ∈ ([_] ++ [_] ++ [_]) ++ [_]
      simp only [List.mem_append, List.mem_singleton]
      tauto)
  unfold Expr.evalWithJacobians
  rw [acc]
  show some (_, [_, _, _, _]) = _
  rw [v8]
  have hit : ∀ (n k : ℕ) (τ : Ty), occurrences (L := geoLib ε) s ⟨n, k, τ⟩ (.leaf (L := geoLib ε) n k τ) =
      [some 1] := fun n k τ => dif_pos rfl
  have miss : ∀ (t : Target (geoLib ε)) (n k : ℕ) (τ : Ty), t.addr ≠ n →
      occurrences (L := geoLib ε) s t (.leaf (L := geoLib ε) n k τ) = [] := fun t n k τ h =>
    dif_neg fun e => h (by rw [← e])
  have missTy : ∀ (t : Target (geoLib ε)) (n k : ℕ) (τ : Ty), t.ty ≠ τ →
      occurrences (L := geoLib ε) s t (.leaf (L := geoLib ε) n k τ) = [] := fun t n k τ h =>
    dif_neg fun e => h (by rw [← e])
  have all : ∀ t : Target (geoLib ε), occurrences (L := geoLib ε) s t (imuTree ε W I J a b c d) =
      ((((((occurrences s t la).map (OMat.mul (some (1 : M3))) ++
        (((occurrences s t lb).map (OMat.mul (some (handExpJac ε q.toMatrix w)))).map
          (OMat.mul (some (1 : M3)))).map (OMat.mul (some D))).map (OMat.mul (some (-t0)))).map
            (OMat.mul (some (1 : M3)))) ++
        ((occurrences s t lc).map (OMat.mul (some (-Riᵀ)))).map (OMat.mul (some t0))).map
          (OMat.mul (some (1 : M3))) ++
        (occurrences s t ld).map (OMat.mul (some t1))).map (OMat.mul (some (handLogJac φ))) := by
    intro t
    show ((((((occurrences s t la).map (OMat.mul (slopeL (L := geoLib ε) s (.composeM : Bin _ _ _) la x2)) ++
        (((occurrences s t lb).map (OMat.mul (slopeU (L := geoLib ε) s (.expRel : Un _ _) lb))).map
          (OMat.mul (slopeU (L := geoLib ε) s (.convRot .quat .mat : Un _ _) x1))).map
            (OMat.mul (slopeR (L := geoLib ε) s (.composeM : Bin _ _ _) la x2))).map
              (OMat.mul (slopeU (L := geoLib ε) s (.invRot .mat : Un _ _) x3))).map
            (OMat.mul (slopeL (L := geoLib ε) s (.composeM : Bin _ _ _) x4 x5))) ++
        ((occurrences s t lc).map (OMat.mul (slopeU (L := geoLib ε) s (.invRot .mat : Un _ _) lc))).map
          (OMat.mul (slopeR (L := geoLib ε) s (.composeM : Bin _ _ _) x4 x5))).map
          (OMat.mul (slopeL (L := geoLib ε) s (.composeM : Bin _ _ _) x6 ld)) ++
        (occurrences s t ld).map (OMat.mul (slopeR (L := geoLib ε) s (.composeM : Bin _ _ _) x6 ld))).map
          (OMat.mul (slopeU (L := geoLib ε) s (.logRot : Un _ _) x7)) = _
    rw [s1, s2, s3, s3', s4, s5, s6, s6', s7, s7', s8]
  have one : ∀ A : M3, total [(some A : OMat (Fin 3) (Fin 3))] = some A := fun A =>
    congrArg some (add_zero A)
  have ta : total (occurrences (L := geoLib ε) s ⟨a, (Labels.two I J).code, .rot .mat⟩
      (imuTree ε W I J a b c d)) = some JR := by
    rw [all, hit, missTy _ b _ _ (by simp), miss _ c _ _ hac, miss _ d _ _ had]
    refine (one (handLogJac φ * (1 * (1 * (-t0 * (1 * 1)))))).trans (congrArg some ?_)
    simp only [Matrix.one_mul, Matrix.mul_one, JR]
  have tb : total (occurrences (L := geoLib ε) s ⟨b, (Labels.three J J J).code, .vec .relrot⟩
      (imuTree ε W I J a b c d)) = some (JR * D * handExpJac ε q.toMatrix w) := by
    rw [all, hit, missTy _ a _ _ (by simp), missTy _ c _ _ (by simp), missTy _ d _ _ (by simp)]
    refine (one (handLogJac φ * (1 * (1 * (-t0 * (D * (1 * (handExpJac ε q.toMatrix w * 1)))))))).trans (congrArg some ?_)
    simp only [Matrix.one_mul, Matrix.mul_one, JR, Matrix.mul_assoc]
  have tc : total (occurrences (L := geoLib ε) s ⟨c, (Labels.two W I).code, .rot .mat⟩
      (imuTree ε W I J a b c d)) = some (-(handLogJac φ * t1)) := by
    rw [all, hit, missTy _ b _ _ (by simp), miss _ a _ _ hac.symm, miss _ d _ _ hcd]
    refine (one (handLogJac φ * (1 * (t0 * (-Riᵀ * 1))))).trans (congrArg some ?_)
    simp only [Matrix.one_mul, Matrix.mul_one, t1, Matrix.mul_neg]
    rfl
  have td : total (occurrences (L := geoLib ε) s ⟨d, (Labels.two W J).code, .rot .mat⟩
      (imuTree ε W I J a b c d)) = some (handLogJac φ * t1) := by
    rw [all, hit, missTy _ b _ _ (by simp), miss _ a _ _ had.symm, miss _ c _ _ hcd.symm]
    refine (one (handLogJac φ * (t1 * 1))).trans (congrArg some ?_)
    simp only [Matrix.mul_one]
  exact congrArg (fun l => some (some φ, l)) (congrArg₂ List.cons (congrArg (Sigma.mk _) ta)
    (congrArg₂ List.cons (congrArg (Sigma.mk _) tb) (congrArg₂ List.cons (congrArg (Sigma.mk _) tc)
      (congrArg₂ List.cons (congrArg (Sigma.mk _) td) rfl))))

/-- **C72, residual.** Whatever the classes of the three rotations, if they are valid, `w` is zero or not
too small and the rotation `M = (D exp(w))⁻¹ Ri⁻¹ Rj` is the identity or not too small and not a half
turn, the residual is the rotation vector of `M`. -/
theorem c72_residual (hε : 0 < ε) (s : Memory) (W I J : Frame) (k₁ k₂ k₃ : RotK) (a b c d : ℕ) (D Ri Rj : M3)
    (w : V3) (va : Valid (.rot k₁) (s a (.rot k₁))) (vc : Valid (.rot k₂) (s c (.rot k₂)))
    (vd : Valid (.rot k₃) (s d (.rot k₃))) (hD : rotDen k₁ (s a (.rot k₁)) = D)
    (hi : rotDen k₂ (s c (.rot k₂)) = Ri) (hj : rotDen k₃ (s d (.rot k₃)) = Rj)
    (hw : s b (.vec .relrot) = w) (hr : w = 0 ∨ ε < sqLen w ^ 2) {M : M3}
    (hM : M = (D * NormedSpace.exp (hat w))⁻¹ * Ri⁻¹ * Rj) (hm : M = 1 ∨ ε < angle M ^ 2)
    (hπ : angle M ≠ Real.pi) :
    ∃ φ : V3, Yields ε s (imuResidual W I J k₁ k₂ k₃ a b c d).erase (.vec .relrot φ) ∧
      √(sqLen φ) = angle M ∧ M = NormedSpace.exp (hat φ) := by
  subst hD hi hj hw hM
  exact c08_log_length hε (.mulRot (.mulRot (.inverseRot (.mulRot (.leaf a 0 (.rot k₁) va)
    (.expRot (.leaf b 0 (.vec .relrot) trivial) hr))) (.inverseRot (.leaf c 0 (.rot k₂) vc)))
    (.leaf d 0 (.rot k₃) vd)) hm hπ

theorem imu_objects {W I J : Frame} {a b c d : ℕ} (t : Target (geoLib ε)) :
    t ∈ objects (imuTree ε W I J a b c d) ↔ t ∈ imuTargets ε W I J a b c d := by
  change t ∈ ([_] ++ [_] ++ [_]) ++ [_] ↔ _
  simp only [List.mem_append, List.mem_cons, List.not_mem_nil, or_false,
    or_assoc]

theorem imu_once {W I J : Frame} {a b c d : ℕ} (hac : a ≠ c) (had : a ≠ d) (hcd : c ≠ d)
    (t : Target (geoLib ε)) (ht : t ∈ imuTargets ε W I J a b c d) :
    ∀ o ∈ objects (imuTree ε W I J a b c d), o.addr = t.addr → o.ty = t.ty → o = t := by
  intro o ho h1 h2
  replace ho := (imu_objects o).1 ho
  simp only [imuTargets, List.mem_cons, List.not_mem_nil, or_false] at ht ho
  rcases ht with rfl | rfl | rfl | rfl <;> rcases ho with rfl | rfl | rfl | rfl
  · rfl
  · cases h2
  · exact absurd h1.symm hac
  · exact absurd h1.symm had
  · cases h2
  · rfl
  · cases h2
  · cases h2
  · exact absurd h1 hac
  · cases h2
  · rfl
  · exact absurd h1.symm hcd
  · exact absurd h1 had
  · cases h2
  · exact absurd h1 hcd
  · rfl

theorem imu_regular {W I J : Frame} {a b c d : ℕ} {s : Store (geoLib ε)}
    (vD : IsRotation (s a (.rot .mat) : M3)) (vi : IsRotation (s c (.rot .mat) : M3))
    (vj : IsRotation (s d (.rot .mat) : M3))
    (hr : (s b (.vec .relrot) : V3) = 0 ∨ ε < sqLen (s b (.vec .relrot) : V3) ^ 2) {q : Quat}
    (hq : expRel ε (s b (.vec .relrot)) = some q)
    (hm : RegularUn ε .logRot (((s a (.rot .mat) : M3) * q.toMatrix)ᵀ * (s c (.rot .mat) : M3)ᵀ *
      (s d (.rot .mat) : M3) : M3)) :
    RegularAt ε s (imuTree ε W I J a b c d) := by
  refine ⟨⟨⟨⟨⟨vD, ⟨⟨trivial, fun x hx => ?_⟩, fun _ _ => trivial⟩, fun _ _ _ _ => trivial⟩,
    fun _ _ => trivial⟩, ⟨vi, fun _ _ => trivial⟩, fun _ _ _ _ => trivial⟩, vj, fun _ _ _ _ => trivial⟩,
    fun x hx => ?_⟩
  · have : (s b (.vec .relrot) : V3) = x := Option.some.inj hx
    rw [← this]; exact hr
  · change ((((some _).bind fun x => (((expRel ε _).bind _).bind fun y => _)).bind _).bind _).bind _ = _ at hx
    rw [hq] at hx
    have : _ = x := Option.some.inj hx
    rw [← this]; exact hm

/-- **C72, exact.** For rotation matrices, under the same conditions and `M` not the identity, the four
Jacobians returned are the test's formulas with the true exponential of `w`, and each is the derivative of
the residual with respect to its object. -/
theorem c72_exact (hε : 0 < ε) (hε1 : ε ≤ 1) (W I J : Frame) {a b c d : ℕ} (hac : a ≠ c) (had : a ≠ d)
    (hcd : c ≠ d) (s : Store (geoLib ε)) (D Ri Rj : M3) (w : V3) (hD : s a (.rot .mat) = D)
    (hw : s b (.vec .relrot) = w) (hi : s c (.rot .mat) = Ri) (hj : s d (.rot .mat) = Rj)
    (vD : IsRotation D) (vi : IsRotation Ri) (vj : IsRotation Rj) (hr : w = 0 ∨ ε < sqLen w ^ 2)
    {t0 t1 : M3} (h0 : t0 = (D * NormedSpace.exp (hat w))⁻¹) (ht1 : t1 = t0 * Ri⁻¹)
    (hm : ε < angle (t1 * Rj) ^ 2) (hπ : angle (t1 * Rj) ≠ Real.pi) :
    ∃ φ : V3, t1 * Rj = NormedSpace.exp (hat φ) ∧ √(sqLen φ) = angle (t1 * Rj) ∧
      ∃ JR Jw Ji Jj : M3, JR = handLogJac φ * (-t0) ∧
        Jw = JR * D * handExpJac ε (NormedSpace.exp (hat w)) w ∧
        Ji = -(handLogJac φ * t1) ∧ Jj = handLogJac φ * t1 ∧
        (imuTree ε W I J a b c d).evalWithJacobians s (imuTargets ε W I J a b c d) =
          some (some φ, [⟨.rot .mat, some JR⟩, ⟨.vec .relrot, some Jw⟩, ⟨.rot .mat, some Ji⟩,
            ⟨.rot .mat, some Jj⟩]) ∧
        IsDerivative s ⟨a, (Labels.two I J).code, .rot .mat⟩ (imuTree ε W I J a b c d) JR ∧
        IsDerivative s ⟨b, (Labels.three J J J).code, .vec .relrot⟩ (imuTree ε W I J a b c d) Jw ∧
        IsDerivative s ⟨c, (Labels.two W I).code, .rot .mat⟩ (imuTree ε W I J a b c d) Ji ∧
        IsDerivative s ⟨d, (Labels.two W J).code, .rot .mat⟩ (imuTree ε W I J a b c d) Jj := by
  obtain ⟨q, hq, hu, hqm⟩ := expRel_regular hε hr
  rw [rodr_exp] at hqm
  have hE : IsRotation (NormedSpace.exp (hat w)) := by
    have := rodr_rotation w
    rwa [rodr_exp] at this
  have hDE : IsRotation (D * NormedSpace.exp (hat w)) := vD.mul hE
  have e0 : t0 = (D * q.toMatrix)ᵀ := by rw [h0, hqm, Matrix.inv_eq_right_inv hDE.1]
  have e1 : t1 = (D * q.toMatrix)ᵀ * Riᵀ := by rw [ht1, e0, Matrix.inv_eq_right_inv vi.1]
  have hM : IsRotation (t1 * Rj) := by
    rw [e1, hqm]
    exact (hDE.transpose.mul vi.transpose).mul vj
  obtain ⟨φ, f1, f2, f3, f4⟩ := exists_rotvec hM hπ
  have hφ : logMat ε (t1 * Rj) = some φ := by
    rw [f1]; exact logMat_exp hε f2 (.inr (by rw [f3]; exact hm))
  have hlen : √(sqLen φ) = angle (t1 * Rj) := by rw [f3]; exact Real.sqrt_sq (Real.arccos_nonneg _)
  have hpos : 0 < √(sqLen φ) := Real.sqrt_pos.2 (by rw [f3]; linarith)
  have hcos : Real.cos √(sqLen φ) ≠ 1 := by
    intro h
    have hlt : √(sqLen φ) < Real.pi := (Real.sqrt_lt' Real.pi_pos).2 f2
    rw [Real.cos_eq_one_iff_of_lt_of_lt (by linarith) (by linarith)] at h
    exact hpos.ne' h
  have key := c72_jacobians hε W I J hac had hcd s D Ri Rj w hD hw hi hj hq (by rw [← e1]; exact hφ) hcos
  simp only at key
  rw [← e1, ← e0, hqm] at key
  refine ⟨φ, f1, hlen, _, _, _, _, rfl, rfl, rfl, rfl, key, ?_⟩
  have acc := c22_accepted (L := geoLib ε) s (imuTree ε W I J a b c d) (imuTargets ε W I J a b c d) rfl
    fun t => (imu_objects t).2
  unfold Expr.evalWithJacobians at key
  rw [acc] at key
  have kl := congrArg Prod.snd (Option.some.inj key)
  change [_, _, _, _] = [_, _, _, _] at kl
  injection kl with k1 kl
  injection kl with k2 kl
  injection kl with k3 kl
  injection kl with k4 kl
  have reg : RegularAt ε s (imuTree ε W I J a b c d) := by
    subst hD hw hi hj
    exact imu_regular vD vi vj hr hq (by rw [← e1]; exact .inr ⟨hm, hπ⟩)
  have fin : ∀ t ∈ imuTargets ε W I J a b c d, ∀ A : Matrix (Fin 3) t.ty.Idx ℝ,
      (⟨t.ty, total (occurrences s t (imuTree ε W I J a b c d))⟩ : (τ : Ty) × OMat (Fin 3) τ.Idx) =
        ⟨t.ty, some A⟩ → IsDerivative s t (imuTree ε W I J a b c d) A := fun t ht A h =>
    response_deriv hε hε1 s t _ reg
      ((imu_objects t).2 ht) (imu_once hac had hcd t ht) (eq_of_heq (Sigma.mk.inj h).2)
  exact ⟨fin _ (by simp) _ k1, fin _ (by simp) _ k2, fin _ (by simp) _ k3, fin _ (by simp) _ k4⟩

/-- Hypotheses of `c72_exact` for all rotations `D`, `Ri`, a rotation vector `w` of length √3 and a
residual `(1, 1, 1)`: `Rj = Ri D exp(w) exp(φ)`. -/
example (D Ri : M3) (vD : IsRotation D) (vi : IsRotation Ri) : ∃ (s : Store (geoLib dblEps)) (Rj : M3) (w : V3),
    s 0 (.rot .mat) = D ∧ s 1 (.vec .relrot) = w ∧ s 2 (.rot .mat) = Ri ∧ s 3 (.rot .mat) = Rj ∧
      IsRotation Rj ∧ dblEps < sqLen w ^ 2 ∧
      dblEps < angle ((D * NormedSpace.exp (hat w))⁻¹ * Ri⁻¹ * Rj) ^ 2 ∧
      angle ((D * NormedSpace.exp (hat w))⁻¹ * Ri⁻¹ * Rj) ≠ Real.pi := by
  have hE : IsRotation (NormedSpace.exp (hat fun _ => 1)) := by
    have := rodr_rotation fun _ => 1
    rwa [rodr_exp] at this
  have hDE := vD.mul hE
  set E : M3 := NormedSpace.exp (hat fun _ => 1)
  let s : Memory := fun a τ => match a, τ with
    | 0, .rot .mat => D
    | 2, .rot .mat => Ri
    | 3, .rot .mat => (Ri * (D * E) * E : M3)
    | a, τ => demo a τ
  have hM : (D * E)⁻¹ * Ri⁻¹ * (Ri * (D * E) * E) = E := by
    rw [Matrix.inv_eq_right_inv hDE.1, Matrix.inv_eq_right_inv vi.1]
    have h1 := mul_eq_one_comm.1 hDE.1
    have h2 := mul_eq_one_comm.1 vi.1
    calc (D * E)ᵀ * Riᵀ * (Ri * (D * E) * E) = (D * E)ᵀ * (Riᵀ * Ri) * (D * E) * E := by noncomm_ring
      _ = E := by rw [h2, mul_one, h1, one_mul]
  have h3 : sqLen (fun _ => 1 : V3) = 3 := by simp [sqLen, dotProduct]
  have hd := dblEps_lt
  have hp := Real.two_le_pi
  refine ⟨s, Ri * (D * E) * E, fun _ => 1, rfl, rfl, rfl, rfl, (vi.mul hDE).mul hE, by rw [h3]; linarith, ?_⟩
  have ha : angle E = √(normSq (fun _ => 1 : V3)) := by
    have h0 : (fun _ => 1 : V3) ≠ 0 := fun h => one_ne_zero (congrFun h 0)
    have := arccos_cosAngle_rodr h0 (lt_pi_of_sqLen (by rw [h3]; nlinarith)).le
    rw [rodr_exp] at this
    exact (rotOfAngle _).trans this
  rw [hM, ha, Real.sq_sqrt (normSq_nonneg _), ← sqLen_eq, h3]
  refine ⟨by linarith, (lt_of_lt_of_le ?_ hp).ne⟩
  rw [Real.sqrt_lt' two_pos]; norm_num

end WG
