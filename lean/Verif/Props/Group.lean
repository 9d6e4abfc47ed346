import Verif.Lemmas.Group

/-!
`BodyFrameVelocity` and `RelativeBodyFrameVelocity` on every group of `navlie/lib/states.py` (C78, C79).
The theorems are about any group satisfying the laws `MLG.Laws`; `C78_groups` says which groups do.
-/

namespace Verif

open Matrix NormedSpace

set_option linter.unusedVariables false
set_option linter.unusedSectionVars false

/-- The laws hold for SO(2), SO(3), SE(2), SE(3) and SE_2(3), with the members given by explicit block forms. -/
theorem C78_groups :
    so2.Laws IsRot2 (fun _ => 0) ∧ so3.Laws IsRot skew ∧ se2.Laws IsSE2 se2Ad ∧ se3.Laws IsSE3 se3Ad ∧
    se23.Laws IsSE23 (fun ξ => (se23Ad fun i p => ξ (i, p)).flat) :=
  ⟨so2_laws, so3_laws, se2_laws, se3_laws, se23_laws⟩

variable {ι κ : Type} [Fintype ι] [DecidableEq ι] [Fintype κ] [DecidableEq κ] {G : MLG ι κ}
  {mem : Matrix ι ι ℝ → Prop} {ad : (κ → ℝ) → Matrix κ κ ℝ}

/-- Specification: the velocity of `s ↦ X Exp(s ξ)` (right) or `s ↦ Exp(s ξ) X` (left) at `0`. -/
def MLG.tangent (G : MLG ι κ) (dir : Dir) (X : Matrix ι ι ℝ) (ξ : κ → ℝ) : Matrix ι ι ℝ :=
  match dir with
  | .right => X * G.wedge ξ
  | .left => G.wedge ξ * X

/-- `tangent` is what an infinitesimal `plus` does to a state. -/
theorem MLG.Laws.tangent_plus (h : G.Laws mem ad) (x : GSt ι) (ξ : κ → ℝ) :
    HasMatDeriv (fun s : ℝ => (x.plus G (s • ξ)).value) (G.tangent x.dir x.value ξ) 0 := by
  obtain ⟨X, dir, st⟩ := x
  have hd := h.Exp_deriv_zero ξ
  cases dir
  · have := (hasMatDeriv_const X 0).mul hd
    refine this.congr_deriv ?_
    simp [MLG.tangent]
  · have := hd.mul (hasMatDeriv_const X 0)
    refine this.congr_deriv ?_
    simp [MLG.tangent]

/-- The perturbation of the tangent determines its coordinates. -/
theorem MLG.Laws.tangent_inj (h : G.Laws mem ad) (dir : Dir) {X : Matrix ι ι ℝ} (hX : mem X) {ξ ζ : κ → ℝ}
    (e : G.tangent dir X ξ = G.tangent dir X ζ) : ξ = ζ := by
  refine h.wedge_inj _ _ ?_
  cases dir
  · have := congrArg (fun M => G.inverse X * M) e
    simpa [MLG.tangent, ← mul_assoc, h.inv_mul hX] using this
  · have := congrArg (fun M => M * G.inverse X) e
    simpa [MLG.tangent, mul_assoc, h.mul_inv X hX] using this

theorem MLG.Laws.tangent_left (h : G.Laws mem ad) {X : Matrix ι ι ℝ} (hX : mem X) (ξ : κ → ℝ) :
    X * G.wedge ξ = G.tangent .left X (G.adjoint X *ᵥ ξ) := h.mul_wedge hX ξ

/-- C78: the Jacobian of `BodyFrameVelocity` is exact for perturbations of any size, in both directions. -/
theorem C78_jacobian (h : G.Laws mem ad) (x : GSt ι) (u dx : κ → ℝ) (dt : ℝ) :
    bfvEvaluate G (x.plus G dx) u dt = (bfvEvaluate G x u dt).plus G (bfvJacobian G x u dt *ᵥ dx) := by
  obtain ⟨X, dir, st⟩ := x
  cases dir
  · unfold bfvEvaluate bfvJacobian GSt.plus
    simp only [GSt.mk.injEq, and_true]
    rw [mul_assoc, h.Exp_mul (h.mem_exp (dt • u)), h.inv_exp, ← smul_neg, mul_assoc]
  · unfold bfvEvaluate bfvJacobian GSt.plus
    simp only [GSt.mk.injEq, and_true, one_mulVec, mul_assoc]

/-- C78: the noise Jacobian is the derivative with respect to the input. -/
theorem C78_noise (h : G.Laws mem ad) (x : GSt ι) (hx : mem x.value) (u δ : κ → ℝ) (dt : ℝ) :
    HasMatDeriv (fun s : ℝ => (bfvEvaluate G x (u + s • δ) dt).value)
      (G.tangent x.dir (bfvEvaluate G x u dt).value (bfvNoise G x u dt *ᵥ δ)) 0 := by
  obtain ⟨X, dir, st⟩ := x
  have hd := (hasMatDeriv_const X 0).mul (h.Exp_deriv (dt • u) (dt • δ))
  have e : ∀ s : ℝ, dt • u + s • dt • δ = dt • (u + s • δ) := by intro s; module
  have hd' : HasMatDeriv (fun s : ℝ => X * G.Exp (dt • (u + s • δ))) _ 0 := hd.congr_fun (f := fun v => X * G.Exp v) e
  refine hd'.congr_deriv ?_
  have key : X * (G.Exp (dt • u) * G.wedge (G.leftJac (-(dt • u)) *ᵥ dt • δ)) =
      (X * G.Exp (dt • u)) * G.wedge ((dt • G.leftJac (dt • -u)) *ᵥ δ) := by
    rw [← mul_assoc, smul_neg, mulVec_smul, smul_mulVec]
  rw [zero_mul, zero_add, key]
  cases dir
  · rfl
  · rw [h.tangent_left (h.mem_mul _ _ hx (h.mem_exp _))]
    show G.tangent .left _ _ = G.tangent .left _ _
    congr 1
    show _ = ((dt • G.adjoint _) * G.leftJac _) *ᵥ δ
    rw [mulVec_mulVec, smul_mul_assoc, Matrix.mul_smul]

/-- C78: the covariance is `L Q Lᵀ` with the noise Jacobian of `C78_noise`, and positive semidefinite. -/
theorem C78_covariance (h : G.Laws mem ad) (Q : Matrix κ κ ℝ) (x : GSt ι) (hx : mem x.value) (u : κ → ℝ) (dt : ℝ)
    (L : Matrix κ κ ℝ)
    (hL : ∀ δ, HasMatDeriv (fun s : ℝ => (bfvEvaluate G x (u + s • δ) dt).value)
      (G.tangent x.dir (bfvEvaluate G x u dt).value (L *ᵥ δ)) 0) :
    bfvCovariance G Q x u dt = L * Q * Lᵀ ∧ (Q.PosSemidef → (bfvCovariance G Q x u dt).PosSemidef) := by
  have hm : mem (bfvEvaluate G x u dt).value := h.mem_mul _ _ hx (h.mem_exp _)
  have e : bfvNoise G x u dt = L := by
    ext i j
    have h1 := C78_noise h x hx u (Pi.single j 1) dt
    have h2 := hL (Pi.single j 1)
    have e : G.tangent x.dir (bfvEvaluate G x u dt).value (bfvNoise G x u dt *ᵥ Pi.single j 1) =
        G.tangent x.dir (bfvEvaluate G x u dt).value (L *ᵥ Pi.single j 1) := by
      ext p q
      exact (h1 p q).unique (h2 p q)
    have := congrFun (h.tangent_inj x.dir hm e) i
    simpa using this
  refine ⟨by unfold bfvCovariance; rw [e], fun hQ => ?_⟩
  unfold bfvCovariance
  have := hQ.mul_mul_conjTranspose_same (bfvNoise G x u dt)
  simpa [conjTranspose_eq_transpose_of_trivial] using this

/-- C78: the states stay in the group; direction and stamp are not touched. -/
theorem C78_closed (h : G.Laws mem ad) (x : GSt ι) (hx : mem x.value) (u : κ → ℝ) (dt : ℝ) :
    mem (bfvEvaluate G x u dt).value ∧ (bfvEvaluate G x u dt).dir = x.dir ∧ (bfvEvaluate G x u dt).stamp = x.stamp :=
  ⟨h.mem_mul _ _ hx (h.mem_exp _), rfl, rfl⟩

/-- C78: cutting an interval with constant input does not change the result. -/
theorem C78_flow (h : G.Laws mem ad) (x : GSt ι) (u : κ → ℝ) (s t : ℝ) :
    bfvEvaluate G x u (s + t) = bfvEvaluate G (bfvEvaluate G x u s) u t ∧ bfvEvaluate G x u 0 = x := by
  obtain ⟨X, dir, st⟩ := x
  constructor
  · unfold bfvEvaluate
    simp only [GSt.mk.injEq, and_true]
    unfold MLG.Exp
    rw [h.wedge_smul, h.wedge_smul, h.wedge_smul, add_smul, mul_assoc,
      Matrix.exp_add_of_commute _ _ (((Commute.refl (G.wedge u)).smul_left s).smul_right t)]
  · unfold bfvEvaluate
    simp only [GSt.mk.injEq, and_true]
    rw [zero_smul, h.Exp_zero, mul_one]

/-- C78: `evaluate` is the exact solution of `Ṫ = T u^∧`. -/
theorem C78_exact (h : G.Laws mem ad) (T : ℝ → Matrix ι ι ℝ) (u : κ → ℝ)
    (hT : ∀ t, HasMatDeriv T (T t * G.wedge u) t) (dir : Dir) (st : Option ℝ) (t : ℝ) :
    bfvEvaluate G ⟨T 0, dir, st⟩ u t = ⟨T t, dir, st⟩ := by
  have hT' : ∀ t, HasMatDeriv T (0 * T t + T t * G.wedge u) t := fun t => (hT t).congr_deriv (by simp)
  have := sandwich 0 (G.wedge u) T hT' t
  unfold bfvEvaluate
  simp only [GSt.mk.injEq, and_true]
  rw [this]
  unfold MLG.Exp
  rw [h.wedge_smul]
  simp

/-- Such trajectories exist from every initial value. -/
theorem C78_exact_exists (h : G.Laws mem ad) (X : Matrix ι ι ℝ) (u : κ → ℝ) :
    ∃ T : ℝ → Matrix ι ι ℝ, T 0 = X ∧ ∀ t, HasMatDeriv T (T t * G.wedge u) t := by
  refine ⟨fun t => X * exp (t • G.wedge u), by simp [exp_zero], fun t => ?_⟩
  refine ((hasMatDeriv_const X t).mul (hasMatDeriv_exp (G.wedge u) t)).congr_deriv ?_
  simp [mul_assoc]

/-! ### C79: `RelativeBodyFrameVelocity` -/

/-- C79: the Jacobian for right perturbations is exact; left perturbations are refused. -/
theorem C79_jacobian (h : G.Laws mem ad) (x : GSt ι) (u1 u2 dx : κ → ℝ) (dt : ℝ) :
    (x.dir = .right → ∃ J, rbfvJacobian G x u1 u2 dt = .ok J ∧
      rbfvEvaluate G (x.plus G dx) u1 u2 dt = (rbfvEvaluate G x u1 u2 dt).plus G (J *ᵥ dx)) ∧
    (x.dir = .left → rbfvJacobian G x u1 u2 dt = .error .notImplemented ∧
      ∀ Q1 Q2, rbfvCovariance G Q1 Q2 x u1 u2 dt = .error .notImplemented) := by
  obtain ⟨X, dir, st⟩ := x
  constructor
  · rintro rfl
    refine ⟨_, rfl, ?_⟩
    unfold rbfvEvaluate GSt.plus
    simp only [GSt.mk.injEq, and_true]
    rw [← mul_assoc, mul_assoc _ (G.Exp dx), h.Exp_mul (h.mem_exp (dt • u2)), h.inv_exp, ← smul_neg, ← mul_assoc]
  · rintro rfl
    exact ⟨rfl, fun _ _ => rfl⟩

/-- C79: the model is `Exp(-dt u₁) T Exp(dt u₂)`, not the documented `Exp(dt u₁) T Exp(dt u₂)`. -/
theorem C79_documented_sign :
    (∀ (x : GSt ι) (u1 u2 : κ → ℝ) (dt : ℝ),
      (rbfvEvaluate G x u1 u2 dt).value = G.Exp (-(dt • u1)) * x.value * G.Exp (dt • u2)) ∧
    ∃ (x : GSt (Fin 2)) (u1 u2 : Fin 1 → ℝ) (dt : ℝ), IsRot2 x.value ∧
      (rbfvEvaluate so2 x u1 u2 dt).value ≠ so2.Exp (dt • u1) * x.value * so2.Exp (dt • u2) := by
  refine ⟨fun x u1 u2 dt => by unfold rbfvEvaluate; rw [smul_neg], ⟨1, .right, none⟩, fun _ => 1, 0, 1, isRot2_one, fun e => ?_⟩
  have h0 : so2.Exp ((1 : ℝ) • (0 : Fin 1 → ℝ)) = 1 := by rw [smul_zero, so2_laws.Exp_zero]
  unfold rbfvEvaluate at e
  simp only [h0, mul_one] at e
  have h1 : ∀ θ : Fin 1 → ℝ, so2.Exp θ = !![Real.cos (θ 0), -Real.sin (θ 0); Real.sin (θ 0), Real.cos (θ 0)] := fun θ => exp_skew2 (θ 0)
  rw [h1, h1] at e
  have := congrFun (congrFun e 1) 0
  simp at this
  have hs : 0 < Real.sin 1 := Real.sin_pos_of_pos_of_le_one one_pos le_rfl
  linarith

/-- C79: the derivatives with respect to the two inputs, right perturbations. The code has `L₂` right. -/
theorem C79_input_derivatives (h : G.Laws mem ad) (x : GSt ι) (hx : mem x.value) (u1 u2 δ : κ → ℝ) (dt : ℝ) :
    HasMatDeriv (fun s : ℝ => (rbfvEvaluate G x u1 (u2 + s • δ) dt).value)
      (G.tangent .right (rbfvEvaluate G x u1 u2 dt).value (rbfvL2 G u2 dt *ᵥ δ)) 0 ∧
    HasMatDeriv (fun s : ℝ => (rbfvEvaluate G x (u1 + s • δ) u2 dt).value)
      (G.tangent .right (rbfvEvaluate G x u1 u2 dt).value
        ((-(dt • (G.adjoint (G.inverse (x.value * G.Exp (dt • u2))) * G.leftJac (dt • u1)))) *ᵥ δ)) 0 := by
  obtain ⟨X, dir, st⟩ := x
  constructor
  · have hd := (hasMatDeriv_const (G.Exp (dt • -u1) * X) 0).mul (h.Exp_deriv (dt • u2) (dt • δ))
    have e : ∀ s : ℝ, dt • u2 + s • dt • δ = dt • (u2 + s • δ) := by intro s; module
    have hd' : HasMatDeriv (fun s : ℝ => G.Exp (dt • -u1) * X * G.Exp (dt • (u2 + s • δ))) _ 0 :=
      hd.congr_fun (f := fun v => G.Exp (dt • -u1) * X * G.Exp v) e
    refine hd'.congr_deriv ?_
    show _ = _ * G.wedge ((dt • G.leftJac (-dt • u2)) *ᵥ δ)
    rw [zero_mul, zero_add, ← mul_assoc, neg_smul, mulVec_smul, smul_mulVec]
    rfl
  · have hE : mem (X * G.Exp (dt • u2)) := h.mem_mul _ _ hx (h.mem_exp _)
    have hd := (h.Exp_deriv (dt • -u1) (-(dt • δ))).mul (hasMatDeriv_const (X * G.Exp (dt • u2)) 0)
    have e : ∀ s : ℝ, dt • -u1 + s • -(dt • δ) = dt • -(u1 + s • δ) := by intro s; module
    have hd' : HasMatDeriv (fun s : ℝ => G.Exp (dt • -(u1 + s • δ)) * (X * G.Exp (dt • u2))) _ 0 :=
      hd.congr_fun (f := fun v => G.Exp v * (X * G.Exp (dt • u2))) e
    have e2 : (fun s : ℝ => (rbfvEvaluate G ⟨X, dir, st⟩ (u1 + s • δ) u2 dt).value) =
        fun s : ℝ => G.Exp (dt • -(u1 + s • δ)) * (X * G.Exp (dt • u2)) := by
      funext s
      exact mul_assoc _ _ _
    rw [e2]
    refine hd'.congr_deriv ?_
    show _ = G.Exp (dt • -u1) * X * G.Exp (dt • u2) * G.wedge _
    rw [mul_zero, add_zero, mul_assoc (G.Exp (dt • -u1)), h.wedge_mul hE, smul_neg, neg_neg, mulVec_neg, mulVec_smul,
      mulVec_neg, mulVec_smul, neg_mulVec, smul_mulVec, ← mulVec_mulVec, mul_assoc, mul_assoc, mul_assoc]

/-- The rotation that permutes the axes cyclically. -/
def cycRot : Mat 3 3 := !![0, 0, 1; 1, 0, 0; 0, 1, 0]

theorem cycRot_isRot : IsRot cycRot := by
  refine ⟨?_, ?_⟩
  · unfold IsOrtho cycRot
    ext i j
    fin_cases i <;> fin_cases j <;> simp [Matrix.mul_apply, Fin.sum_univ_three]
  · simp [cycRot, det_fin_three]

/-- C79: the covariance is not `L₁ Q₁ L₁ᵀ + L₂ Q₂ L₂ᵀ` with `L₁`, `L₂` the derivatives: the code uses the adjoint of
`T Exp(dt u₂)` where the adjoint of its inverse is needed. -/
theorem C79_covariance_wrong :
    ∃ (x : GSt (Fin 3)) (u1 u2 : Vec 3) (dt : ℝ) (Q1 Q2 : Mat 3 3), IsRot x.value ∧ Q1.PosSemidef ∧ Q2.PosSemidef ∧
      ∀ L1 L2 : Mat 3 3,
        (∀ δ, HasMatDeriv (fun s : ℝ => (rbfvEvaluate so3 x (u1 + s • δ) u2 dt).value)
          (so3.tangent .right (rbfvEvaluate so3 x u1 u2 dt).value (L1 *ᵥ δ)) 0) →
        (∀ δ, HasMatDeriv (fun s : ℝ => (rbfvEvaluate so3 x u1 (u2 + s • δ) dt).value)
          (so3.tangent .right (rbfvEvaluate so3 x u1 u2 dt).value (L2 *ᵥ δ)) 0) →
        rbfvCovariance so3 Q1 Q2 x u1 u2 dt ≠ .ok (L1 * Q1 * L1ᵀ + L2 * Q2 * L2ᵀ) := by
  have hQ : (Matrix.diagonal ![1, 0, 0] : Mat 3 3).PosSemidef :=
    Matrix.PosSemidef.diagonal (by intro i; fin_cases i <;> simp)
  refine ⟨⟨cycRot, .right, none⟩, 0, 0, 1, Matrix.diagonal ![1, 0, 0], 0, cycRot_isRot, hQ, Matrix.PosSemidef.zero, ?_⟩
  intro L1 L2 h1 h2 e
  have hx := cycRot_isRot
  have hm : IsRot (rbfvEvaluate so3 ⟨cycRot, .right, none⟩ 0 0 1).value :=
    (((so3Exp_isRot _).mul hx).mul (so3Exp_isRot _))
  have eL1 : L1 = -cycRotᵀ := by
    refine so3_laws.ext_vec fun δ => ?_
    have hc := (C79_input_derivatives so3_laws ⟨cycRot, .right, none⟩ hx 0 0 δ 1).2
    have e : so3.tangent .right (rbfvEvaluate so3 ⟨cycRot, .right, none⟩ 0 0 1).value (L1 *ᵥ δ) =
        so3.tangent .right (rbfvEvaluate so3 ⟨cycRot, .right, none⟩ 0 0 1).value
          ((-((1 : ℝ) • (so3.adjoint (so3.inverse (cycRot * so3.Exp ((1 : ℝ) • 0))) * so3.leftJac ((1 : ℝ) • 0)))) *ᵥ δ) := by
      ext p q
      exact (h1 δ p q).unique (hc p q)
    have := so3_laws.tangent_inj .right hm e
    rw [this]
    simp only [smul_zero, so3_laws.Exp_zero, so3_laws.leftJac_zero, mul_one, one_smul]
    rfl
  have hcov : rbfvCovariance so3 (Matrix.diagonal ![1, 0, 0]) 0 ⟨cycRot, .right, none⟩ 0 0 1 =
      .ok (cycRot * Matrix.diagonal ![1, 0, 0] * cycRotᵀ) := by
    unfold rbfvCovariance rbfvL1 rbfvL2
    simp only [smul_zero, so3_laws.Exp_zero, so3_laws.leftJac_zero, mul_one, one_smul, Matrix.mul_zero, Matrix.zero_mul, add_zero]
    rfl
  rw [hcov, eL1] at e
  have e' := Except.ok.inj e
  have := congrFun (congrFun e' 1) 1
  simp [cycRot, Matrix.mul_apply, Fin.sum_univ_three] at this
  simp [vecMul, dotProduct, Fin.sum_univ_three] at this

/-- C79: with a noiseless first input the covariance is right. -/
theorem C79_covariance_second (Q2 : Matrix κ κ ℝ) (x : GSt ι) (hd : x.dir = .right) (u1 u2 : κ → ℝ) (dt : ℝ) :
    rbfvCovariance G 0 Q2 x u1 u2 dt = .ok (rbfvL2 G u2 dt * Q2 * (rbfvL2 G u2 dt)ᵀ) := by
  unfold rbfvCovariance
  rw [hd]
  simp

/-- C79: by how much the covariance is wrong. With `L₁`, `L₂` the derivatives with respect to the two inputs (`C79_input_derivatives`)
and `A` the adjoint of `T Exp(dt u₂)`, the code returns the covariance for `A A L₁` in the place of `L₁`. -/
theorem C79_covariance_actual (h : G.Laws mem ad) (Q1 Q2 : Matrix κ κ ℝ) (x : GSt ι) (hx : mem x.value) (hd : x.dir = .right)
    (u1 u2 : κ → ℝ) (dt : ℝ) (L1 L2 : Matrix κ κ ℝ)
    (h1 : ∀ δ, HasMatDeriv (fun s : ℝ => (rbfvEvaluate G x (u1 + s • δ) u2 dt).value)
      (G.tangent .right (rbfvEvaluate G x u1 u2 dt).value (L1 *ᵥ δ)) 0)
    (h2 : ∀ δ, HasMatDeriv (fun s : ℝ => (rbfvEvaluate G x u1 (u2 + s • δ) dt).value)
      (G.tangent .right (rbfvEvaluate G x u1 u2 dt).value (L2 *ᵥ δ)) 0) :
    let A := G.adjoint (x.value * G.Exp (dt • u2))
    rbfvCovariance G Q1 Q2 x u1 u2 dt = .ok (A * A * L1 * Q1 * (A * A * L1)ᵀ + L2 * Q2 * L2ᵀ) := by
  intro A
  have hm : mem (rbfvEvaluate G x u1 u2 dt).value := h.mem_mul _ _ (h.mem_mul _ _ (h.mem_exp _) hx) (h.mem_exp _)
  have hY : mem (x.value * G.Exp (dt • u2)) := h.mem_mul _ _ hx (h.mem_exp _)
  have e1 : L1 = -(dt • (G.adjoint (G.inverse (x.value * G.Exp (dt • u2))) * G.leftJac (dt • u1))) := by
    refine h.ext_vec fun δ => ?_
    refine congrArg G.wedge (h.tangent_inj .right hm ?_)
    ext p q
    exact (h1 δ p q).unique ((C79_input_derivatives h x hx u1 u2 δ dt).2 p q)
  have e2 : L2 = rbfvL2 G u2 dt := by
    refine h.ext_vec fun δ => ?_
    refine congrArg G.wedge (h.tangent_inj .right hm ?_)
    ext p q
    exact (h2 δ p q).unique ((C79_input_derivatives h x hx u1 u2 δ dt).1 p q)
  have e3 : A * A * L1 = -rbfvL1 G x u1 u2 dt := by
    have e : A * A * (G.adjoint (G.inverse (x.value * G.Exp (dt • u2))) * G.leftJac (dt • u1)) = A * G.leftJac (dt • u1) := by
      rw [mul_assoc A A, ← mul_assoc A (G.adjoint (G.inverse (x.value * G.Exp (dt • u2)))), h.adjoint_mul_inv hY, one_mul]
    rw [e1, rbfvL1, mul_neg, mul_smul_comm, smul_mul_assoc, e]
  unfold rbfvCovariance
  rw [hd, e3, e2]
  simp

/-- Non-vacuity: a pose that moves along its first axis. -/
example : bfvEvaluate se3 ⟨1, .left, some 0⟩ (Sum.elim 0 ![1, 0, 0]) 2 ≠ ⟨1, .left, some 0⟩ ∧ IsSE3 1 := by
  refine ⟨fun e => ?_, se3_laws.mem_one⟩
  have h0 := congrArg GSt.value e
  simp only [bfvEvaluate, one_mul] at h0
  unfold MLG.Exp at h0
  rw [se3_wedge, exp_col, show ((2 : ℝ) • (Sum.elim 0 ![1, 0, 0] : Fin 3 ⊕ Fin 3 → ℝ)) ∘ Sum.inl = (0 : Vec 3) from by funext i; simp] at h0
  rw [show skew 0 = 0 from by ext i j; fin_cases i <;> fin_cases j <;> simp [skew], phi_at_zero] at h0
  have := congrFun (congrFun h0 (.inl 0)) (.inr 0)
  simp at this

end Verif
