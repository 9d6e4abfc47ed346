import Verif.Lemmas.Dexp
import Verif.Props.Imu

/-!
C77: the Jacobians of the IMU process model (`navlie/lib/imu.py`) are derivatives of `evaluate`.
-/

namespace Verif

open Matrix NormedSpace

set_option linter.unusedVariables false
set_option linter.unusedSectionVars false

/-! ### Block matrices -/

theorem Blk.flat_mul {l m n : ℕ} (A : Blk l m) (B : Blk m n) : Blk.flat (A * B) = A.flat * B.flat := by
  ext ⟨i, p⟩ ⟨j, q⟩
  simp only [Blk.flat, of_apply, Matrix.mul_apply, Fintype.sum_prod_type, Matrix.sum_apply]

theorem Blk.flat_one {n : ℕ} : Blk.flat (1 : Blk n n) = 1 := by
  ext ⟨i, p⟩ ⟨j, q⟩
  simp only [Blk.flat, of_apply, Matrix.one_apply, Prod.mk.injEq]
  by_cases h : i = j
  · simp [h, Matrix.one_apply]
  · simp [h]

theorem Blk.flat_pow {n : ℕ} (A : Blk n n) (k : ℕ) : Blk.flat (A ^ k) = A.flat ^ k := by
  induction k with
  | zero => rw [pow_zero, pow_zero, Blk.flat_one]
  | succ k ih => rw [pow_succ, pow_succ, Blk.flat_mul, ih]

theorem Blk.flat_mulVec {m n : ℕ} (A : Blk m n) (v : Fin n → Vec 3) (i : Fin m) (p : Fin 3) :
    (A.flat *ᵥ fun k => v k.1 k.2) (i, p) = A.act v i p := by
  simp only [Blk.flat, Blk.act, mulVec, dotProduct, of_apply, Fintype.sum_prod_type, Finset.sum_apply]

theorem Blk.act_mul {l m n : ℕ} (A : Blk l m) (B : Blk m n) (v : Fin n → Vec 3) : Blk.act (A * B) v = A.act (B.act v) := by
  funext i
  simp only [Blk.act, Matrix.mul_apply]
  simp only [sum_mulVec, mulVec_sum, mulVec_mulVec]
  exact Finset.sum_comm

theorem Blk.act_neg {m n : ℕ} (A : Blk m n) (v : Fin n → Vec 3) : Blk.act (-A) v = -A.act v := by
  funext i
  simp [Blk.act, neg_mulVec]

/-- The Lie algebra as a linear space of matrices. -/
def se23WedgeL : (Fin 3 × Fin 3 → ℝ) →ₗ[ℝ] EPose where
  toFun v := se23Wedge fun i p => v (i, p)
  map_add' v w := by
    ext i j
    rcases i with i | i <;> rcases j with j | j
    · simp only [se23Wedge, fromBlocks_apply₁₁, Matrix.add_apply]
      rw [← Matrix.add_apply, ← skew_add]; rfl
    · fin_cases j <;> simp [se23Wedge]
    · simp [se23Wedge]
    · simp [se23Wedge]
  map_smul' t v := by
    ext i j
    rcases i with i | i <;> rcases j with j | j
    · simp only [se23Wedge, fromBlocks_apply₁₁, Matrix.smul_apply, RingHom.id_apply]
      rw [← Matrix.smul_apply, ← skew_smul]; rfl
    · fin_cases j <;> simp [se23Wedge]
    · simp [se23Wedge]
    · simp [se23Wedge]

theorem se23WedgeL_apply (ξ : Fin 3 → Vec 3) : se23WedgeL (fun k => ξ k.1 k.2) = se23Wedge ξ := rfl

theorem se23Wedge_eq (ξ : Fin 3 → Vec 3) : se23Wedge ξ = fromBlocks (skew (ξ 0)) (cols (ξ 1) (ξ 2)) 0 0 := rfl

theorem se23Wedge_ieGen (ξ : Fin 3 → Vec 3) : se23Wedge ξ = ieGen (skew (ξ 0)) (ξ 1) (ξ 2) 0 := by
  rw [se23Wedge_eq]; unfold ieGen
  congr 1
  ext i j; fin_cases i <;> fin_cases j <;> rfl

theorem se23Exp_eq (ξ : Fin 3 → Vec 3) :
    se23Exp ξ = mkIE (so3Exp (ξ 0)) (so3LeftJac (ξ 0) *ᵥ ξ 1) (so3LeftJac (ξ 0) *ᵥ ξ 2) 0 := by
  unfold se23Exp so3Exp so3LeftJac
  rw [se23Wedge_ieGen, exp_ieGen, zero_smul, add_zero]

/-! ### The navigation block -/

theorem IsIE.inv_eq {X : EPose} (hX : IsIE X) : X⁻¹ = inverseIE3 X := inv_eq_right_inv hX.mul_inv

theorem IsIE.isUnit {X : EPose} (hX : IsIE X) : IsUnit X := isUnit_iff_exists_inv.2 ⟨_, hX.mul_inv⟩

theorem IsIE.inv_inv {X : EPose} (hX : IsIE X) : inverseIE3 (inverseIE3 X) = X :=
  calc inverseIE3 (inverseIE3 X) = X * inverseIE3 X * inverseIE3 (inverseIE3 X) := by rw [hX.mul_inv, one_mul]
    _ = X := by rw [mul_assoc, hX.inv.mul_inv, mul_one]

/-- Conjugation of the group exponential. -/
theorem se23Exp_conj (X : EPose) (hX : IsIE X) (ξ : Fin 3 → Vec 3) :
    X * se23Exp ξ * inverseIE3 X = se23Exp ((adjointIE3 X).act ξ) := by
  unfold se23Exp
  rw [← C60_adjoint X hX ξ, ← hX.inv_eq, Matrix.exp_conj X _ hX.isUnit]

theorem se23Exp_mul_right (U : EPose) (hU : IsIE U) (ξ : Fin 3 → Vec 3) :
    se23Exp ξ * U = U * se23Exp ((adjointIE3 (inverseIE3 U)).act ξ) := by
  rw [← se23Exp_conj _ hU.inv, hU.inv_inv, ← mul_assoc, ← mul_assoc, hU.mul_inv, one_mul]

theorem se23Exp_mul_left (G : EPose) (hG : IsIE G) (ξ : Fin 3 → Vec 3) :
    G * se23Exp ξ = se23Exp ((adjointIE3 G).act ξ) * G := by
  rw [← se23Exp_conj _ hG, mul_assoc, hG.inv_mul, mul_one]

theorem navPose_right (tol : ℝ) (g om a : Vec 3) (T : EPose) (dt : ℝ) (ξ : Fin 3 → Vec 3) :
    gMatrix g dt * (T * se23Exp ξ) * uMatrix tol om a dt =
      gMatrix g dt * T * uMatrix tol om a dt * se23Exp ((imuNavJac tol g .right om a dt).act ξ) := by
  simp only [imuNavJac, uMatrixInv]
  rw [mul_assoc (gMatrix g dt * T), ← se23Exp_mul_right _ (isIE_uMatrix tol om a dt)]
  simp only [mul_assoc]

theorem navPose_left (tol : ℝ) (g om a : Vec 3) (T : EPose) (dt : ℝ) (ξ : Fin 3 → Vec 3) :
    gMatrix g dt * (se23Exp ξ * T) * uMatrix tol om a dt =
      se23Exp ((imuNavJac tol g .left om a dt).act ξ) * (gMatrix g dt * T * uMatrix tol om a dt) := by
  simp only [imuNavJac]
  rw [← mul_assoc (gMatrix g dt), se23Exp_mul_left _ (isIE_gMatrix g dt)]
  simp only [mul_assoc]

/-- **C77, navigation block (states without biases).** The perturbation of the state is propagated *exactly* linearly by the
Jacobian, for every (not only infinitesimal) perturbation and in both perturbation directions. -/
theorem C77_nav (tol : ℝ) (g : Vec 3) (T : EPose) (dir : Dir) (st us : Option ℝ) (gyro accel wg wa : Vec 3) (dt : ℝ)
    (ξ : Fin 3 → Vec 3) :
    ∃ F y, imuJacobianNav tol g ⟨T, none, dir, st⟩ (mkImu gyro accel us (some wg) (some wa)) dt = .ok F ∧
      imuEvaluate tol g ⟨T, none, dir, st⟩ (mkImu gyro accel us (some wg) (some wa)) dt = .ok y ∧
      imuEvaluate tol g (ImuSt.plusNav ⟨T, none, dir, st⟩ ξ) (mkImu gyro accel us (some wg) (some wa)) dt =
        .ok (y.plusNav (F.act ξ)) := by
  refine ⟨_, _, rfl, imuEvaluate_nav _ _ _ _ _ _ _ _ _ _ _, ?_⟩
  cases dir
  · exact (imuEvaluate_nav tol g (T * se23Exp ξ) .right st gyro accel us wg wa dt).trans
      (congrArg (fun P => Except.ok (ImuSt.mk P none .right st)) (navPose_right tol g gyro accel T dt ξ))
  · exact (imuEvaluate_nav tol g (se23Exp ξ * T) .left st gyro accel us wg wa dt).trans
      (congrArg (fun P => Except.ok (ImuSt.mk P none .left st)) (navPose_left tol g gyro accel T dt ξ))

theorem withBias_act_nav (A : Blk 3 3) (B : Blk 3 2) (ξ : Fin 3 → Vec 3) :
    (withBias A B).act ![ξ 0, ξ 1, ξ 2, 0, 0] = ![A.act ξ 0, A.act ξ 1, A.act ξ 2, 0, 0] := by
  funext i
  fin_cases i <;> simp [Blk.act, withBias, Fin.sum_univ_succ] <;> rfl

/-- **C77, navigation columns (states with biases).** -/
theorem C77_nav_bias (tol : ℝ) (g : Vec 3) (T : EPose) (bg ba : Vec 3) (dir : Dir) (st us : Option ℝ)
    (gyro accel wg wa : Vec 3) (dt : ℝ) (ξ : Fin 3 → Vec 3) :
    ∃ F y, imuJacobian tol g ⟨T, some (bg, ba), dir, st⟩ (mkImu gyro accel us (some wg) (some wa)) dt = .ok F ∧
      imuEvaluate tol g ⟨T, some (bg, ba), dir, st⟩ (mkImu gyro accel us (some wg) (some wa)) dt = .ok y ∧
      imuEvaluate tol g (ImuSt.plus ⟨T, some (bg, ba), dir, st⟩ ![ξ 0, ξ 1, ξ 2, 0, 0])
        (mkImu gyro accel us (some wg) (some wa)) dt = .ok (y.plus (F.act ![ξ 0, ξ 1, ξ 2, 0, 0])) := by
  refine ⟨_, _, rfl, imuEvaluate_ok _ _ _ _ _ _ _ _ _ _ _ _ _, ?_⟩
  rw [withBias_act_nav]
  have e3 : ∀ w : Fin 3 → Vec 3, ![w 0, w 1, w 2] = w := by intro w; funext i; fin_cases i <;> rfl
  cases dir
  · refine (imuEvaluate_ok tol g (T * se23Exp ![ξ 0, ξ 1, ξ 2]) (bg + 0) (ba + 0) .right st gyro accel us wg wa dt).trans ?_
    rw [e3, add_zero, add_zero, navPose_right]
    simp [ImuSt.plus, ImuSt.plusNav, e3]
    rfl
  · refine (imuEvaluate_ok tol g (se23Exp ![ξ 0, ξ 1, ξ 2] * T) (bg + 0) (ba + 0) .left st gyro accel us wg wa dt).trans ?_
    rw [e3, add_zero, add_zero, navPose_left]
    simp [ImuSt.plus, ImuSt.plusNav, e3]
    rfl

/-! ### The left Jacobian of SE_2(3) by blocks -/

theorem leftJac_entry (ξ : Fin 3 → Vec 3) (i j p q : Fin 3) :
    HasSum (fun n : ℕ => (((n + 1).factorial : ℝ)⁻¹) * (se23Ad ξ ^ n) i j p q) (se23LeftJac ξ i j p q) := by
  refine (phi_entry' 1 (se23Ad ξ).flat (i, p) (j, q)).congr_fun ?_
  intro n
  rw [← Blk.flat_pow]
  rfl

theorem adPow (ξ : Fin 3 → Vec 3) (n : ℕ) :
    (se23Ad ξ ^ n) 0 1 = 0 ∧ (se23Ad ξ ^ n) 0 2 = 0 ∧ (se23Ad ξ ^ n) 1 2 = 0 ∧ (se23Ad ξ ^ n) 2 1 = 0 ∧
    (se23Ad ξ ^ n) 0 0 = skew (ξ 0) ^ n ∧ (se23Ad ξ ^ n) 1 1 = skew (ξ 0) ^ n ∧ (se23Ad ξ ^ n) 2 2 = skew (ξ 0) ^ n := by
  induction n with
  | zero => simp
  | succ n ih =>
    obtain ⟨h1, h2, h3, h4, h5, h6, h7⟩ := ih
    simp only [pow_succ, Matrix.mul_apply, Fin.sum_univ_three, h1, h2, h3, h4, h5, h6, h7]
    simp [se23Ad]

theorem adPow_low (ξ ζ : Fin 3 → Vec 3) (h0 : ξ 0 = ζ 0) (h1 : ξ 1 = ζ 1) (n : ℕ) :
    (se23Ad ξ ^ n) 1 0 = (se23Ad ζ ^ n) 1 0 := by
  induction n with
  | zero => simp
  | succ n ih =>
    simp only [pow_succ, Matrix.mul_apply, Fin.sum_univ_three, ih, (adPow ξ n).2.2.2.2.2.1, (adPow ζ n).2.2.2.2.2.1,
      (adPow ξ n).2.2.1, (adPow ζ n).2.2.1]
    simp [se23Ad, h0, h1]

theorem leftJac_blocks (ξ : Fin 3 → Vec 3) :
    se23LeftJac ξ 0 1 = 0 ∧ se23LeftJac ξ 0 2 = 0 ∧ se23LeftJac ξ 1 2 = 0 ∧ se23LeftJac ξ 2 1 = 0 ∧
    se23LeftJac ξ 0 0 = so3LeftJac (ξ 0) ∧ se23LeftJac ξ 1 1 = so3LeftJac (ξ 0) ∧ se23LeftJac ξ 2 2 = so3LeftJac (ξ 0) := by
  have hz : ∀ i j, (∀ n, (se23Ad ξ ^ n) i j = 0) → se23LeftJac ξ i j = 0 := by
    intro i j h
    ext p q
    refine (leftJac_entry ξ i j p q).unique ?_
    simp only [h, Matrix.zero_apply, mul_zero]
    exact hasSum_zero
  have hd : ∀ i j, (∀ n, (se23Ad ξ ^ n) i j = skew (ξ 0) ^ n) → se23LeftJac ξ i j = so3LeftJac (ξ 0) := by
    intro i j h
    ext p q
    refine (leftJac_entry ξ i j p q).unique ?_
    simp only [h]
    exact phi_entry' 1 (skew (ξ 0)) p q
  exact ⟨hz _ _ fun n => (adPow ξ n).1, hz _ _ fun n => (adPow ξ n).2.1, hz _ _ fun n => (adPow ξ n).2.2.1,
    hz _ _ fun n => (adPow ξ n).2.2.2.1, hd _ _ fun n => (adPow ξ n).2.2.2.2.1, hd _ _ fun n => (adPow ξ n).2.2.2.2.2.1,
    hd _ _ fun n => (adPow ξ n).2.2.2.2.2.2⟩

theorem leftJac_low (ξ ζ : Fin 3 → Vec 3) (h0 : ξ 0 = ζ 0) (h1 : ξ 1 = ζ 1) : se23LeftJac ξ 1 0 = se23LeftJac ζ 1 0 := by
  ext p q
  refine (leftJac_entry ξ 1 0 p q).unique ?_
  simp only [adPow_low ξ ζ h0 h1]
  exact leftJac_entry ζ 1 0 p q

theorem skew_bracket (a b : Vec 3) : skew a * skew b - skew b * skew a = skew (skew a *ᵥ b) := by
  ext i j
  fin_cases i <;> fin_cases j <;> simp [skew, Matrix.mul_apply, Fin.sum_univ_three, mulVec, dotProduct] <;> ring

theorem se23WedgeL_def (v : Fin 3 × Fin 3 → ℝ) : se23WedgeL v = se23Wedge fun i p => v (i, p) := rfl

/-- The bracket with a generator of IE(3), acting on the Lie algebra of SE_2(3). -/
def ieAd (ζ : Fin 3 → Vec 3) (d : ℝ) : Blk 3 3 :=
  !![skew (ζ 0), 0, 0; skew (ζ 1), skew (ζ 0), 0; skew (ζ 2), -d • 1, skew (ζ 0)]

theorem ie_bracket (ζ ξ : Fin 3 → Vec 3) (d : ℝ) :
    ieGen (skew (ζ 0)) (ζ 1) (ζ 2) d * se23Wedge ξ - se23Wedge ξ * ieGen (skew (ζ 0)) (ζ 1) (ζ 2) d =
      se23Wedge ((ieAd ζ d).act ξ) := by
  have e0 : (ieAd ζ d).act ξ 0 = skew (ζ 0) *ᵥ ξ 0 := by rw [act_three]; simp [ieAd]
  have e1 : (ieAd ζ d).act ξ 1 = skew (ζ 0) *ᵥ ξ 1 - skew (ξ 0) *ᵥ ζ 1 := by
    rw [act_three, skew_mulVec_comm (ξ 0)]; simp [ieAd, add_comm]
  have e2 : (ieAd ζ d).act ξ 2 = skew (ζ 0) *ᵥ ξ 2 - (skew (ξ 0) *ᵥ ζ 2 + d • ξ 1) := by
    rw [act_three, skew_mulVec_comm (ξ 0)]
    have : (-(d • (1 : Mat 3 3))) *ᵥ ξ 1 = -(d • ξ 1) := by rw [neg_mulVec, smul_mulVec, one_mulVec]
    simp [ieAd, this]
    abel
  rw [se23Wedge_eq, se23Wedge_eq, e0, e1, e2, ← skew_bracket]
  unfold ieGen
  rw [fromBlocks_multiply, fromBlocks_multiply, mul_cols, mul_cols, cols_mul]
  simp only [Matrix.mul_zero, Matrix.zero_mul, add_zero, cols_add]
  ext i j
  rcases i with i | i <;> rcases j with j | j
  · simp
  · fin_cases j <;> simp [cols]
  · simp
  · simp

/-- **Derivative of the exponential** in a direction of SE_2(3). -/
theorem ieExp_deriv (ζ ξ : Fin 3 → Vec 3) (d : ℝ) :
    HasMatDeriv (fun s : ℝ => exp (ieGen (skew (ζ 0 + s • ξ 0)) (ζ 1 + s • ξ 1) (ζ 2 + s • ξ 2) d))
      (exp (ieGen (skew (ζ 0)) (ζ 1) (ζ 2) d) * se23Wedge ((Blk.ofFlat (phiSer 1 (-(ieAd ζ d).flat))).act ξ)) 0 := by
  have hb : ∀ v, ieGen (skew (ζ 0)) (ζ 1) (ζ 2) d * se23WedgeL v - se23WedgeL v * ieGen (skew (ζ 0)) (ζ 1) (ζ 2) d =
      se23WedgeL ((ieAd ζ d).flat *ᵥ v) := by
    intro v
    rw [se23WedgeL_def, se23WedgeL_def, ie_bracket]
    congr 1
    funext i p
    rw [← Blk.flat_mulVec]
  have h := dexp_right (ieGen (skew (ζ 0)) (ζ 1) (ζ 2) d) se23WedgeL (ieAd ζ d).flat hb fun k => ξ k.1 k.2
  have e1 : ∀ s : ℝ, ieGen (skew (ζ 0)) (ζ 1) (ζ 2) d + s • se23WedgeL (fun k => ξ k.1 k.2) =
      ieGen (skew (ζ 0 + s • ξ 0)) (ζ 1 + s • ξ 1) (ζ 2 + s • ξ 2) d := by
    intro s
    rw [se23WedgeL_apply, se23Wedge_eq]
    unfold ieGen
    rw [fromBlocks_smul, fromBlocks_add, cols_smul, cols_add, skew_add, skew_smul]
    simp
  have e2 : se23WedgeL (phiSer 1 (-(ieAd ζ d).flat) *ᵥ fun k => ξ k.1 k.2) =
      se23Wedge ((Blk.ofFlat (phiSer 1 (-(ieAd ζ d).flat))).act ξ) := by
    rw [se23WedgeL_def]
    congr 1
    funext i p
    rw [← Blk.flat_mulVec]
    rfl
  rw [e2] at h
  refine HasMatDeriv.congr_fun h e1

theorem se23LeftJac_neg (ζ : Fin 3 → Vec 3) : Blk.ofFlat (phiSer 1 (-(ieAd ζ 0).flat)) = se23LeftJac fun i => -ζ i := by
  have : -(ieAd ζ 0).flat = (se23Ad fun i => -ζ i).flat := by
    have hb : -ieAd ζ 0 = se23Ad fun i => -ζ i := by
      ext1 i j
      fin_cases i <;> fin_cases j <;> simp [se23Ad, ieAd, skew_neg]
    rw [← hb]
    rfl
  rw [this]
  rfl

/-- **Derivative of the group exponential of SE_2(3)**: `SE23.left_jacobian(-ζ)` is its right Jacobian. -/
theorem se23Exp_deriv (ζ ξ : Fin 3 → Vec 3) :
    HasMatDeriv (fun s : ℝ => se23Exp fun i => ζ i + s • ξ i) (se23Exp ζ * se23Wedge ((se23LeftJac fun i => -ζ i).act ξ)) 0 := by
  have h := ieExp_deriv ζ ξ 0
  rw [se23LeftJac_neg] at h
  unfold se23Exp
  simp only [se23Wedge_ieGen ζ, se23Wedge_ieGen (fun i => ζ i + _ • ξ i)]
  exact h

/-! ### Invertibility of the left Jacobian of SO(3) -/

theorem so3LeftJac_closed (φ : Vec 3) (h : φ ≠ 0) :
    so3LeftJac φ = 1 + ((1 - Real.cos (npNorm φ)) / npNorm φ ^ 2) • skew φ +
      ((npNorm φ - Real.sin (npNorm φ)) / npNorm φ ^ 3) • (skew φ * skew φ) := by
  have hp : npNorm φ ≠ 0 := fun h0 => h (npNorm_eq_zero h0)
  have hc : skew φ * skew φ * skew φ = -npNorm φ ^ 2 • skew φ := by rw [skew_cube, npNorm_sq]
  unfold so3LeftJac
  rw [phi_succ, phi_two_closed hp hc, mul_add, mul_add, mul_smul_comm, mul_smul_comm, mul_smul_comm, mul_one, ← mul_assoc, hc]
  generalize npNorm φ = p at *
  generalize skew φ = S
  generalize S * S = Q
  ext i j
  simp
  field_simp
  ring

theorem det_poly_skew (φ : Vec 3) (a b : ℝ) :
    (1 + a • skew φ + b • (skew φ * skew φ)).det = (1 - b * (φ ⬝ᵥ φ)) ^ 2 + a ^ 2 * (φ ⬝ᵥ φ) := by
  rw [det_fin_three]
  simp [skew, Matrix.mul_apply, dotProduct, Fin.sum_univ_three]
  ring

/-- The left Jacobian of SO(3) is invertible unless the rotation angle is a nonzero multiple of a full turn. -/
theorem so3LeftJac_isUnit (φ : Vec 3) (h : φ = 0 ∨ Real.cos (npNorm φ) ≠ 1) : IsUnit (so3LeftJac φ).det := by
  by_cases h0 : φ = 0
  · subst h0
    unfold so3LeftJac
    rw [skew_zero, phi_at_zero]
    simp
  · have hc := h.resolve_left h0
    have hp : npNorm φ ≠ 0 := fun h1 => h0 (npNorm_eq_zero h1)
    rw [so3LeftJac_closed φ h0, det_poly_skew, ← npNorm_sq, isUnit_iff_ne_zero]
    have := Real.sin_sq_add_cos_sq (npNorm φ)
    generalize npNorm φ = p at *
    have e : (1 - (p - Real.sin p) / p ^ 3 * p ^ 2) ^ 2 + ((1 - Real.cos p) / p ^ 2) ^ 2 * p ^ 2 = 2 * (1 - Real.cos p) / p ^ 2 := by
      field_simp
      nlinarith
    rw [e]
    have : 1 - Real.cos p ≠ 0 := sub_ne_zero.2 (Ne.symm hc)
    positivity

/-- Specification: the rotation angle of the step is zero or not a multiple of a full turn. -/
def NoFullTurn (om : Vec 3) (dt : ℝ) : Prop := dt • om = 0 ∨ Real.cos (npNorm (dt • om)) ≠ 1

theorem so3Exp_transpose_leftJac (φ : Vec 3) : (so3Exp φ)ᵀ * so3LeftJac φ = so3LeftJac (-φ) := by
  unfold so3Exp so3LeftJac
  rw [← exp_transpose, skew_transpose, phi_neg', skew_neg]

/-! ### Accelerometer columns -/

/-- The argument of the left Jacobian in `L_matrix`. -/
noncomputable def lXi (tol : ℝ) (om a : Vec 3) (dt : ℝ) : Fin 3 → Vec 3 :=
  ![dt • om, dt • a, ((dt ^ 2 / 2) • ((so3LeftJac (dt • om))⁻¹ * nMatrix tol (dt • om))) *ᵥ a]

/-- The lower left block of `Up` in `L_matrix`. -/
noncomputable def lUp (om a : Vec 3) (dt : ℝ) : Mat 3 3 :=
  (-(1 / 2) * (dt ^ 2 / 2)) • (((1 / 360) * dt ^ 3) • (skew (dt • om) * skew (dt • om) * skew a +
    skew (dt • om) * skew (skew (dt • om) *ᵥ a) + skew ((skew (dt • om) * skew (dt • om)) *ᵥ a)) - ((1 / 6) * dt) • skew a)

theorem lMatrix_zero (tol : ℝ) (om a : Vec 3) (dt : ℝ) (i : Fin 3) :
    lMatrix tol om a dt i 0 = dt • se23LeftJac (fun k => -lXi tol om a dt k) i 0 +
      se23LeftJac (fun k => -lXi tol om a dt k) i 2 * lUp om a dt := by
  refine (Matrix.mul_apply (M := se23LeftJac (fun k => -lXi tol om a dt k)) (N := !![dt • 1, 0; 0, dt • 1;
    lUp om a dt, (dt ^ 2 / 2) • ((so3LeftJac (dt • om))⁻¹ * nMatrix tol (dt • om))])).trans ?_
  rw [Fin.sum_univ_three]
  simp

theorem lMatrix_one (tol : ℝ) (om a : Vec 3) (dt : ℝ) (i : Fin 3) :
    lMatrix tol om a dt i 1 = dt • se23LeftJac (fun k => -lXi tol om a dt k) i 1 +
      se23LeftJac (fun k => -lXi tol om a dt k) i 2 * ((dt ^ 2 / 2) • ((so3LeftJac (dt • om))⁻¹ * nMatrix tol (dt • om))) := by
  refine (Matrix.mul_apply (M := se23LeftJac (fun k => -lXi tol om a dt k)) (N := !![dt • 1, 0; 0, dt • 1;
    lUp om a dt, (dt ^ 2 / 2) • ((so3LeftJac (dt • om))⁻¹ * nMatrix tol (dt • om))])).trans ?_
  rw [Fin.sum_univ_three]
  simp

theorem lMatrix_accel (tol : ℝ) (om a : Vec 3) (dt : ℝ) (h : NoFullTurn om dt) :
    lMatrix tol om a dt 0 1 = 0 ∧ lMatrix tol om a dt 1 1 = dt • so3LeftJac (-(dt • om)) ∧
    lMatrix tol om a dt 2 1 = (dt ^ 2 / 2) • ((so3Exp (dt • om))ᵀ * nMatrix tol (dt • om)) := by
  obtain ⟨h1, h2, h3, h4, h5, h6, h7⟩ := leftJac_blocks (fun k => -lXi tol om a dt k)
  have h0 : -lXi tol om a dt 0 = -(dt • om) := rfl
  rw [lMatrix_one, lMatrix_one, lMatrix_one, h1, h2, h3, h4, h6, h7, h0]
  refine ⟨by simp, by simp, ?_⟩
  have := so3LeftJac_isUnit (dt • om) h
  rw [smul_zero, zero_add, mul_smul_comm, ← so3Exp_transpose_leftJac, mul_assoc, ← mul_assoc (so3LeftJac (dt • om)),
    mul_nonsing_inv _ this, one_mul]

theorem se23Exp_trans (a b : Vec 3) : se23Exp ![0, a, b] = mkIE 1 a b 0 := by
  rw [se23Exp_eq]
  simp [so3Exp, so3LeftJac, skew_zero, phi_at_zero, exp_zero]

/-- Changing the accelerometer reading. -/
theorem uMatrix_accel (tol : ℝ) (om a δ : Vec 3) (dt : ℝ) (h : NoFullTurn om dt) :
    uMatrix tol om (a + δ) dt = uMatrix tol om a dt * se23Exp ![0, lMatrix tol om a dt 1 1 *ᵥ δ, lMatrix tol om a dt 2 1 *ᵥ δ] := by
  obtain ⟨_, h1, h2⟩ := lMatrix_accel tol om a dt h
  rw [se23Exp_trans, h1, h2]
  unfold uMatrix
  simp only
  have hR := (so3Exp_isRot (dt • om)).1.right
  rw [mkIE_mul]
  congr 1
  · simp
  · rw [mulVec_mulVec, ← so3Exp_transpose_leftJac, mul_smul_comm, ← mul_assoc, hR, one_mul, mulVec_add, add_comm]
  · rw [mulVec_mulVec, mul_smul_comm, ← mul_assoc, hR, one_mul, mulVec_add, zero_smul, zero_add, add_comm]
  · simp

theorem withBias_act_bias (A : Blk 3 3) (B : Blk 3 2) (γ δ : Vec 3) :
    (withBias A B).act ![0, 0, 0, γ, δ] = ![B.act ![γ, δ] 0, B.act ![γ, δ] 1, B.act ![γ, δ] 2, γ, δ] := by
  funext i
  fin_cases i <;> simp [Blk.act, withBias, Fin.sum_univ_succ] <;> rfl

/-- The input Jacobian in the direction of the state. -/
def dirJac (dir : Dir) (P : EPose) (L : Blk 3 2) : Blk 3 2 :=
  match dir with
  | .right => L
  | .left => se23Adjoint P * L

theorem se23Adjoint_eq {X : EPose} (h : IsSE23 X) : se23Adjoint X = adjointIE3 X := by
  obtain ⟨R, v, r, hR, rfl⟩ := h
  unfold se23Adjoint adjointIE3
  simp only [mkIE_rot, mkIE_colA, mkIE_colB, mkIE_time]
  simp [skew_neg]

/-- The derivative of a pose moved in the direction `ξ`, see `tangent_plus`. -/
def tangent (dir : Dir) (P : EPose) (ξ : Fin 3 → Vec 3) : EPose :=
  match dir with
  | .right => P * se23Wedge ξ
  | .left => se23Wedge ξ * P

/-- `plus` of the navigation state of a pose. -/
noncomputable def posePlus (dir : Dir) (P : EPose) (ξ : Fin 3 → Vec 3) : EPose :=
  match dir with
  | .right => P * se23Exp ξ
  | .left => se23Exp ξ * P

theorem plusNav_pose (x : ImuSt) (ξ : Fin 3 → Vec 3) : x.plusNav ξ = { x with pose := posePlus x.dir x.pose ξ } := by
  rcases x with ⟨P, b, dir, st⟩
  cases dir <;> rfl

theorem posePlus_zero (dir : Dir) (P : EPose) : posePlus dir P ![0, 0, 0] = P := by
  have : se23Exp ![0, 0, 0] = 1 := by rw [se23Exp_trans, mkIE_one]
  cases dir
  · exact (congrArg (P * ·) this).trans (mul_one P)
  · exact (congrArg (· * P) this).trans (one_mul P)

/-- `tangent` is the derivative of `plus`. -/
theorem tangent_plus (dir : Dir) (P : EPose) (ξ : Fin 3 → Vec 3) :
    HasMatDeriv (fun s : ℝ => posePlus dir P fun i => s • ξ i) (tangent dir P ξ) 0 := by
  have h := se23Exp_deriv (fun _ => 0) ξ
  have hJ : (se23LeftJac fun _ => -0) = (1 : Blk 3 3) := by
    have hb : (se23Ad fun _ => (-0 : Vec 3)) = 0 := by
      ext1 i j
      fin_cases i <;> fin_cases j <;> simp [se23Ad, skew_zero]
    have : (se23Ad fun _ => (-0 : Vec 3)).flat = 0 := by
      rw [hb]
      rfl
    unfold se23LeftJac
    rw [this, phi_at_zero]
    ext i j p q
    have := congrFun (congrFun (Blk.flat_one (n := 3)) (i, p)) (j, q)
    simp [Blk.ofFlat]
    rw [← this]
    rfl
  have h1 : se23Exp (fun _ => 0) = 1 := by
    unfold se23Exp
    rw [se23Wedge_eq, cols_zero, skew_zero, fromBlocks_zero, exp_zero]
  have hact : Blk.act (1 : Blk 3 3) ξ = ξ := by
    funext i
    simp only [Blk.act, Matrix.one_apply]
    rw [Finset.sum_eq_single i]
    · simp
    · intro j _ hj; simp [Ne.symm hj]
    · simp
  rw [hJ, h1, hact, one_mul] at h
  simp only [zero_add] at h
  cases dir
  · refine ((hasMatDeriv_const P 0).mul h).congr_deriv ?_
    simp [tangent]
  · refine (h.mul (hasMatDeriv_const P 0)).congr_deriv ?_
    simp [tangent]

/-- The input Jacobian, moved to the direction of the state, acts as the right one. -/
theorem posePlus_dirJac (dir : Dir) (P : EPose) (hP : IsSE23 P) (L : Blk 3 2) (w : Fin 2 → Vec 3) :
    posePlus dir P ((dirJac dir P L).act w) = P * se23Exp (L.act w) := by
  cases dir
  · rfl
  · show se23Exp (Blk.act (se23Adjoint P * L) w) * P = _
    rw [Blk.act_mul, se23Adjoint_eq hP, ← se23Exp_mul_left P hP.isIE]

theorem tangent_dirJac (dir : Dir) (P : EPose) (hP : IsSE23 P) (L : Blk 3 2) (w : Fin 2 → Vec 3) :
    tangent dir P ((dirJac dir P L).act w) = P * se23Wedge (L.act w) := by
  cases dir
  · rfl
  · show se23Wedge (Blk.act (se23Adjoint P * L) w) * P = _
    rw [Blk.act_mul, se23Adjoint_eq hP, ← C60_adjoint P hP.isIE, mul_assoc, hP.isIE.inv_mul, mul_one]

theorem imuJacobian_ok (tol : ℝ) (g : Vec 3) (T : EPose) (bg ba : Vec 3) (dir : Dir) (st : Option ℝ) (gyro accel : Vec 3)
    (us : Option ℝ) (wg wa : Vec 3) (dt : ℝ) :
    imuJacobian tol g ⟨T, some (bg, ba), dir, st⟩ (mkImu gyro accel us (some wg) (some wa)) dt =
      .ok (withBias (imuNavJac tol g dir (gyro - bg) (accel - ba) dt)
        (-dirJac dir (gMatrix g dt * T * uMatrix tol (gyro - bg) (accel - ba) dt) (lMatrix tol (gyro - bg) (accel - ba) dt))) := by
  cases dir <;> rfl

theorem isSE23_step (tol : ℝ) (g om a : Vec 3) (T : EPose) (dt : ℝ) (hT : IsSE23 T) :
    IsSE23 (gMatrix g dt * T * uMatrix tol om a dt) := by
  obtain ⟨R, v, r, hR, rfl⟩ := hT
  unfold gMatrix uMatrix
  simp only
  rw [mkIE_mul, mkIE_mul, show -dt + 0 + dt = 0 by ring]
  exact ⟨_, _, _, (isRot_one.mul hR).mul (so3Exp_isRot _), rfl⟩

theorem plus_bias (T : EPose) (bg ba γ δ : Vec 3) (dir : Dir) (st : Option ℝ) (η : Fin 3 → Vec 3) :
    ImuSt.plus ⟨T, some (bg, ba), dir, st⟩ ![η 0, η 1, η 2, γ, δ] = ⟨posePlus dir T η, some (bg + γ, ba + δ), dir, st⟩ := by
  have e3 : ![η 0, η 1, η 2] = η := by funext i; fin_cases i <;> rfl
  unfold ImuSt.plus
  rw [plusNav_pose]
  simp
  rw [e3]

theorem plus_bias_zero (T : EPose) (bg ba γ δ : Vec 3) (dir : Dir) (st : Option ℝ) :
    ImuSt.plus ⟨T, some (bg, ba), dir, st⟩ ![0, 0, 0, γ, δ] = ⟨T, some (bg + γ, ba + δ), dir, st⟩ := by
  have := plus_bias T bg ba γ δ dir st ![0, 0, 0]
  rw [posePlus_zero] at this
  exact this

theorem act_accel (L : Blk 3 2) (h : L 0 1 = 0) (δ : Vec 3) : L.act ![0, δ] = ![0, L 1 1 *ᵥ δ, L 2 1 *ᵥ δ] := by
  funext i
  fin_cases i <;> simp [Blk.act, h]

/-- **C77, accelerometer bias.** The Jacobian is exact (not only to first order) for a change of the accelerometer bias, in
both perturbation directions, for every step which does not turn by a nonzero multiple of a full turn. -/
theorem C77_accel (tol : ℝ) (g : Vec 3) (T : EPose) (hT : IsSE23 T) (bg ba : Vec 3) (dir : Dir) (st us : Option ℝ)
    (gyro accel wg wa : Vec 3) (dt : ℝ) (h : NoFullTurn (gyro - bg) dt) (δ : Vec 3) :
    ∃ F y, imuJacobian tol g ⟨T, some (bg, ba), dir, st⟩ (mkImu gyro accel us (some wg) (some wa)) dt = .ok F ∧
      imuEvaluate tol g ⟨T, some (bg, ba), dir, st⟩ (mkImu gyro accel us (some wg) (some wa)) dt = .ok y ∧
      imuEvaluate tol g (ImuSt.plus ⟨T, some (bg, ba), dir, st⟩ ![0, 0, 0, 0, δ])
        (mkImu gyro accel us (some wg) (some wa)) dt = .ok (y.plus (F.act ![0, 0, 0, 0, δ])) := by
  refine ⟨_, _, imuJacobian_ok _ _ _ _ _ _ _ _ _ _ _ _ _, imuEvaluate_ok _ _ _ _ _ _ _ _ _ _ _ _ _, ?_⟩
  rw [withBias_act_bias, plus_bias, plus_bias_zero, imuEvaluate_ok]
  have hneg : ∀ (L : Blk 3 2), (-dirJac dir (gMatrix g dt * T * uMatrix tol (gyro - bg) (accel - ba) dt) L).act ![0, δ] =
      (dirJac dir (gMatrix g dt * T * uMatrix tol (gyro - bg) (accel - ba) dt) L).act ![0, -δ] := by
    intro L
    rw [Blk.act_neg]
    funext i
    simp [Blk.act, mulVec_neg]
  rw [hneg, posePlus_dirJac _ _ (isSE23_step tol g _ _ T dt hT), act_accel _ (lMatrix_accel tol _ _ dt h).1, add_zero]
  rw [show accel - (ba + δ) = (accel - ba) + -δ by abel, uMatrix_accel tol _ _ _ _ h, ← mul_assoc]
  congr 3
  rw [add_right_comm, add_zero]

/-! ### Noise -/

theorem imuInputJac_ok (tol : ℝ) (g : Vec 3) (T : EPose) (bg ba : Vec 3) (dir : Dir) (st : Option ℝ) (gyro accel : Vec 3)
    (us : Option ℝ) (wg wa : Vec 3) (dt : ℝ) :
    imuInputJac tol g ⟨T, some (bg, ba), dir, st⟩ (mkImu gyro accel us (some wg) (some wa)) dt =
      .ok (dirJac dir (gMatrix g dt * T * uMatrix tol (gyro - bg) (accel - ba) dt) (lMatrix tol (gyro - bg) (accel - ba) dt)) := by
  cases dir <;> rfl

theorem noiseJac_act (L : Blk 3 2) (dt : ℝ) (w : Fin 4 → Vec 3) :
    (noiseJac L dt).act w = ![L.act ![w 0, w 1] 0, L.act ![w 0, w 1] 1, L.act ![w 0, w 1] 2, dt • w 2, dt • w 3] := by
  funext i
  fin_cases i <;> simp [Blk.act, noiseJac, Fin.sum_univ_succ, smul_mulVec] <;> rfl

/-- **C77, noise.** The covariance is `L Q Lᵀ` with the matrix `L` by which noise on the accelerometer and on the two bias walks
(`u.plus(w)`) moves the propagated state, exactly. -/
theorem C77_noise (tol : ℝ) (g : Vec 3) (Q : Blk 4 4) (T : EPose) (hT : IsSE23 T) (bg ba : Vec 3) (dir : Dir) (st us : Option ℝ)
    (gyro accel wg wa : Vec 3) (dt : ℝ) (h : NoFullTurn (gyro - bg) dt) :
    ∃ (L : Blk 5 4) (y : ImuSt),
      imuCovariance tol g Q ⟨T, some (bg, ba), dir, st⟩ (mkImu gyro accel us (some wg) (some wa)) dt = .ok (L * Q * L.T) ∧
      imuEvaluate tol g ⟨T, some (bg, ba), dir, st⟩ (mkImu gyro accel us (some wg) (some wa)) dt = .ok y ∧
      ∀ w : Fin 4 → Vec 3, w 0 = 0 → ∃ u', (mkImu gyro accel us (some wg) (some wa)).plus w = .ok u' ∧
        imuEvaluate tol g ⟨T, some (bg, ba), dir, st⟩ u' dt = .ok (y.plus (L.act w)) := by
  refine ⟨noiseJac (dirJac dir (gMatrix g dt * T * uMatrix tol (gyro - bg) (accel - ba) dt)
    (lMatrix tol (gyro - bg) (accel - ba) dt)) dt, _, ?_, imuEvaluate_ok _ _ _ _ _ _ _ _ _ _ _ _ _, ?_⟩
  · cases dir <;> rfl
  · intro w hw
    refine ⟨_, (C76_plus gyro accel wg wa us w).1, ?_⟩
    rw [noiseJac_act, plus_bias, imuEvaluate_ok, hw, posePlus_dirJac _ _ (isSE23_step tol g _ _ T dt hT),
      act_accel _ (lMatrix_accel tol _ _ dt h).1, add_zero, show accel + w 1 - ba = (accel - ba) + w 1 by abel,
      uMatrix_accel tol _ _ _ _ h, ← mul_assoc]
    simp only [smul_add, add_assoc]

theorem Blk.flat_T {m n : ℕ} (A : Blk m n) : A.T.flat = A.flatᵀ := rfl

/-- **C76, covariance** of a state with biases is positive semidefinite for a positive semidefinite noise covariance. -/
theorem C76_covariance_psd (tol : ℝ) (g : Vec 3) (Q : Blk 4 4) (hQ : Q.flat.PosSemidef) (x : ImuSt) (u : ImuIn) (dt : ℝ)
    (P : Blk 5 5) (h : imuCovariance tol g Q x u dt = .ok P) : P.flat.PosSemidef := by
  unfold imuCovariance at h
  obtain ⟨L, h1, h⟩ := bind_ok h
  rcases x with ⟨T, _ | b, dir, st⟩
  · cases h
  · injection h with h
    rw [← h, Blk.flat_mul, Blk.flat_mul, Blk.flat_T]
    exact hQ.mul_mul_conjTranspose_same (noiseJac L dt).flat

/-! ### Gyroscope columns -/

theorem uMatrix_low (tol : ℝ) (om a : Vec 3) (dt : ℝ) :
    (uMatrix tol om a dt).rot = (se23Exp ![dt • om, dt • a, 0]).rot ∧
    (uMatrix tol om a dt).colA = (se23Exp ![dt • om, dt • a, 0]).colA := by
  rw [se23Exp_eq]
  refine ⟨rfl, ?_⟩
  show (dt • so3LeftJac (dt • om)) *ᵥ a = so3LeftJac (dt • om) *ᵥ (dt • a)
  rw [smul_mulVec, mulVec_smul]

theorem mul_wedge_low {P : EPose} (hP : IsIE P) (ξ : Fin 3 → Vec 3) :
    EPose.rot (P * se23Wedge ξ) = P.rot * skew (ξ 0) ∧ EPose.colA (P * se23Wedge ξ) = P.rot *ᵥ ξ 1 ∧
    EPose.colB (P * se23Wedge ξ) = P.rot *ᵥ ξ 2 := by
  obtain ⟨R, a, b, c, h, rfl⟩ := hP
  rw [se23Wedge_eq, mkIE_mul_wedge]
  exact ⟨rfl, rfl, rfl⟩

theorem mul_low {X : EPose} (hX : IsIE X) {Y Z : EPose} (hY : IsIE Y) (hZ : IsIE Z) (h1 : Y.rot = Z.rot) (h2 : Y.colA = Z.colA) :
    EPose.rot (X * Y) = EPose.rot (X * Z) ∧ EPose.colA (X * Y) = EPose.colA (X * Z) := by
  obtain ⟨R, a, b, c, h, rfl⟩ := hX
  obtain ⟨R1, a1, b1, c1, _, rfl⟩ := hY
  obtain ⟨R2, a2, b2, c2, _, rfl⟩ := hZ
  simp only [mkIE_rot, mkIE_colA] at h1 h2
  subst h1 h2
  rw [mkIE_mul, mkIE_mul]
  exact ⟨rfl, rfl⟩

theorem se23Exp_isSE23 (ξ : Fin 3 → Vec 3) : IsSE23 (se23Exp ξ) := by
  rw [se23Exp_eq]
  exact ⟨_, _, _, so3Exp_isRot _, rfl⟩

theorem lMatrix_gyro (tol : ℝ) (om a δ : Vec 3) (dt : ℝ) :
    (lMatrix tol om a dt).act ![δ, 0] 0 = (se23LeftJac fun i => -![dt • om, dt • a, 0] i).act ![dt • δ, 0, 0] 0 ∧
    (lMatrix tol om a dt).act ![δ, 0] 1 = (se23LeftJac fun i => -![dt • om, dt • a, 0] i).act ![dt • δ, 0, 0] 1 := by
  obtain ⟨h1, h2, h3, h4, h5, h6, h7⟩ := leftJac_blocks (fun k => -lXi tol om a dt k)
  obtain ⟨k1, k2, k3, k4, k5, k6, k7⟩ := leftJac_blocks (fun i => -![dt • om, dt • a, 0] i)
  have hl := leftJac_low (fun k => -lXi tol om a dt k) (fun i => -![dt • om, dt • a, 0] i) rfl rfl
  have e2 : ∀ i, (lMatrix tol om a dt).act ![δ, 0] i = lMatrix tol om a dt i 0 *ᵥ δ := by
    intro i; simp [Blk.act]
  rw [e2, e2, lMatrix_zero, lMatrix_zero, h2, h3, h5, hl, act_three, act_three, k5]
  constructor
  · simp [smul_mulVec, mulVec_smul]
    rfl
  · simp [smul_mulVec, mulVec_smul]

/-- The derivative of attitude and velocity with respect to the rotation rate. -/
theorem gyro_low (tol : ℝ) (om a δ : Vec 3) (dt : ℝ) (X : EPose) (hX : IsIE X) :
    (∀ i j, HasDerivAt (fun s : ℝ => EPose.rot (X * uMatrix tol (om + s • δ) a dt) i j)
      (EPose.rot (X * uMatrix tol om a dt * se23Wedge ((lMatrix tol om a dt).act ![δ, 0])) i j) 0) ∧
    (∀ i, HasDerivAt (fun s : ℝ => EPose.colA (X * uMatrix tol (om + s • δ) a dt) i)
      (EPose.colA (X * uMatrix tol om a dt * se23Wedge ((lMatrix tol om a dt).act ![δ, 0])) i) 0) := by
  have hd := (hasMatDeriv_const X 0).mul (se23Exp_deriv ![dt • om, dt • a, 0] ![dt • δ, 0, 0])
  have hZ : ∀ s : ℝ, (fun i => ![dt • om, dt • a, 0] i + s • ![dt • δ, 0, 0] i) = ![dt • (om + s • δ), dt • a, 0] := by
    intro s
    funext i
    fin_cases i
    · simp [smul_comm s dt]
    · simp
    · simp
  have hlow : ∀ s : ℝ, EPose.rot (X * uMatrix tol (om + s • δ) a dt) = EPose.rot (X * se23Exp ![dt • (om + s • δ), dt • a, 0]) ∧
      EPose.colA (X * uMatrix tol (om + s • δ) a dt) = EPose.colA (X * se23Exp ![dt • (om + s • δ), dt • a, 0]) := fun s =>
    mul_low hX (isIE_uMatrix _ _ _ _) (se23Exp_isSE23 _).isIE (uMatrix_low _ _ _ _).1 (uMatrix_low _ _ _ _).2
  have h0 := mul_low hX (isIE_uMatrix tol om a dt) (se23Exp_isSE23 _).isIE (uMatrix_low tol om a dt).1 (uMatrix_low tol om a dt).2
  have hU : IsIE (X * uMatrix tol om a dt) := hX.mul (isIE_uMatrix _ _ _ _)
  have hV : IsIE (X * se23Exp ![dt • om, dt • a, 0]) := hX.mul (se23Exp_isSE23 _).isIE
  obtain ⟨l0, l1⟩ := lMatrix_gyro tol om a δ dt
  have hd' : HasMatDeriv (fun s : ℝ => X * se23Exp ![dt • (om + s • δ), dt • a, 0])
      (X * se23Exp ![dt • om, dt • a, 0] * se23Wedge ((se23LeftJac fun i => -![dt • om, dt • a, 0] i).act ![dt • δ, 0, 0])) 0 := by
    refine (hd.congr_fun (f := fun ζ => X * se23Exp ζ) hZ).congr_deriv ?_
    rw [Matrix.zero_mul, zero_add, mul_assoc]
  constructor
  · intro i j
    simp only [(hlow _).1]
    rw [(mul_wedge_low hU _).1, l0, h0.1, ← (mul_wedge_low hV _).1]
    exact hd' (.inl i) (.inl j)
  · intro i
    simp only [(hlow _).2]
    rw [(mul_wedge_low hU _).2.1, l1, h0.1, ← (mul_wedge_low hV _).2.1]
    exact hd' (.inl i) (.inr 0)

/-- **C77, gyroscope bias: attitude and velocity.** The derivative of the propagated attitude and velocity in the direction of a
change `δ` of the gyroscope bias is what the Jacobian says, in both perturbation directions (`tangent` is the derivative of
`plus`, see `tangent_plus`); the biases move as the Jacobian says. The position row is *not* right, see
`C77_gyro_position_wrong`. -/
theorem C77_gyro (tol : ℝ) (g : Vec 3) (T : EPose) (hT : IsSE23 T) (bg ba : Vec 3) (dir : Dir) (st us : Option ℝ)
    (gyro accel wg wa : Vec 3) (dt : ℝ) (δ : Vec 3) :
    ∃ (F : Blk 5 5) (Y : ℝ → ImuSt), imuJacobian tol g ⟨T, some (bg, ba), dir, st⟩ (mkImu gyro accel us (some wg) (some wa)) dt = .ok F ∧
      (∀ s, imuEvaluate tol g (ImuSt.plus ⟨T, some (bg, ba), dir, st⟩ ![0, 0, 0, s • δ, 0])
        (mkImu gyro accel us (some wg) (some wa)) dt = .ok (Y s)) ∧
      (∀ i j, HasDerivAt (fun s => (Y s).pose.rot i j)
        ((tangent dir (Y 0).pose fun k => F.act ![0, 0, 0, δ, 0] (Fin.castLE (by omega) k)).rot i j) 0) ∧
      (∀ i, HasDerivAt (fun s => (Y s).pose.colA i)
        ((tangent dir (Y 0).pose fun k => F.act ![0, 0, 0, δ, 0] (Fin.castLE (by omega) k)).colA i) 0) ∧
      (∀ s, (Y s).bias = (Y 0).bias.map fun b => (b.1 + s • F.act ![0, 0, 0, δ, 0] 3, b.2 + s • F.act ![0, 0, 0, δ, 0] 4)) := by
  refine ⟨_, fun s => ⟨gMatrix g dt * T * uMatrix tol (gyro - (bg + s • δ)) (accel - ba) dt,
    some (bg + s • δ + dt • wg, ba + dt • wa), dir, st⟩, imuJacobian_ok _ _ _ _ _ _ _ _ _ _ _ _ _, ?_, ?_⟩
  · intro s
    rw [plus_bias_zero, imuEvaluate_ok, add_zero]
  · rw [withBias_act_bias]
    have hP := isSE23_step tol g (gyro - bg) (accel - ba) T dt hT
    have hneg : (-dirJac dir (gMatrix g dt * T * uMatrix tol (gyro - bg) (accel - ba) dt)
          (lMatrix tol (gyro - bg) (accel - ba) dt)).act ![δ, 0] =
        (dirJac dir (gMatrix g dt * T * uMatrix tol (gyro - bg) (accel - ba) dt)
          (lMatrix tol (gyro - bg) (accel - ba) dt)).act ![-δ, 0] := by
      rw [Blk.act_neg]
      funext i
      simp [Blk.act, mulVec_neg]
    have e3 : ∀ (η : Fin 3 → Vec 3) (γ : Vec 3), (fun k : Fin 3 => ![η 0, η 1, η 2, γ, 0] (Fin.castLE (by omega) k)) = η := by
      intro η γ; funext k; fin_cases k <;> rfl
    have hl := gyro_low tol (gyro - bg) (accel - ba) (-δ) dt (gMatrix g dt * T) ((isIE_gMatrix g dt).mul hT.isIE)
    simp only [e3, zero_smul, add_zero, hneg, tangent_dirJac dir _ hP]
    have es : ∀ s : ℝ, gyro - (bg + s • δ) = gyro - bg + s • -δ := by intro s; rw [smul_neg]; abel
    simp only [es]
    refine ⟨hl.1, hl.2, ?_⟩
    intro s
    simp
    abel

/-! ### The position row of the gyroscope columns -/

theorem phi_one_nil {ι : Type} [Fintype ι] [DecidableEq ι] (N : Matrix ι ι ℝ) (h : N * N * N = 0) :
    phiSer 1 N = 1 + (1 / 2 : ℝ) • N + (1 / 6 : ℝ) • (N * N) := by
  rw [phi_succ, phi_succ, phi_succ, mul_add, mul_add, mul_add, ← mul_assoc, ← mul_assoc, ← mul_assoc, h]
  simp [Nat.factorial]
  norm_num
  abel

theorem lMatrix_rest (tol : ℝ) (htol : 0 < tol) (a : Vec 3) (dt : ℝ) :
    lMatrix tol 0 a dt 2 0 = (-(5 / 24) * dt ^ 3) • skew a := by
  have hx : lXi tol 0 a dt = ![0, dt • a, (dt ^ 2 / 2) • a] := by
    unfold lXi
    have hn : nMatrix tol (dt • (0 : Vec 3)) = 1 := by
      unfold nMatrix
      rw [if_pos]
      simpa [npNorm] using htol
    have hj : so3LeftJac (dt • (0 : Vec 3)) = 1 := by
      unfold so3LeftJac
      rw [smul_zero, skew_zero, phi_at_zero]
      simp
    rw [hn, hj]
    simp [smul_mulVec]
  have hn2 : se23Ad (fun k => -lXi tol 0 a dt k) * se23Ad (fun k => -lXi tol 0 a dt k) = 0 := by
    rw [hx]
    ext1 i j
    simp only [Matrix.mul_apply, Fin.sum_univ_three, se23Ad]
    fin_cases i <;> fin_cases j <;> simp [skew_zero]
  have hf2 : (se23Ad (fun k => -lXi tol 0 a dt k)).flat * (se23Ad (fun k => -lXi tol 0 a dt k)).flat = 0 := by
    rw [← Blk.flat_mul, hn2]; rfl
  have hJ : ∀ p q, se23LeftJac (fun k => -lXi tol 0 a dt k) 2 0 p q = (-(dt ^ 2 / 4)) * skew a p q := by
    intro p q
    unfold se23LeftJac
    rw [phi_one_nil _ (by rw [hf2, Matrix.zero_mul]), hf2, hx]
    have hb : se23Ad (fun k => -(![0, dt • a, (dt ^ 2 / 2) • a] : Fin 3 → Vec 3) k) 2 0 = -((dt ^ 2 / 2) • skew a) := by
      simp [se23Ad, skew_smul, skew_neg]
    simp only [Blk.ofFlat, Blk.flat, of_apply, Matrix.add_apply, Matrix.smul_apply, hb, Matrix.one_apply, Prod.mk.injEq]
    simp
    ring
  have hJ' : se23LeftJac (fun k => -lXi tol 0 a dt k) 2 0 = (-(dt ^ 2 / 4)) • skew a := by ext p q; simp [hJ p q]
  have h22 : se23LeftJac (fun k => -lXi tol 0 a dt k) 2 2 = 1 := by
    rw [(leftJac_blocks _).2.2.2.2.2.2, hx]
    unfold so3LeftJac
    simp [skew_zero, phi_at_zero]
  rw [lMatrix_zero, hJ', h22]
  unfold lUp
  rw [smul_zero, skew_zero]
  simp [skew_zero]
  module

theorem exact_position_deriv (a δ : Vec 3) (dt : ℝ) (X : EPose) (hX : IsIE X) (i : Fin 3) :
    HasDerivAt (fun s : ℝ => EPose.colB (X * exp (dt • ieGen (skew (-(s • δ))) a 0 1)) i)
      ((X.rot *ᵥ (((1 / 6) * dt ^ 3) • (skew a *ᵥ δ))) i) 0 := by
  have hd := (hasMatDeriv_const X 0).mul (ieExp_deriv ![0, dt • a, 0] ![-(dt • δ), 0, 0] dt)
  have e : ∀ s : ℝ, ieGen (skew (![0, dt • a, 0] 0 + s • ![-(dt • δ), 0, 0] 0)) ((![0, dt • a, 0] : Fin 3 → Vec 3) 1 + s • (![-(dt • δ), 0, 0] : Fin 3 → Vec 3) 1)
      ((![0, dt • a, 0] : Fin 3 → Vec 3) 2 + s • (![-(dt • δ), 0, 0] : Fin 3 → Vec 3) 2) dt = dt • ieGen (skew (-(s • δ))) a 0 1 := by
    intro s
    rw [ieGen_smul, ← skew_smul]
    simp [smul_comm s dt]
  have hd' := hd.congr_fun (f := fun M => X * exp M) e
  have hi := hd' (.inl i) (.inr 1)
  refine hi.congr_deriv ?_
  rw [Matrix.zero_mul, zero_add, ← mul_assoc]
  have hE : exp (ieGen (skew ((![0, dt • a, 0] : Fin 3 → Vec 3) 0)) ((![0, dt • a, 0] : Fin 3 → Vec 3) 1) ((![0, dt • a, 0] : Fin 3 → Vec 3) 2) dt) =
      mkIE 1 (dt • a) ((dt ^ 2 / 2) • a) dt := by
    rw [exp_ieGen]
    simp [skew_zero, phi_at_zero, exp_zero, smul_mulVec, smul_smul]
    congr 2
    ring
  rw [hE]
  have hY : IsIE (X * mkIE 1 (dt • a) ((dt ^ 2 / 2) • a) dt) := hX.mul ⟨_, _, _, _, isRot_one, rfl⟩
  have hrot : EPose.rot (X * mkIE 1 (dt • a) ((dt ^ 2 / 2) • a) dt) = X.rot := by
    obtain ⟨R, v, r, c, h, rfl⟩ := hX
    rw [mkIE_mul]
    simp [mkIE_rot]
  refine (congrFun (mul_wedge_low hY _).2.2 i).trans ?_
  rw [hrot]
  congr 2
  have hn3 : -(ieAd ![0, dt • a, 0] dt).flat * -(ieAd ![0, dt • a, 0] dt).flat * -(ieAd ![0, dt • a, 0] dt).flat = 0 := by
    have : ieAd ![0, dt • a, 0] dt * ieAd ![0, dt • a, 0] dt * ieAd ![0, dt • a, 0] dt = 0 := by
      ext1 i j
      simp only [Matrix.mul_apply, Fin.sum_univ_three, ieAd]
      fin_cases i <;> fin_cases j <;> simp [skew_zero]
    rw [neg_mul_neg, mul_neg, ← Blk.flat_mul, ← Blk.flat_mul, this]
    ext ⟨i, p⟩ ⟨j, q⟩
    simp [Blk.flat]
  rw [phi_one_nil _ hn3, neg_mul_neg, ← Blk.flat_mul]
  have h20 : ∀ p q, (Blk.flat (ieAd ![0, dt • a, 0] dt * ieAd ![0, dt • a, 0] dt)) (2, p) (0, q) = -dt ^ 2 * skew a p q := by
    intro p q
    have hb : (ieAd ![0, dt • a, 0] dt * ieAd ![0, dt • a, 0] dt) 2 0 = (-dt ^ 2) • skew a := by
      simp only [Matrix.mul_apply, Fin.sum_univ_three]
      simp [ieAd, skew_zero, skew_smul, smul_smul]
      rw [pow_two]
    have hf : (Blk.flat (ieAd ![0, dt • a, 0] dt * ieAd ![0, dt • a, 0] dt)) (2, p) (0, q) =
      (ieAd ![0, dt • a, 0] dt * ieAd ![0, dt • a, 0] dt) 2 0 p q := rfl
    rw [hf, hb, Matrix.smul_apply, smul_eq_mul]
  funext p
  rw [act_three]
  simp only [Pi.add_apply]
  have hB : Blk.ofFlat (1 + (1 / 2 : ℝ) • -(ieAd ![0, dt • a, 0] dt).flat +
      (1 / 6 : ℝ) • Blk.flat (ieAd ![0, dt • a, 0] dt * ieAd ![0, dt • a, 0] dt)) 2 0 = (-(1 / 6) * dt ^ 2) • skew a := by
    ext p q
    have hb : ieAd ![0, dt • a, 0] dt 2 0 = 0 := by simp [ieAd, skew_zero]
    have hf : (ieAd ![0, dt • a, 0] dt).flat (2, p) (0, q) = 0 := by
      show ieAd ![0, dt • a, 0] dt 2 0 p q = 0
      rw [hb]; rfl
    simp only [Blk.ofFlat, of_apply, Matrix.add_apply, Matrix.smul_apply, h20, Matrix.neg_apply, Matrix.one_apply, hf]
    simp
    ring
  rw [hB, smul_mulVec]
  simp [mulVec_neg, mulVec_smul]
  ring

/-- **C77, gyroscope bias: position.** At rest in rotation (unbiased rate zero) the Jacobian claims that a change `δ` of the
gyroscope bias moves the position by `C (5/24) dt³ [a]× δ`; the exact solution of the kinematics moves by `C (1/6) dt³ [a]× δ`;
and the position computed by `evaluate` does not move at all (below the small angle tolerance). -/
theorem C77_gyro_position_wrong (tol : ℝ) (htol : 0 < tol) (g : Vec 3) (C0 : Mat 3 3) (hC : IsRot C0) (v0 r0 bg ba : Vec 3)
    (st us : Option ℝ) (a wg wa : Vec 3) (dt : ℝ) (δ : Vec 3) :
    ∃ (F : Blk 5 5) (Y : ℝ → ImuSt),
      imuJacobian tol g ⟨mkIE C0 v0 r0 0, some (bg, ba), .right, st⟩ (mkImu bg (ba + a) us (some wg) (some wa)) dt = .ok F ∧
      (∀ s, imuEvaluate tol g (ImuSt.plus ⟨mkIE C0 v0 r0 0, some (bg, ba), .right, st⟩ ![0, 0, 0, s • δ, 0])
        (mkImu bg (ba + a) us (some wg) (some wa)) dt = .ok (Y s)) ∧
      -- the Jacobian
      (tangent .right (Y 0).pose fun k => F.act ![0, 0, 0, δ, 0] (Fin.castLE (by omega) k)).colB =
        C0 *ᵥ (((5 / 24) * dt ^ 3) • (skew a *ᵥ δ)) ∧
      -- the exact solution
      (∀ (C : ℝ → ℝ → Mat 3 3) (v r : ℝ → ℝ → Vec 3), (∀ s, IsImuTrajectory (-(s • δ)) a g (C s) (v s) (r s)) →
        (∀ s, C s 0 = C0 ∧ v s 0 = v0 ∧ r s 0 = r0) →
        ∀ i, HasDerivAt (fun s => r s dt i) ((C0 *ᵥ (((1 / 6) * dt ^ 3) • (skew a *ᵥ δ))) i) 0) ∧
      -- the code
      (∀ i, HasDerivAt (fun s => (Y s).pose.colB i) 0 0) := by
  refine ⟨_, fun s => ⟨gMatrix g dt * mkIE C0 v0 r0 0 * uMatrix tol (bg - (bg + s • δ)) (ba + a - ba) dt,
    some (bg + s • δ + dt • wg, ba + dt • wa), .right, st⟩, imuJacobian_ok _ _ _ _ _ _ _ _ _ _ _ _ _, ?_, ?_, ?_, ?_⟩
  · intro s
    rw [plus_bias_zero, imuEvaluate_ok, add_zero]
  · have hP := isSE23_step tol g 0 a (mkIE C0 v0 r0 0) dt ⟨_, _, _, hC, rfl⟩
    simp only [zero_smul, add_zero, sub_self, add_sub_cancel_left, tangent]
    rw [(mul_wedge_low hP.isIE _).2.2]
    have hrot : EPose.rot (gMatrix g dt * mkIE C0 v0 r0 0 * uMatrix tol 0 a dt) = C0 := by
      unfold gMatrix uMatrix
      simp only
      rw [mkIE_mul, mkIE_mul, mkIE_rot]
      simp [so3Exp, skew_zero, exp_zero]
    rw [hrot, withBias_act_bias]
    congr 1
    show Blk.act (-lMatrix tol 0 a dt) ![δ, 0] 2 = _
    rw [Blk.act_neg]
    simp [Blk.act, lMatrix_rest tol htol]
    rw [neg_mulVec, neg_neg, smul_mulVec]
  · intro C v r hT h0 i
    have h := exact_position_deriv a δ dt (gMatrix g dt * mkIE C0 v0 r0 0) ((isIE_gMatrix g dt).mul ⟨_, _, _, _, hC, rfl⟩) i
    have e : ∀ s, EPose.colB (gMatrix g dt * mkIE C0 v0 r0 0 * exp (dt • ieGen (skew (-(s • δ))) a 0 1)) = r s dt := by
      intro s
      have := sandwich _ _ _ (traj_deriv (hT s)) dt
      simp only [(h0 s).1, (h0 s).2.1, (h0 s).2.2] at this
      rw [gMatrix_exp, ← this]
      rfl
    simp only [e] at h
    refine h.congr_deriv ?_
    have : EPose.rot (gMatrix g dt * mkIE C0 v0 r0 0) = C0 := by
      unfold gMatrix
      rw [mkIE_mul, mkIE_rot, one_mul]
    rw [this]
  · intro i
    have hc : Continuous fun s : ℝ => npNorm (dt • (bg - (bg + s • δ))) := by
      unfold npNorm
      refine Real.continuous_sqrt.comp ?_
      refine continuous_finsetSum _ fun k _ => ?_
      simp only [Pi.smul_apply, Pi.sub_apply, Pi.add_apply, smul_eq_mul]
      fun_prop
    have hev : ∀ᶠ s in nhds (0 : ℝ), npNorm (dt • (bg - (bg + s • δ))) < tol := by
      refine (hc.tendsto 0).eventually_lt_const ?_
      simpa [npNorm] using htol
    have hconst : (fun s : ℝ => EPose.colB (gMatrix g dt * mkIE C0 v0 r0 0 * uMatrix tol (bg - (bg + s • δ)) (ba + a - ba) dt) i) =ᶠ[nhds 0]
        fun _ => EPose.colB (gMatrix g dt * mkIE C0 v0 r0 0 * mkIE 1 0 ((dt ^ 2 / 2) • a) dt) i := by
      filter_upwards [hev] with s hs
      unfold gMatrix uMatrix
      simp only
      rw [mkIE_mul, mkIE_mul, mkIE_mul, mkIE_colB, mkIE_colB]
      unfold nMatrix
      rw [if_pos hs]
      simp [smul_mulVec]
    exact (hasDerivAt_const (0 : ℝ) _).congr_of_eventuallyEq hconst

/-- The three values differ as soon as the specific force is not aligned with the change. -/
theorem C77_gyro_position_differ (a δ : Vec 3) (C0 : Mat 3 3) (hC : IsRot C0) (dt : ℝ) (hdt : dt ≠ 0) (h : skew a *ᵥ δ ≠ 0) :
    C0 *ᵥ (((5 / 24) * dt ^ 3) • (skew a *ᵥ δ)) ≠ C0 *ᵥ (((1 / 6) * dt ^ 3) • (skew a *ᵥ δ)) ∧
    C0 *ᵥ (((5 / 24) * dt ^ 3) • (skew a *ᵥ δ)) ≠ 0 := by
  have hinj : ∀ x : Vec 3, C0 *ᵥ x = 0 → x = 0 := by
    intro x hx
    have := congrArg (C0ᵀ *ᵥ ·) hx
    simpa [mulVec_mulVec, show C0ᵀ * C0 = 1 from hC.1] using this
  constructor
  · intro he
    rw [← sub_eq_zero, ← mulVec_sub, ← sub_smul] at he
    have := hinj _ he
    rw [smul_eq_zero] at this
    rcases this with h1 | h1
    · have : dt ^ 3 = 0 := by linarith
      exact hdt (by simpa using this)
    · exact h h1
  · intro he
    have := hinj _ he
    rw [smul_eq_zero] at this
    rcases this with h1 | h1
    · have : dt ^ 3 = 0 := by linarith
      exact hdt (by simpa using this)
    · exact h h1

example : skew ![0, 0, 1] *ᵥ (![1, 0, 0] : Vec 3) ≠ 0 := by
  intro h
  have := congrFun h 1
  simp [skew, mulVec, dotProduct, Fin.sum_univ_three] at this

end Verif
