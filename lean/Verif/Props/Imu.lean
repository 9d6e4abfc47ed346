import Verif.Lemmas.Imu
import Verif.Props.Mixture

/-!
Properties of the IMU module (`navlie/lib/imu.py`): C60 (group matrices), C76 (exact kinematics).
-/

namespace Verif

open Matrix NormedSpace

set_option linter.unusedVariables false
set_option linter.unusedSectionVars false

/-! ### C60: the group of the matrices `U`, `G` -/

/-- Specification: the "incremental Euclidean group" IE(3). -/
def IsIE (X : EPose) : Prop := ∃ R a b c, IsRot R ∧ X = mkIE R a b c

/-- Specification: the group SE_2(3) of navigation states (attitude, velocity, position). -/
def IsSE23 (X : EPose) : Prop := ∃ R v r, IsRot R ∧ X = mkIE R v r 0

theorem IsSE23.isIE {X : EPose} (h : IsSE23 X) : IsIE X := by
  obtain ⟨R, v, r, h, e⟩ := h
  exact ⟨R, v, r, 0, h, e⟩

theorem IsIE.mul {X Y : EPose} (hX : IsIE X) (hY : IsIE Y) : IsIE (X * Y) := by
  obtain ⟨R, a, b, c, h, rfl⟩ := hX
  obtain ⟨S, a', b', c', h', rfl⟩ := hY
  rw [mkIE_mul]
  exact ⟨_, _, _, _, h.mul h', rfl⟩

theorem isIE_uMatrix (tol : ℝ) (om acc : Vec 3) (dt : ℝ) : IsIE (uMatrix tol om acc dt) :=
  ⟨_, _, _, _, so3Exp_isRot _, rfl⟩

theorem isIE_gMatrix (g : Vec 3) (dt : ℝ) : IsIE (gMatrix g dt) := ⟨_, _, _, _, isRot_one, rfl⟩

theorem IsIE.inv {X : EPose} (hX : IsIE X) : IsIE (inverseIE3 X) := by
  obtain ⟨R, a, b, c, h, rfl⟩ := hX
  exact ⟨_, _, _, _, h.transpose, rfl⟩

/-- **C60, group.** Products and `inverse_IE3` stay in the group, `U_matrix` and `G_matrix` belong to it for all arguments,
and `inverse_IE3` is a two-sided inverse. -/
theorem C60_group :
    (∀ X Y, IsIE X → IsIE Y → IsIE (X * Y)) ∧
    (∀ X, IsIE X → IsIE (inverseIE3 X) ∧ X * inverseIE3 X = 1 ∧ inverseIE3 X * X = 1) ∧
    (∀ tol om acc dt, IsIE (uMatrix tol om acc dt)) ∧ (∀ g dt, IsIE (gMatrix g dt)) := by
  refine ⟨fun X Y => IsIE.mul, ?_, isIE_uMatrix, isIE_gMatrix⟩
  intro X hX
  have h1 : X * inverseIE3 X = 1 := by
    obtain ⟨R, a, b, c, h, rfl⟩ := hX
    unfold inverseIE3
    simp only [mkIE_rot, mkIE_colA, mkIE_colB, mkIE_time]
    rw [mkIE_mul, ← mkIE_one, h.1.right]
    congr 1
    · rw [mulVec_mulVec, mul_neg, h.1.right, neg_mulVec, one_mulVec, neg_add_cancel]
    · rw [mulVec_mulVec, h.1.right, one_mulVec, neg_smul]
      abel
    · ring
  exact ⟨hX.inv, h1, mul_eq_one_comm.1 h1⟩

theorem IsIE.mul_inv {X : EPose} (hX : IsIE X) : X * inverseIE3 X = 1 := (C60_group.2.1 X hX).2.1
theorem IsIE.inv_mul {X : EPose} (hX : IsIE X) : inverseIE3 X * X = 1 := (C60_group.2.1 X hX).2.2

/-- The product of two wedge-shaped matrices with rotations. -/
theorem mkIE_mul_wedge (R A : Mat 3 3) (a b x y : Vec 3) (c : ℝ) :
    mkIE R a b c * (fromBlocks A (cols x y) 0 0 : EPose) = fromBlocks (R * A) (cols (R *ᵥ x) (R *ᵥ y)) 0 0 := by
  rw [mkIE_eq, fromBlocks_multiply, mul_cols]
  simp

theorem wedge_mul_mkIE (R A : Mat 3 3) (a b x y : Vec 3) (c : ℝ) :
    (fromBlocks A (cols x y) 0 0 : EPose) * mkIE R a b c = fromBlocks (A * R) (cols (A *ᵥ a + x) (A *ᵥ b + (c • x + y))) 0 0 := by
  rw [mkIE_eq, fromBlocks_multiply, mul_cols, cols_mul, cols_add]
  simp

theorem act_three (B : Blk 3 3) (ξ : Fin 3 → Vec 3) (i : Fin 3) :
    Blk.act B ξ i = B i 0 *ᵥ ξ 0 + B i 1 *ᵥ ξ 1 + B i 2 *ᵥ ξ 2 := by
  unfold Blk.act
  rw [Fin.sum_univ_three]

/-- **C60, adjoint.** `adjoint_IE3(X)` is the matrix of the conjugation by `X` on the Lie algebra of SE_2(3). -/
theorem C60_adjoint (X : EPose) (hX : IsIE X) (ξ : Fin 3 → Vec 3) :
    X * se23Wedge ξ * inverseIE3 X = se23Wedge ((adjointIE3 X).act ξ) := by
  have key : X * se23Wedge ξ = se23Wedge ((adjointIE3 X).act ξ) * X := by
    obtain ⟨R, a, b, c, h, rfl⟩ := hX
    have e : ∀ ξ : Fin 3 → Vec 3, se23Wedge ξ = fromBlocks (skew (ξ 0)) (cols (ξ 1) (ξ 2)) 0 0 := fun _ => rfl
    rw [e, e, mkIE_mul_wedge, wedge_mul_mkIE]
    have h0 : (adjointIE3 (mkIE R a b c)).act ξ 0 = R *ᵥ ξ 0 := by
      rw [act_three]; simp [adjointIE3, mkIE_rot]
    have h1 : (adjointIE3 (mkIE R a b c)).act ξ 1 = (skew a * R) *ᵥ ξ 0 + R *ᵥ ξ 1 := by
      rw [act_three]; simp [adjointIE3, mkIE_rot, mkIE_colA]
    have h2 : (adjointIE3 (mkIE R a b c)).act ξ 2 = (-skew (c • a - b) * R) *ᵥ ξ 0 + (-c • R) *ᵥ ξ 1 + R *ᵥ ξ 2 := by
      rw [act_three]; simp [adjointIE3, mkIE_rot, mkIE_colA, mkIE_colB, mkIE_time]
    rw [h0, h1, h2]
    congr 1
    · exact (h.skew (ξ 0)).symm
    · congr 1
      · rw [← mulVec_mulVec, skew_mulVec_comm a (R *ᵥ ξ 0)]
        abel
      · rw [← mulVec_mulVec, ← mulVec_mulVec (ξ 0) (-skew (c • a - b)), neg_mulVec, skew_mulVec_comm (c • a - b) (R *ᵥ ξ 0),
          neg_neg, skew_mulVec_comm a (R *ᵥ ξ 0), mulVec_sub, mulVec_smul, smul_mulVec]
        module
  rw [key, mul_assoc, hX.mul_inv, mul_one]

/-- **C60, adjoints multiply.** -/
theorem C60_adjoint_hom (X Y : EPose) (hX : IsIE X) (hY : IsIE Y) :
    adjointIE3 (X * Y) = adjointIE3 X * adjointIE3 Y ∧ adjointIE3 (1 : EPose) = 1 ∧
    adjointIE3 (inverseIE3 X) * adjointIE3 X = 1 := by
  have hom : ∀ X Y : EPose, IsIE X → IsIE Y → adjointIE3 (X * Y) = adjointIE3 X * adjointIE3 Y := by
    rintro _ _ ⟨R, a, b, c, h, rfl⟩ ⟨S, a', b', c', h', rfl⟩
    have hs := fun v => h.skew v
    rw [mkIE_mul]
    unfold adjointIE3
    simp only [mkIE_rot, mkIE_colA, mkIE_colB, mkIE_time]
    ext1 i j
    fin_cases i <;> fin_cases j <;> simp [Matrix.mul_apply, Fin.sum_univ_three, -smul_add]
    · rw [skew_add, add_mul, ← mul_assoc, hs, mul_assoc, mul_assoc]
      abel
    · rw [show (c + c') • (R *ᵥ a' + a) - (R *ᵥ b' + (c' • a + b)) =
        (c • a - b) + (R *ᵥ (c' • a' - b') + c • (R *ᵥ a')) by
          rw [mulVec_sub, mulVec_smul]; module]
      rw [skew_add, skew_add, skew_smul, add_mul, add_mul, ← mul_assoc (skew (R *ᵥ (c' • a' - b'))), hs, smul_mul_assoc,
        ← mul_assoc (skew (R *ᵥ a')), hs]
      noncomm_ring
    · module
  have one : adjointIE3 (1 : EPose) = 1 := by
    rw [← mkIE_one]
    unfold adjointIE3
    simp only [mkIE_rot, mkIE_colA, mkIE_colB, mkIE_time]
    ext1 i j
    fin_cases i <;> fin_cases j <;> simp [skew_zero]
  refine ⟨hom X Y hX hY, one, ?_⟩
  rw [← hom _ _ hX.inv hX, hX.inv_mul, one]

/-- **C60, gravity matrices compose** over consecutive durations, and are inverted by reversing time. -/
theorem C60_gravity (g : Vec 3) (s t : ℝ) :
    gMatrix g s * gMatrix g t = gMatrix g (s + t) ∧ gMatrix g 0 = 1 ∧ gMatrixInv g t = gMatrix g (-t) := by
  refine ⟨?_, ?_, ?_⟩
  · unfold gMatrix
    rw [mkIE_mul]
    congr 1
    · simp
    · rw [one_mulVec, ← add_smul, add_comm]
    · rw [one_mulVec]; module
    · ring
  · unfold gMatrix
    rw [← mkIE_one]
    simp
  · unfold gMatrixInv inverseIE3 gMatrix
    simp only [mkIE_rot, mkIE_colA, mkIE_colB, mkIE_time]
    congr 1
    · simp
    · rw [transpose_one, neg_mulVec, one_mulVec]; module
    · rw [transpose_one, one_mulVec]; module

/-- Specification: the rotation angle of the step is zero or not below the small angle tolerance of the library. -/
def AngleOk (tol : ℝ) (om : Vec 3) (dt : ℝ) : Prop := dt • om = 0 ∨ tol ≤ npNorm (dt • om)

/-- **C60, series.** At admissible angles `N_matrix` is the sum of the series `∑ 2 φ^n / (n + 2)!` whose first 100 terms
`M_matrix` adds up. -/
theorem C60_series (tol : ℝ) (htol : 0 < tol) (φ : Vec 3) (h : φ = 0 ∨ tol ≤ npNorm φ) :
    HasSum (fun n : ℕ => (2 / ((n + 2).factorial : ℝ)) • skew φ ^ n) (nMatrix tol φ) ∧
    mMatrix φ = ∑ n ∈ Finset.range 100, (2 / ((n + 2).factorial : ℝ)) • skew φ ^ n := by
  refine ⟨?_, rfl⟩
  rw [nMatrix_eq tol htol φ h]
  refine ((phi_hasSum 2 (skew φ)).const_smul (2 : ℝ)).congr_fun ?_
  intro n
  rw [smul_smul, div_eq_mul_inv]

/-- **C60, `U_matrix` is an exponential.** At admissible angles it is the exponential of the constant generator times the
duration; hence consecutive steps with the same input compose, and `U_matrix` splits as `delta_matrix · U_tilde_matrix`. -/
theorem C60_input (tol : ℝ) (htol : 0 < tol) (om acc : Vec 3) :
    (∀ dt, AngleOk tol om dt → uMatrix tol om acc dt = exp (dt • ieGen (skew om) acc 0 1)) ∧
    (∀ s t, AngleOk tol om s → AngleOk tol om t → AngleOk tol om (s + t) →
      uMatrix tol om acc s * uMatrix tol om acc t = uMatrix tol om acc (s + t)) ∧
    (∀ dt, uMatrix tol om acc dt = deltaMatrix dt * uTilde tol om acc dt) := by
  have hU : ∀ dt, AngleOk tol om dt → uMatrix tol om acc dt = exp (dt • ieGen (skew om) acc 0 1) := by
    intro dt h
    rw [ieGen_smul, exp_ieGen]
    unfold uMatrix so3Exp so3LeftJac
    simp only
    rw [nMatrix_eq tol htol _ h, skew_smul]
    congr 1
    · rw [smul_mulVec, mulVec_smul]
    · rw [smul_zero, mulVec_zero, zero_add, mulVec_smul, smul_smul, smul_mulVec, smul_smul]
      congr 1
      ring
    · ring
  refine ⟨hU, ?_, ?_⟩
  · intro s t hs ht hst
    rw [hU s hs, hU t ht, hU (s + t) hst, add_smul, Matrix.exp_add_of_commute]
    exact (Commute.refl (ieGen (skew om) acc 0 1)).smul_left s |>.smul_right t
  · intro dt
    unfold uMatrix uTilde deltaMatrix
    simp only
    rw [mkIE_mul]
    congr 1 <;> simp

/-- `G_matrix` is an exponential. -/
theorem gMatrix_exp (g : Vec 3) (dt : ℝ) : gMatrix g dt = exp (dt • ieGen 0 g 0 (-1)) := by
  rw [ieGen_smul, exp_ieGen]
  unfold gMatrix
  rw [smul_zero, phi_at_zero, phi_at_zero]
  congr 1
  · simp
  · simp
  · simp [smul_mulVec, smul_smul]
    ring_nf
  · ring

/-! ### C76: the discrete kinematics are the exact solution -/

/-- Specification: the continuous-time IMU kinematics of the documentation, with constant unbiased inputs. -/
structure IsImuTrajectory (om acc g : Vec 3) (C : ℝ → Mat 3 3) (v r : ℝ → Vec 3) : Prop where
  att : ∀ t i j, HasDerivAt (fun s => C s i j) ((C t * skew om) i j) t
  vel : ∀ t i, HasDerivAt (fun s => v s i) ((C t *ᵥ acc + g) i) t
  pos : ∀ t i, HasDerivAt (fun s => r s i) (v t i) t

/-- A trajectory of the kinematics solves the matrix equation `T' = G T + T M`. -/
theorem traj_deriv {om acc g : Vec 3} {C : ℝ → Mat 3 3} {v r : ℝ → Vec 3} (h : IsImuTrajectory om acc g C v r) (t : ℝ) :
    HasMatDeriv (fun s => mkIE (C s) (v s) (r s) 0)
      (ieGen 0 g 0 (-1) * mkIE (C t) (v t) (r t) 0 + mkIE (C t) (v t) (r t) 0 * ieGen (skew om) acc 0 1) t := by
  have e : ieGen 0 g 0 (-1) * mkIE (C t) (v t) (r t) 0 + mkIE (C t) (v t) (r t) 0 * ieGen (skew om) acc 0 1 =
      fromBlocks (C t * skew om) (cols (C t *ᵥ acc + g) (v t)) 0 0 := by
    unfold ieGen
    rw [mkIE_eq, fromBlocks_multiply, fromBlocks_multiply, fromBlocks_add, mul_cols, cols_mul, mul_cols, cols_mul, cols_add,
      cols_add, cols_add]
    congr 1
    · simp
    · simp [add_comm]
    · simp
    · ext i j; fin_cases i <;> fin_cases j <;> simp [Matrix.mul_apply, Fin.sum_univ_two]
  rw [e]
  intro i j
  rcases i with i | i <;> rcases j with j | j
  · exact h.att t i j
  · fin_cases j
    · exact h.vel t i
    · exact h.pos t i
  · exact hasDerivAt_const t _
  · exact hasDerivAt_const t _

/-- A state and an input with given biases and walks. -/
theorem imuEvaluate_ok (tol : ℝ) (g : Vec 3) (T : EPose) (bg ba : Vec 3) (dir : Dir) (st : Option ℝ) (gyro accel : Vec 3)
    (us : Option ℝ) (wg wa : Vec 3) (dt : ℝ) :
    imuEvaluate tol g ⟨T, some (bg, ba), dir, st⟩ (mkImu gyro accel us (some wg) (some wa)) dt =
      .ok ⟨gMatrix g dt * T * uMatrix tol (gyro - bg) (accel - ba) dt, some (bg + dt • wg, ba + dt • wa), dir, st⟩ := rfl

theorem imuEvaluate_nav (tol : ℝ) (g : Vec 3) (T : EPose) (dir : Dir) (st : Option ℝ) (gyro accel : Vec 3)
    (us : Option ℝ) (wg wa : Vec 3) (dt : ℝ) :
    imuEvaluate tol g ⟨T, none, dir, st⟩ (mkImu gyro accel us (some wg) (some wa)) dt =
      .ok ⟨gMatrix g dt * T * uMatrix tol gyro accel dt, none, dir, st⟩ := rfl

/-- **C76, exact solution.** For every trajectory of the documented continuous-time kinematics with the unbiased inputs, the
model maps the state at time 0 to the state at time `dt`, for every duration (positive or negative) with an admissible rotation
angle; the biases drift by `dt` times their walk, and the stamp is left alone. -/
theorem C76_exact (tol : ℝ) (htol : 0 < tol) (g gyro accel bg ba wg wa : Vec 3) (C : ℝ → Mat 3 3) (v r : ℝ → Vec 3)
    (h : IsImuTrajectory (gyro - bg) (accel - ba) g C v r) (dir : Dir) (st us : Option ℝ) (dt : ℝ)
    (hdt : AngleOk tol (gyro - bg) dt) :
    imuEvaluate tol g ⟨mkIE (C 0) (v 0) (r 0) 0, some (bg, ba), dir, st⟩ (mkImu gyro accel us (some wg) (some wa)) dt =
      .ok ⟨mkIE (C dt) (v dt) (r dt) 0, some (bg + dt • wg, ba + dt • wa), dir, st⟩ := by
  rw [imuEvaluate_ok, (C60_input tol htol _ _).1 dt hdt, gMatrix_exp, ← sandwich _ _ _ (traj_deriv h) dt]

/-- The exact trajectory from given initial values (non-vacuity of `C76_exact`). -/
theorem traj_exists (om acc g : Vec 3) (C0 : Mat 3 3) (v0 r0 : Vec 3) :
    ∃ C v r, IsImuTrajectory om acc g C v r ∧ C 0 = C0 ∧ v 0 = v0 ∧ r 0 = r0 := by
  let T : ℝ → EPose := fun t => exp (t • ieGen 0 g 0 (-1)) * mkIE C0 v0 r0 0 * exp (t • ieGen (skew om) acc 0 1)
  have hT : ∀ t, HasMatDeriv T (ieGen 0 g 0 (-1) * T t + T t * ieGen (skew om) acc 0 1) t := by
    intro t
    refine (((hasMatDeriv_exp' _ t).mul (hasMatDeriv_const _ t)).mul (hasMatDeriv_exp _ t)).congr_deriv ?_
    simp only [T]
    noncomm_ring
  have hshape : ∀ t, T t = mkIE (T t).rot (T t).colA (T t).colB 0 := by
    intro t
    simp only [T]
    rw [← gMatrix_exp, ieGen_smul, exp_ieGen]
    unfold gMatrix
    rw [mkIE_mul, mkIE_mul]
    simp only [mkIE_rot, mkIE_colA, mkIE_colB]
    congr 1
    ring
  have h0 : T 0 = mkIE C0 v0 r0 0 := by simp [T, exp_zero]
  have e : ∀ t, ieGen 0 g 0 (-1) * T t + T t * ieGen (skew om) acc 0 1 =
      fromBlocks ((T t).rot * skew om) (cols ((T t).rot *ᵥ acc + g) (T t).colA) 0 0 := by
    intro t
    rw [hshape t]
    unfold ieGen
    simp only [mkIE_rot, mkIE_colA, mkIE_colB]
    rw [mkIE_eq, fromBlocks_multiply, fromBlocks_multiply, fromBlocks_add, mul_cols, cols_mul, mul_cols, cols_mul, cols_add,
      cols_add, cols_add]
    congr 1
    · simp
    · simp [add_comm]
    · simp
    · ext i j; fin_cases i <;> fin_cases j <;> simp [Matrix.mul_apply, Fin.sum_univ_two]
  refine ⟨fun t => (T t).rot, fun t => (T t).colA, fun t => (T t).colB, ⟨?_, ?_, ?_⟩, ?_, ?_, ?_⟩
  · intro t i j
    have := hT t (.inl i) (.inl j)
    rw [e t] at this
    exact this
  · intro t i
    have := hT t (.inl i) (.inr 0)
    rw [e t] at this
    exact this
  · intro t i
    have := hT t (.inl i) (.inr 1)
    rw [e t] at this
    exact this
  · simp only [h0]; rfl
  · simp only [h0]; rfl
  · simp only [h0]; rfl

/-- **C76, one step or many.** Without bias walk, propagating over `s` and then over `t` equals propagating over `s + t`, so
the result does not depend on how an interval of constant input is cut. -/
theorem C76_flow (tol : ℝ) (htol : 0 < tol) (g gyro accel bg ba : Vec 3) (T : EPose) (dir : Dir) (st us : Option ℝ) (s t : ℝ)
    (hs : AngleOk tol (gyro - bg) s) (ht : AngleOk tol (gyro - bg) t) (hst : AngleOk tol (gyro - bg) (s + t)) :
    (imuEvaluate tol g ⟨T, some (bg, ba), dir, st⟩ (mkImu gyro accel us (some 0) (some 0)) s >>= fun x =>
      imuEvaluate tol g x (mkImu gyro accel us (some 0) (some 0)) t) =
    imuEvaluate tol g ⟨T, some (bg, ba), dir, st⟩ (mkImu gyro accel us (some 0) (some 0)) (s + t) := by
  rw [imuEvaluate_ok, ok_bindE]
  simp only [smul_zero, add_zero]
  rw [imuEvaluate_ok, imuEvaluate_ok]
  simp only [smul_zero, add_zero]
  rw [← (C60_input tol htol (gyro - bg) (accel - ba)).2.1 s t hs ht hst, add_comm s t, ← (C60_gravity g t s).1]
  simp only [mul_assoc]

/-- **C76, biases.** Removing the bias is the only effect of the bias on the navigation state: the propagated navigation state
of a state with biases is that of the bias-free state with the corrected reading. -/
theorem C76_unbiased (tol : ℝ) (g gyro accel bg ba wg wa : Vec 3) (T : EPose) (dir : Dir) (st us : Option ℝ) (dt : ℝ) :
    ∃ x y, imuEvaluate tol g ⟨T, some (bg, ba), dir, st⟩ (mkImu gyro accel us (some wg) (some wa)) dt = .ok x ∧
      imuEvaluate tol g ⟨T, none, dir, st⟩ (mkImu (gyro - bg) (accel - ba) us (some wg) (some wa)) dt = .ok y ∧
      x.pose = y.pose := ⟨_, _, rfl, rfl, rfl⟩

/-- **C76, navigation states stay navigation states.** -/
theorem C76_closed (tol : ℝ) (g : Vec 3) (x y : ImuSt) (u : ImuIn) (dt : ℝ) (hx : IsSE23 x.pose)
    (h : imuEvaluate tol g x u dt = .ok y) : IsSE23 y.pose := by
  unfold imuEvaluate at h
  obtain ⟨un, h1, h⟩ := bind_ok h
  obtain ⟨b, h2, h⟩ := bind_ok h
  injection h with h
  rw [← h]
  obtain ⟨R, v, r, hR, e⟩ := hx
  simp only [e]
  unfold gMatrix uMatrix
  simp only
  rw [mkIE_mul, mkIE_mul]
  rw [show -dt + 0 + dt = 0 by ring]
  exact ⟨_, _, _, (isRot_one.mul hR).mul (so3Exp_isRot _), rfl⟩

/-- **C76, walks given as `None`.** The constructor accepts `None` for either bias walk, but such a reading can neither be
copied, perturbed nor used: every use raises `AttributeError`. -/
theorem C76_none_walk (tol : ℝ) (g gyro accel : Vec 3) (us : Option ℝ) (wg wa : Option (Vec 3)) (h : wg = none ∨ wa = none)
    (x : ImuSt) (dt : ℝ) (w : Fin 4 → Vec 3) :
    (mkImu gyro accel us wg wa).copy = .error .attributeError ∧
    (mkImu gyro accel us wg wa).plus w = .error .attributeError ∧
    imuEvaluate tol g x (mkImu gyro accel us wg wa) dt = .error .attributeError := by
  have hc : (mkImu gyro accel us wg wa).copy = .error .attributeError := by
    rcases wg with _ | wg <;> rcases wa with _ | wa
    · rfl
    · rfl
    · rfl
    · simp at h
  refine ⟨hc, ?_, ?_⟩
  · unfold ImuIn.plus; rw [hc]; rfl
  · unfold imuEvaluate getUnbiased; rw [hc]; rfl

/-- **C76, noise on readings** is added to gyro, accelerometer and the two walks, in this order, and a copy is equal. -/
theorem C76_plus (gyro accel wg wa : Vec 3) (us : Option ℝ) (w : Fin 4 → Vec 3) :
    (mkImu gyro accel us (some wg) (some wa)).plus w =
      .ok (mkImu (gyro + w 0) (accel + w 1) us (some (wg + w 2)) (some (wa + w 3))) ∧
    (mkImu gyro accel us (some wg) (some wa)).copy = .ok (mkImu gyro accel us (some wg) (some wa)) := ⟨rfl, rfl⟩

/-- **C76, covariance** of a state without biases (which `evaluate` and `jacobian` support) raises `ValueError`; see
`C76_covariance_psd` for states with biases. -/
theorem C76_covariance_nav (tol : ℝ) (g : Vec 3) (Q : Blk 4 4) (T : EPose) (dir : Dir) (st us : Option ℝ)
    (gyro accel wg wa : Vec 3) (dt : ℝ) :
    imuCovariance tol g Q ⟨T, none, dir, st⟩ (mkImu gyro accel us (some wg) (some wa)) dt = .error .valueError := rfl

end Verif
