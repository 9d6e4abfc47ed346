import Verif.Model.Preint
import Verif.Props.ImuJac
import Verif.Props.PreintLin

/-!
IMU preintegration (`navlie/lib/preintegration.py:69-331`): C61, C81, C82.
-/

namespace Verif

open Matrix

set_option linter.unusedVariables false
set_option linter.unusedSectionVars false

/-! ### Block matrices -/

theorem Blk.flat_inj {m n : ℕ} {A B : Blk m n} (h : A.flat = B.flat) : A = B := by
  ext i j p q
  exact congrFun (congrFun h (i, p)) (j, q)

theorem Blk.flat_add {m n : ℕ} (A B : Blk m n) : Blk.flat (A + B) = A.flat + B.flat := rfl

theorem Blk.T_mul {l m n : ℕ} (A : Blk l m) (B : Blk m n) : Blk.T (A * B) = B.T * A.T := by
  apply Blk.flat_inj
  rw [Blk.flat_T, Blk.flat_mul, transpose_mul, Blk.flat_mul, Blk.flat_T, Blk.flat_T]

theorem Blk.T_add {m n : ℕ} (A B : Blk m n) : Blk.T (A + B) = A.T + B.T := by
  apply Blk.flat_inj
  rfl

theorem Blk.T_T {m n : ℕ} (A : Blk m n) : Blk.T (Blk.T A) = A := by
  apply Blk.flat_inj
  rfl

theorem Blk.symm_eq {n : ℕ} (P : Blk n n) (h : P.T = P) : Blk.symm P = P := by
  ext i j p q
  have : (P j i)ᵀ = P i j := congrFun (congrFun h i) j
  unfold Blk.symm
  rw [of_apply, this, Matrix.smul_apply, Matrix.add_apply, smul_eq_mul]
  ring

theorem Blk.symm_sandwich {m n : ℕ} (A : Blk m n) (P : Blk n n) (h : P.T = P) : Blk.T (A * P * A.T) = A * P * A.T := by
  rw [Blk.T_mul, Blk.T_mul, Blk.T_T, h, Matrix.mul_assoc]

theorem withBias_mul (A A' : Blk 3 3) (B B' : Blk 3 2) :
    withBias A B * withBias A' B' = withBias (A * A') (A * B' + B) := by
  ext1 i j
  fin_cases i <;> fin_cases j <;> simp [withBias, Matrix.mul_apply, Fin.sum_univ_succ]
  all_goals abel

theorem withBias_noiseJac (S : Blk 3 3) (L : Blk 3 2) (dt : ℝ) : withBias S 0 * noiseJac L dt = noiseJac (S * L) dt := by
  ext1 i j
  fin_cases i <;> fin_cases j <;> simp [withBias, noiseJac, Matrix.mul_apply, Fin.sum_univ_succ]

theorem withBias_one : withBias 1 0 = 1 := by
  ext1 i j
  fin_cases i <;> fin_cases j <;> simp [withBias, Matrix.one_apply]

/-! ### C61: preintegration is step by step propagation -/

/-- Specification: the state, the product of the Jacobians and the covariance after propagating step by step with
`IMUKinematics`. -/
noncomputable def imuSteps (tol : ℝ) (g : Vec 3) (Q : Blk 4 4) (s : ImuSt × Blk 5 5 × Blk 5 5) (l : List (ImuIn × ℝ)) :
    Except Err (ImuSt × Blk 5 5 × Blk 5 5) :=
  l.foldlM (fun s i => do
    let F ← imuJacobian tol g s.1 i.1 i.2
    let C ← imuCovariance tol g Q s.1 i.1 i.2
    let y ← imuEvaluate tol g s.1 i.1 i.2
    return (y, F * s.2.1, F * s.2.2 * F.T + C)) s

/-- The duration of an increment. -/
def durOf : Option (ℝ × ℝ) → ℝ
  | none => 0
  | some (a, b) => b - a

theorem durOf_step {s : Option (ℝ × ℝ)} {t : Option ℝ} {dt : ℝ} {p : ℝ × ℝ} (h : incStamps s t dt = .ok p) :
    durOf (some p) = durOf s + dt := by
  rcases s with _ | ⟨a, b⟩
  · rcases t with _ | t
    · cases h
    · injection h with h
      subst h
      simp [durOf]
  · injection h with h
    subst h
    simp [durOf]
    ring

/-- The part of the propagated error-state matrices which depends on the direction. -/
noncomputable def imuPhi (dir : Dir) (g : Vec 3) (T V : EPose) (d : ℝ) (J : Blk 3 2) : Blk 5 5 :=
  match dir with
  | .right => withBias (adjointIE3 (inverseIE3 V)) J
  | .left => withBias (adjointIE3 (gMatrix g d)) (se23Adjoint (gMatrix g d * T * V) * J)

/-- The covariance in the direction of the state. -/
noncomputable def imuCov (dir : Dir) (g : Vec 3) (T V : EPose) (d : ℝ) (C : Blk 5 5) : Blk 5 5 :=
  match dir with
  | .right => C
  | .left => withBias (se23Adjoint (gMatrix g d * T * V)) 0 * C * (withBias (se23Adjoint (gMatrix g d * T * V)) 0).T

/-- What is known about an increment and the pose it is applied to. -/
structure IncOk (g : Vec 3) (T : EPose) (Q : Blk 4 4) (b : Vec 3 × Vec 3) (r : ImuInc) : Prop where
  bias : r.bias = b
  newBias : r.newBias = b
  Q : r.Q = Q
  V : IsIE r.value0
  P : IsSE23 (gMatrix g (durOf r.stamps) * T * r.value0)
  cov : r.cov.T = r.cov

/-- The state, Jacobian and covariance predicted with an increment. -/
noncomputable def imuPre (dir : Dir) (st : Option ℝ) (g : Vec 3) (T : EPose) (b : Vec 3 × Vec 3) (P : Blk 5 5) (r : ImuInc) :
    ImuSt × Blk 5 5 × Blk 5 5 :=
  (⟨gMatrix g (durOf r.stamps) * T * r.value0, some b, dir, st⟩, imuPhi dir g T r.value0 (durOf r.stamps) r.jac,
    imuPhi dir g T r.value0 (durOf r.stamps) r.jac * P * (imuPhi dir g T r.value0 (durOf r.stamps) r.jac).T +
      imuCov dir g T r.value0 (durOf r.stamps) r.cov)

theorem adj_inv_mul {X Y : EPose} (hX : IsIE X) (hY : IsIE Y) :
    adjointIE3 (inverseIE3 Y) * adjointIE3 (inverseIE3 X) = adjointIE3 (inverseIE3 (X * Y)) := by
  have h : inverseIE3 (X * Y) = inverseIE3 Y * inverseIE3 X := by
    rw [← (hX.mul hY).inv_eq, ← hX.inv_eq, ← hY.inv_eq, Matrix.mul_inv_rev]
  rw [h, (C60_adjoint_hom _ _ hY.inv hX.inv).1]

theorem sandwich_left {F S S' A : Blk 5 5} (e : F * S = S' * A) (c : Blk 5 5) (N : Blk 5 4) (Q : Blk 4 4) :
    F * (S * c * S.T) * F.T + S' * N * Q * (Blk.T (S' * N)) = S' * (A * c * A.T + N * Q * N.T) * S'.T := by
  have h1 : F * (S * c * S.T) * F.T = (F * S) * c * Blk.T (F * S) := by
    rw [Blk.T_mul]
    simp only [Matrix.mul_assoc]
  rw [h1, e, Blk.T_mul, Blk.T_mul, Matrix.mul_add, Matrix.add_mul]
  simp only [Matrix.mul_assoc]

/-- One reading. -/
theorem imuStep (tol : ℝ) (g : Vec 3) (T : EPose) (Q : Blk 4 4) (hQ : Q.T = Q) (b : Vec 3 × Vec 3) (dir : Dir) (st : Option ℝ)
    (P : Blk 5 5) (r : ImuInc) (hr : IncOk g T Q b r) (gyro accel : Vec 3) (us : Option ℝ) (dt : ℝ)
    (hst : r.stamps = none → us.isSome) :
    ∃ r', r.increment tol (mkImu gyro accel us (some 0) (some 0)) dt = .ok r' ∧ IncOk g T Q b r' ∧ r'.stamps.isSome ∧
      imuSteps tol g Q (imuPre dir st g T b P r) [(mkImu gyro accel us (some 0) (some 0), dt)] = .ok (imuPre dir st g T b P r') := by
  obtain ⟨s, hs⟩ := incStamps_ok dt hst
  have hd := durOf_step hs
  obtain ⟨V, bias, nb, stamps, cov, jac, Q'⟩ := r
  obtain ⟨h1, h2, h3, hV, hP, hc⟩ := hr
  simp only at h1 h2 h3 hV hP hc hs hd
  subst h1 h2 h3
  obtain ⟨bg, ba⟩ := nb
  have hU := isIE_uMatrix tol (gyro - bg) (accel - ba) dt
  generalize hUe : uMatrix tol (gyro - bg) (accel - ba) dt = U at hU
  generalize hLe : lMatrix tol (gyro - bg) (accel - ba) dt = L
  have hGd := isIE_gMatrix g dt
  have hG := isIE_gMatrix g (durOf stamps)
  have hsym : Blk.T (withBias (adjointIE3 (inverseIE3 U)) (-L) * cov * (withBias (adjointIE3 (inverseIE3 U)) (-L)).T +
      noiseJac L dt * Q' * (noiseJac L dt).T) = withBias (adjointIE3 (inverseIE3 U)) (-L) * cov *
      (withBias (adjointIE3 (inverseIE3 U)) (-L)).T + noiseJac L dt * Q' * (noiseJac L dt).T := by
    rw [Blk.T_add, Blk.symm_sandwich _ _ hc, Blk.symm_sandwich _ _ hQ]
  have hpose : gMatrix g (durOf stamps + dt) * T * (V * U) = gMatrix g dt * (gMatrix g (durOf stamps) * T * V) * U := by
    rw [add_comm, ← (C60_gravity g dt (durOf stamps)).1]
    simp only [mul_assoc]
  have hP' : IsSE23 (gMatrix g (durOf stamps + dt) * T * (V * U)) := by
    rw [hpose, ← hUe]
    exact isSE23_step tol g _ _ _ dt hP
  have hinc : ImuInc.increment tol ⟨V, (bg, ba), (bg, ba), stamps, cov, jac, Q'⟩ (mkImu gyro accel us (some 0) (some 0)) dt =
      .ok ⟨V * U, (bg, ba), (bg, ba), some s, withBias (adjointIE3 (inverseIE3 U)) (-L) * cov *
      (withBias (adjointIE3 (inverseIE3 U)) (-L)).T + noiseJac L dt * Q' * (noiseJac L dt).T,
      adjointIE3 (inverseIE3 U) * jac - L, Q'⟩ := by
    have hcopy : (mkImu gyro accel us (some 0) (some 0)).copy = .ok (mkImu gyro accel us (some 0) (some 0)) := rfl
    rw [← Blk.symm_eq _ hsym]
    unfold ImuInc.increment
    rw [hcopy]
    show (incStamps stamps us dt >>= _) = _
    rw [hs]
    subst hUe hLe
    rfl
  refine ⟨_, hinc, ⟨rfl, rfl, rfl, hV.mul hU, ?_, hsym⟩, rfl, ?_⟩
  · simp only
    rw [hd]
    exact hP'
  have hadj : adjointIE3 (gMatrix g dt) * se23Adjoint (gMatrix g (durOf stamps) * T * V) =
      se23Adjoint (gMatrix g (durOf stamps + dt) * T * (V * U)) * adjointIE3 (inverseIE3 U) := by
    rw [se23Adjoint_eq hP, se23Adjoint_eq hP', hpose, (C60_adjoint_hom _ _ (hGd.mul hP.isIE) hU).1,
      (C60_adjoint_hom _ _ hGd hP.isIE).1, Matrix.mul_assoc _ (adjointIE3 U), ← (C60_adjoint_hom _ _ hU hU.inv).1, hU.mul_inv,
      (C60_adjoint_hom _ _ hU hU).2.1, Matrix.mul_one]
  have hjac : imuJacobian tol g ⟨gMatrix g (durOf stamps) * T * V, some (bg, ba), dir, st⟩ (mkImu gyro accel us (some 0) (some 0)) dt =
      .ok (withBias (imuNavJac tol g dir (gyro - bg) (accel - ba) dt)
        (-dirJac dir (gMatrix g (durOf stamps + dt) * T * (V * U)) L)) := by
    rw [imuJacobian_ok, hpose, hUe, hLe]
  have hcov : imuCovariance tol g Q' ⟨gMatrix g (durOf stamps) * T * V, some (bg, ba), dir, st⟩ (mkImu gyro accel us (some 0) (some 0)) dt =
      .ok (noiseJac (dirJac dir (gMatrix g (durOf stamps + dt) * T * (V * U)) L) dt * Q' *
        (noiseJac (dirJac dir (gMatrix g (durOf stamps + dt) * T * (V * U)) L) dt).T) := by
    unfold imuCovariance
    rw [imuInputJac_ok, hpose, hUe, hLe]
    rfl
  have heval : imuEvaluate tol g ⟨gMatrix g (durOf stamps) * T * V, some (bg, ba), dir, st⟩ (mkImu gyro accel us (some 0) (some 0)) dt =
      .ok ⟨gMatrix g (durOf stamps + dt) * T * (V * U), some (bg, ba), dir, st⟩ := by
    rw [imuEvaluate_ok, hpose, hUe, smul_zero, add_zero, add_zero]
  -- the Jacobian of the step, composed
  have hPhi : withBias (imuNavJac tol g dir (gyro - bg) (accel - ba) dt) (-dirJac dir (gMatrix g (durOf stamps + dt) * T * (V * U)) L) *
      imuPhi dir g T V (durOf stamps) jac = imuPhi dir g T (V * U) (durOf stamps + dt) (adjointIE3 (inverseIE3 U) * jac - L) := by
    cases dir
    · show withBias (adjointIE3 (inverseIE3 (uMatrix tol (gyro - bg) (accel - ba) dt))) (-L) * withBias _ jac = withBias _ _
      rw [hUe, withBias_mul, adj_inv_mul hV hU, sub_eq_add_neg]
    · show withBias (adjointIE3 (gMatrix g dt)) (-(se23Adjoint _ * L)) * withBias _ (se23Adjoint _ * jac) = withBias _ (se23Adjoint _ * _)
      rw [withBias_mul, ← (C60_adjoint_hom _ _ hGd hG).1, (C60_gravity g dt _).1, ← Matrix.mul_assoc, hadj, add_comm dt,
        Matrix.mul_sub, Matrix.mul_assoc, sub_eq_add_neg]
  have hC : withBias (imuNavJac tol g dir (gyro - bg) (accel - ba) dt) (-dirJac dir (gMatrix g (durOf stamps + dt) * T * (V * U)) L) *
        imuCov dir g T V (durOf stamps) cov *
        (withBias (imuNavJac tol g dir (gyro - bg) (accel - ba) dt) (-dirJac dir (gMatrix g (durOf stamps + dt) * T * (V * U)) L)).T +
      noiseJac (dirJac dir (gMatrix g (durOf stamps + dt) * T * (V * U)) L) dt * Q' *
        (noiseJac (dirJac dir (gMatrix g (durOf stamps + dt) * T * (V * U)) L) dt).T =
      imuCov dir g T (V * U) (durOf stamps + dt) (withBias (adjointIE3 (inverseIE3 U)) (-L) * cov *
        (withBias (adjointIE3 (inverseIE3 U)) (-L)).T + noiseJac L dt * Q' * (noiseJac L dt).T) := by
    cases dir
    · show withBias (adjointIE3 (inverseIE3 (uMatrix tol (gyro - bg) (accel - ba) dt))) (-L) * cov *
        (withBias (adjointIE3 (inverseIE3 (uMatrix tol (gyro - bg) (accel - ba) dt))) (-L)).T + _ = _
      rw [hUe]
      rfl
    · simp only [imuNavJac, dirJac, imuCov]
      have e1 : withBias (adjointIE3 (gMatrix g dt)) (-(se23Adjoint (gMatrix g (durOf stamps + dt) * T * (V * U)) * L)) *
          withBias (se23Adjoint (gMatrix g (durOf stamps) * T * V)) 0 =
          withBias (se23Adjoint (gMatrix g (durOf stamps + dt) * T * (V * U))) 0 * withBias (adjointIE3 (inverseIE3 U)) (-L) := by
        rw [withBias_mul, withBias_mul, hadj, Matrix.mul_zero, Matrix.mul_neg, zero_add, add_zero]
      rw [← withBias_noiseJac]
      exact sandwich_left e1 _ _ _
  generalize hF : withBias (imuNavJac tol g dir (gyro - bg) (accel - ba) dt) (-dirJac dir (gMatrix g (durOf stamps + dt) * T * (V * U)) L) = F at *
  unfold imuSteps imuPre
  simp only [List.foldlM_cons, List.foldlM_nil]
  rw [hjac, ok_bindE, hcov, ok_bindE, heval, ok_bindE, hd]
  show Except.ok _ = Except.ok _
  congr 3
  rw [← hPhi, ← hC, Blk.T_mul]
  simp only [Matrix.mul_add, Matrix.add_mul, Matrix.mul_assoc, add_assoc]

theorem imuSteps_cons (tol : ℝ) (g : Vec 3) (Q : Blk 4 4) (s : ImuSt × Blk 5 5 × Blk 5 5) (i : ImuIn × ℝ) (l : List (ImuIn × ℝ)) :
    imuSteps tol g Q s (i :: l) = imuSteps tol g Q s [i] >>= fun s => imuSteps tol g Q s l := by
  unfold imuSteps
  rw [List.foldlM_cons, List.foldlM_cons]
  simp only [List.foldlM_nil, bind_pure]

/-- Readings without bias walk. -/
def NoWalk (l : List (ImuIn × ℝ)) : Prop := ∀ i ∈ l, ∃ gyro accel us, i.1 = mkImu gyro accel us (some 0) (some 0)

theorem imuAll (tol : ℝ) (g : Vec 3) (T : EPose) (Q : Blk 4 4) (hQ : Q.T = Q) (b : Vec 3 × Vec 3) (dir : Dir) (st : Option ℝ)
    (P : Blk 5 5) (l : List (ImuIn × ℝ)) (hl : NoWalk l) (r : ImuInc) (hr : IncOk g T Q b r)
    (hst : r.stamps = none → ∀ i ∈ l.head?, i.1.stamp.isSome) :
    ∃ r', r.incrementAll tol l = .ok r' ∧ IncOk g T Q b r' ∧ (r.stamps.isSome ∨ l ≠ [] → r'.stamps.isSome) ∧
      imuSteps tol g Q (imuPre dir st g T b P r) l = .ok (imuPre dir st g T b P r') := by
  induction l generalizing r with
  | nil => exact ⟨r, rfl, hr, by simp, rfl⟩
  | cons i l ih =>
    obtain ⟨⟨gyro, accel, us, hi⟩, hl2⟩ := List.forall_mem_cons.1 hl
    obtain ⟨u, dt⟩ := i
    simp only at hi
    subst hi
    obtain ⟨r1, h1, h2, h3, h4⟩ := imuStep tol g T Q hQ b dir st P r hr gyro accel us dt
      (fun h => hst h (mkImu gyro accel us (some 0) (some 0), dt) rfl)
    obtain ⟨r', k1, k2, k3, k4⟩ := ih hl2 r1 h2 (fun h => by simp [h] at h3)
    refine ⟨r', ?_, k2, fun _ => k3 (.inl h3), ?_⟩
    · show (r.increment tol (mkImu gyro accel us (some 0) (some 0)) dt >>= fun r1 => r1.incrementAll tol l) = _
      rw [h1]; exact k1
    · rw [imuSteps_cons, h4]; exact k4

theorem se23Exp_zero : se23Exp (fun _ => 0) = 1 := by
  have := se23Exp_trans 0 0
  rw [mkIE_one] at this
  rw [← this]
  congr 1
  funext i; fin_cases i <;> rfl

theorem se23LeftJac_zero : (se23LeftJac fun _ => 0) = (1 : Blk 3 3) := by
  have hb : (se23Ad fun _ => (0 : Vec 3)) = 0 := by
    ext1 i j
    fin_cases i <;> fin_cases j <;> simp [se23Ad, skew_zero]
  have : (se23Ad fun _ => (0 : Vec 3)).flat = 0 := by rw [hb]; rfl
  unfold se23LeftJac
  rw [this, phi_at_zero]
  ext i j p q
  have := congrFun (congrFun (Blk.flat_one (n := 3)) (i, p)) (j, q)
  simp [Blk.ofFlat]
  rw [← this]
  rfl

theorem upd_same {r : ImuInc} (h : r.newBias = r.bias) : r.upd = fun _ => 0 := by
  funext i
  simp [ImuInc.upd, Blk.act, h]

theorem se23Adjoint_one : se23Adjoint (1 : EPose) = 1 := by
  have h : IsSE23 (1 : EPose) := ⟨1, 0, 0, isRot_one, by rw [mkIE_one]⟩
  rw [se23Adjoint_eq h, (C60_adjoint_hom _ _ h.isIE h.isIE).2.1]

/-- What `PreintegratedIMUKinematics` computes from an increment whose bias is the bias of the state. -/
theorem preImu_eq (g : Vec 3) (T : EPose) (b : Vec 3 × Vec 3) (dir : Dir) (st : Option ℝ) (r : ImuInc) (hb : r.bias = b)
    (s : ℝ × ℝ) (hs : r.stamps = some s) :
    preImuEvaluate g ⟨T, some b, dir, st⟩ r = .ok ⟨gMatrix g (durOf r.stamps) * T * r.value0, some b, dir, st⟩ ∧
    preImuJacobian g ⟨T, some b, dir, st⟩ r = .ok (imuPhi dir g T r.value0 (durOf r.stamps) r.jac) ∧
    preImuCovariance g ⟨T, some b, dir, st⟩ r = .ok (imuCov dir g T r.value0 (durOf r.stamps) r.cov) := by
  obtain ⟨V, bias, nb, stamps, cov, jac, Q'⟩ := r
  simp only at hb hs
  subst hb hs
  obtain ⟨t0, t1⟩ := s
  have hu : (ImuInc.updateBias (ImuInc.copy ⟨V, bias, nb, some (t0, t1), cov, jac, Q'⟩) bias).upd = fun _ => 0 := upd_same rfl
  have hv : (ImuInc.updateBias (ImuInc.copy ⟨V, bias, nb, some (t0, t1), cov, jac, Q'⟩) bias).value = V := by
    unfold ImuInc.value
    rw [hu, se23Exp_zero, mul_one]
    rfl
  refine ⟨?_, ?_, ?_⟩
  · show Except.ok (ImuSt.mk (gMatrix g (t1 - t0) * T * (ImuInc.updateBias (ImuInc.copy _) bias).value) _ _ _) = _
    rw [hv]
    rfl
  · unfold preImuJacobian
    simp only
    rw [hu, hv]
    have h1 : se23RightJac (fun _ => 0) = 1 := by
      unfold se23RightJac
      simp only [neg_zero]
      exact se23LeftJac_zero
    rw [h1]
    cases dir
    · show Except.ok (withBias (adjointIE3 (inverseIE3 V)) (1 * jac)) = .ok (withBias _ _)
      rw [Matrix.one_mul]
    · show Except.ok (withBias (adjointIE3 (gMatrix g (t1 - t0))) (se23Adjoint (gMatrix g (t1 - t0) * T * V) * 1 * jac)) = .ok (withBias _ _)
      rw [Matrix.mul_one]
      rfl
  · unfold preImuCovariance
    simp only
    rw [hu, hv]
    simp only [neg_zero]
    rw [se23Exp_zero, se23Adjoint_one]
    cases dir
    · show Except.ok (withBias 1 0 * cov * Blk.T (withBias 1 0)) = .ok cov
      rw [withBias_one]
      have : Blk.T (1 : Blk 5 5) = 1 := by
        apply Blk.flat_inj
        rw [Blk.flat_T, Blk.flat_one, transpose_one]
      rw [this, Matrix.one_mul, Matrix.mul_one]
    · show Except.ok (withBias (se23Adjoint (gMatrix g (t1 - t0) * T * V) * 1) 0 * cov *
        Blk.T (withBias (se23Adjoint (gMatrix g (t1 - t0) * T * V) * 1) 0)) = _
      rw [Matrix.mul_one]
      rfl

/-- **C61, IMU.** Preintegrating a nonempty list of IMU readings (without bias walk, the first one stamped) and predicting with
the increment gives the same state as propagating reading by reading with `IMUKinematics`; the Jacobian is the product of
the Jacobians of the steps; and propagating a covariance `P` with it gives the covariance propagated step by step. For every
initial pose and bias, both perturbation directions, and every symmetric noise covariance. -/
theorem C61_imu (tol : ℝ) (g : Vec 3) (Q : Blk 4 4) (hQ : Q.T = Q) (T : EPose) (hT : IsSE23 T) (b : Vec 3 × Vec 3) (dir : Dir)
    (st : Option ℝ) (P : Blk 5 5) (l : List (ImuIn × ℝ)) (hne : l ≠ []) (hl : NoWalk l)
    (hst : ∀ i ∈ l.head?, i.1.stamp.isSome) :
    ∃ r0 r y F C, imuIncNew (.full Q) b.1 b.2 = .ok r0 ∧ r0.incrementAll tol l = .ok r ∧
      preImuEvaluate g ⟨T, some b, dir, st⟩ r = .ok y ∧ preImuJacobian g ⟨T, some b, dir, st⟩ r = .ok F ∧
      preImuCovariance g ⟨T, some b, dir, st⟩ r = .ok C ∧
      imuSteps tol g Q (⟨T, some b, dir, st⟩, 1, P) l = .ok (y, F, F * P * F.T + C) := by
  have h1 : IsIE (1 : EPose) := ⟨1, 0, 0, 0, isRot_one, by rw [mkIE_one]⟩
  have hT1 : gMatrix g 0 * T * 1 = T := by rw [(C60_gravity g 0 0).2.1, one_mul, mul_one]
  have hok : IncOk g T Q b (ImuInc.mk 1 b b none 0 0 Q) := ⟨rfl, rfl, rfl, h1, by
    show IsSE23 (gMatrix g 0 * T * 1)
    rw [hT1]; exact hT, by ext i j p q; rfl⟩
  obtain ⟨r, k1, k2, k3, k4⟩ := imuAll tol g T Q hQ b dir st P l hl _ hok (fun _ => hst)
  obtain ⟨s, hs⟩ := Option.isSome_iff_exists.1 (k3 (.inr hne))
  obtain ⟨e1, e2, e3⟩ := preImu_eq g T b dir st r k2.bias s hs
  refine ⟨_, r, _, _, _, rfl, k1, e1, e2, e3, ?_⟩
  have hPhi : imuPhi dir g T 1 0 0 = 1 := by
    cases dir
    · show withBias (adjointIE3 (inverseIE3 (1 : EPose))) 0 = 1
      rw [← h1.inv_eq, inv_one, (C60_adjoint_hom _ _ h1 h1).2.1, withBias_one]
    · show withBias (adjointIE3 (gMatrix g 0)) (se23Adjoint _ * 0) = 1
      rw [(C60_gravity g 0 0).2.1, (C60_adjoint_hom _ _ h1 h1).2.1, Matrix.mul_zero, withBias_one]
  have hC : imuCov dir g T 1 0 0 = 0 := by
    cases dir
    · rfl
    · show withBias _ 0 * (0 : Blk 5 5) * _ = 0
      rw [Matrix.mul_zero, Matrix.zero_mul]
  have h1T : Blk.T (1 : Blk 5 5) = 1 := by
    apply Blk.flat_inj
    rw [Blk.flat_T, Blk.flat_one, transpose_one]
  have hstart : imuPre dir st g T b P (ImuInc.mk 1 b b none 0 0 Q) = (⟨T, some b, dir, st⟩, 1, P) := by
    show (ImuSt.mk (gMatrix g 0 * T * 1) (some b) dir st, imuPhi dir g T 1 0 0, imuPhi dir g T 1 0 0 * P * (imuPhi dir g T 1 0 0).T +
      imuCov dir g T 1 0 0) = _
    rw [hT1, hPhi, hC, h1T, Matrix.one_mul, Matrix.mul_one, add_zero]
  rw [hstart] at k4
  exact k4

/-- The stamps of an increment after the readings: the stamp of the first, and the total duration later. -/
theorem C61_imu_stamps (tol : ℝ) (r r' : ImuInc) (t0 t1 : ℝ) (hs : r.stamps = some (t0, t1)) (l : List (ImuIn × ℝ))
    (h : r.incrementAll tol l = .ok r') : r'.stamps = some (t0, t1 + (l.map Prod.snd).sum) := by
  induction l generalizing r t1 with
  | nil =>
    injection h with h
    subst h
    simpa using hs
  | cons i l ih =>
    have h' : (r.increment tol i.1 i.2 >>= fun r1 => r1.incrementAll tol l) = .ok r' := h
    obtain ⟨r1, h1, h2⟩ := bind_ok h'
    have : r1.stamps = some (t0, t1 + i.2) := by
      unfold ImuInc.increment at h1
      obtain ⟨u, hu, h1⟩ := bind_ok h1
      rw [hs] at h1
      injection h1 with h1
      subst h1
      rfl
    rw [ih r1 (t1 + i.2) this h2]
    simp [add_assoc]

/-- The first reading sets the stamps. -/
theorem C61_imu_first_stamp (tol : ℝ) (r r' : ImuInc) (hs : r.stamps = none) (gyro accel : Vec 3) (t dt : ℝ) (wg wa : Vec 3)
    (h : r.increment tol (mkImu gyro accel (some t) (some wg) (some wa)) dt = .ok r') : r'.stamps = some (t, t + dt) := by
  unfold ImuInc.increment at h
  obtain ⟨u, hu, h⟩ := bind_ok h
  injection hu with hu
  subst hu
  rw [hs] at h
  injection h with h
  subst h
  rfl

/-- **C61, IMU refusals.** A 6-row covariance (documented as allowed) raises in the constructor, as does another size; an increment
which has seen no reading cannot be used; a reading without a stamp cannot be the first; a state without biases cannot be
propagated; `new` is a fresh increment with the OLD biases, whatever biases are given, and `copy` forgets an updated bias. -/
theorem C61_imu_refusals (tol : ℝ) (g : Vec 3) :
    (∀ Q bg ba, imuIncNew (.six Q) bg ba = .error .attributeError) ∧
    (∀ bg ba, imuIncNew .other bg ba = .error .valueError) ∧
    (∀ (Q : Blk 4 4) (b : Vec 3 × Vec 3) (r : ImuInc) (x : ImuSt), imuIncNew (.full Q) b.1 b.2 = .ok r → x.bias = some b → preImuEvaluate g x r = .error .typeError ∧
      preImuJacobian g x r = .error .typeError ∧ preImuCovariance g x r = .error .typeError) ∧
    (∀ (Q : Blk 4 4) (b : Vec 3 × Vec 3) (r : ImuInc) (gyro accel wg wa : Vec 3) (dt : ℝ), imuIncNew (.full Q) b.1 b.2 = .ok r →
      r.increment tol (mkImu gyro accel none (some wg) (some wa)) dt = .error .typeError) ∧
    (∀ (x : ImuSt) (r : ImuInc), x.bias = none → preImuEvaluate g x r = .error .attributeError ∧ preImuJacobian g x r = .error .attributeError ∧
      preImuCovariance g x r = .error .attributeError) ∧
    (∀ (r : ImuInc) nb gb ab, imuIncNew (.full r.Q) r.bias.1 r.bias.2 = .ok (r.new nb gb ab)) ∧ (∀ (r : ImuInc) b, (r.updateBias b).copy.newBias = r.bias) := by
  refine ⟨fun _ _ _ => rfl, fun _ _ => rfl, ?_, ?_, ?_, fun _ _ _ _ => rfl, fun _ _ => rfl⟩
  · intro Q b r x h hx
    injection h with h
    subst h
    unfold preImuEvaluate preImuJacobian preImuCovariance
    simp only [hx]
    exact ⟨rfl, rfl, rfl⟩
  · intro Q b r gyro accel wg wa dt h
    injection h with h
    subst h
    rfl
  · intro x r h
    unfold preImuEvaluate preImuJacobian preImuCovariance
    simp only [h]
    exact ⟨trivial, trivial, trivial⟩

/-- Two readings, a rotated initial pose: the hypotheses of `C61_imu` hold. -/
example : ∃ r0 r y F C, imuIncNew (.full 1) ![0, 0, 1] ![1, 0, 0] = .ok r0 ∧
    r0.incrementAll 1e-7 [(mkImu ![1, 2, 3] ![4, 5, 6] (some 10) (some 0) (some 0), 0.1),
      (mkImu ![1, 0, 3] ![4, 5, 0] none (some 0) (some 0), 0.2)] = .ok r ∧
    preImuEvaluate ![0, 0, -9.8] ⟨mkIE 1 ![1, 0, 0] ![0, 1, 0] 0, some (![0, 0, 1], ![1, 0, 0]), .left, none⟩ r = .ok y ∧
    preImuJacobian ![0, 0, -9.8] ⟨mkIE 1 ![1, 0, 0] ![0, 1, 0] 0, some (![0, 0, 1], ![1, 0, 0]), .left, none⟩ r = .ok F ∧
    preImuCovariance ![0, 0, -9.8] ⟨mkIE 1 ![1, 0, 0] ![0, 1, 0] 0, some (![0, 0, 1], ![1, 0, 0]), .left, none⟩ r = .ok C ∧
    imuSteps 1e-7 ![0, 0, -9.8] 1 (⟨mkIE 1 ![1, 0, 0] ![0, 1, 0] 0, some (![0, 0, 1], ![1, 0, 0]), .left, none⟩, 1, 1)
      [(mkImu ![1, 2, 3] ![4, 5, 6] (some 10) (some 0) (some 0), 0.1),
      (mkImu ![1, 0, 3] ![4, 5, 0] none (some 0) (some 0), 0.2)] = .ok (y, F, F * 1 * F.T + C) := by
  refine C61_imu 1e-7 _ 1 ?_ _ ⟨_, _, _, isRot_one, rfl⟩ (![0, 0, 1], ![1, 0, 0]) .left none 1 _ (by simp) ?_ (by simp [mkImu])
  · apply Blk.flat_inj
    rw [Blk.flat_T, Blk.flat_one, transpose_one]
  · intro i hi
    simp at hi
    rcases hi with rfl | rfl
    · exact ⟨_, _, _, rfl⟩
    · exact ⟨_, _, _, rfl⟩

/-- **C61, wheel odometry.** The group of a `WheelOdometryIncrement` is the one with as many degrees of freedom as the covariance has
rows: `SE3` for 6 × 6, `SE2` for 3 × 3; every other shape raises `ValueError`. -/
theorem C61_wheel (shape : List ℕ) :
    (wheelGroup shape = .ok .se3 ↔ shape = [Fintype.card (Fin 3 ⊕ Fin 3), Fintype.card (Fin 3 ⊕ Fin 3)]) ∧
    (wheelGroup shape = .ok .se2 ↔ shape = [Fintype.card (Fin 1 ⊕ Fin 2), Fintype.card (Fin 1 ⊕ Fin 2)]) ∧
    ∀ e, wheelGroup shape = .error e → e = .valueError := by
  simp only [Fintype.card_sum, Fintype.card_fin, Nat.reduceAdd]
  unfold wheelGroup
  by_cases h6 : shape = [6, 6]
  · subst h6; simp
  · by_cases h3 : shape = [3, 3]
    · subst h3; simp
    · simp [h6, h3]

end Verif
