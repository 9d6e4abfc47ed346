import Verif.Props.PreintImuJac

/-!
C82: correcting an IMU increment for a new bias, against preintegrating again with it.
-/

namespace Verif

open Matrix

set_option linter.unusedVariables false
set_option linter.unusedSectionVars false

theorem increment_ok {tol : ℝ} {r r' : ImuInc} {u : ImuIn} {dt : ℝ} (h : r.increment tol u dt = .ok r') :
    ∃ s cov, incStamps r.stamps u.stamp dt = .ok s ∧ r' = { r with
      value0 := r.value0 * uMatrix tol (u.gyro - r.bias.1) (u.accel - r.bias.2) dt
      stamps := some s
      cov := cov
      jac := adjointIE3 (inverseIE3 (uMatrix tol (u.gyro - r.bias.1) (u.accel - r.bias.2) dt)) * r.jac -
        lMatrix tol (u.gyro - r.bias.1) (u.accel - r.bias.2) dt } := by
  unfold ImuInc.increment at h
  obtain ⟨u', hu, h⟩ := bind_ok h
  obtain ⟨s, hs, h⟩ := bind_ok h
  obtain ⟨a, ha, hu⟩ := bind_ok hu
  obtain ⟨b, hb, hu⟩ := bind_ok hu
  injection hu with hu
  injection h with h
  subst hu h
  exact ⟨s, _, hs, rfl⟩

theorem se23Exp_trans_mul (a b c d : Vec 3) : se23Exp ![0, a, b] * se23Exp ![0, c, d] = se23Exp ![0, a + c, b + d] := by
  rw [se23Exp_trans, se23Exp_trans, se23Exp_trans, mkIE_mul]
  simp [add_comm]

theorem Blk.act_sub {m n : ℕ} (A B : Blk m n) (v : Fin n → Vec 3) : Blk.act (A - B) v = fun i => A.act v i - B.act v i := by
  funext i
  simp only [Blk.act, Matrix.sub_apply, sub_mulVec, Finset.sum_sub_distrib]

theorem Blk.act_second {m : ℕ} (A : Blk m 2) (δ : Vec 3) (i : Fin m) : A.act ![0, δ] i = A i 1 *ᵥ δ := by
  simp [Blk.act]

theorem preImuEvaluate_none (g : Vec 3) (T : EPose) (b : Vec 3 × Vec 3) (dir : Dir) (st : Option ℝ) (r : ImuInc)
    (hs : r.stamps = none) : preImuEvaluate g ⟨T, some b, dir, st⟩ r = .error .typeError := by
  obtain ⟨V, bias, nb, stamps, cov, jac, Q'⟩ := r
  simp only at hs
  subst hs
  rfl

/-- What relates the increments of the same readings with two accelerometer biases. -/
structure AccelRel (bg ba δ : Vec 3) (r r' : ImuInc) : Prop where
  bias : r.bias = (bg, ba)
  bias' : r'.bias = (bg, ba + δ)
  newBias' : r'.newBias = (bg, ba + δ)
  V : IsIE r.value0
  J : r.jac 0 1 = 0
  stamps : r'.stamps = r.stamps
  value : r'.value0 = r.value0 * se23Exp (r.jac.act ![0, δ])

theorem accelRel_step {tol : ℝ} {bg ba δ : Vec 3} {r r' r1 r1' : ImuInc} {u : ImuIn} {dt : ℝ} (h : AccelRel bg ba δ r r')
    (ht : NoFullTurn (u.gyro - bg) dt) (h1 : r.increment tol u dt = .ok r1) (h1' : r'.increment tol u dt = .ok r1') :
    AccelRel bg ba δ r1 r1' := by
  obtain ⟨b1, b2, b3, hV, hJ, hs, hv⟩ := h
  obtain ⟨s, c, hst, rfl⟩ := increment_ok h1
  obtain ⟨s', c', hst', rfl⟩ := increment_ok h1'
  rw [hs] at hst'
  have hss : s' = s := by
    rw [hst] at hst'
    injection hst' with hst'
    exact hst'.symm
  have hU := isIE_uMatrix tol (u.gyro - bg) (u.accel - ba) dt
  obtain ⟨l0, l1, l2⟩ := lMatrix_accel tol (u.gyro - bg) (u.accel - ba) dt ht
  have hU' : uMatrix tol (u.gyro - bg) (u.accel - (ba + δ)) dt = uMatrix tol (u.gyro - bg) (u.accel - ba) dt *
      se23Exp ![0, -(lMatrix tol (u.gyro - bg) (u.accel - ba) dt 1 1 *ᵥ δ), -(lMatrix tol (u.gyro - bg) (u.accel - ba) dt 2 1 *ᵥ δ)] := by
    rw [show u.accel - (ba + δ) = u.accel - ba + -δ by abel, uMatrix_accel tol _ _ _ _ ht, mulVec_neg, mulVec_neg]
  have hj : r.jac.act ![0, δ] = ![0, r.jac 1 1 *ᵥ δ, r.jac 2 1 *ᵥ δ] := act_accel _ hJ δ
  refine ⟨b1, b2, b3, ?_, ?_, ?_, ?_⟩
  · simp only [b1]
    exact hV.mul hU
  · simp only [b1, Matrix.sub_apply, l0, sub_zero, Matrix.mul_apply, Fin.sum_univ_three, hJ]
    simp [adjointIE3]
  · simp only [hss]
  · simp only [b1, b2]
    generalize hUe : uMatrix tol (u.gyro - bg) (u.accel - ba) dt = U at *
    generalize hLe : lMatrix tol (u.gyro - bg) (u.accel - ba) dt = L at *
    have hact : Blk.act (adjointIE3 (inverseIE3 U) * r.jac - L) ![0, δ] =
        ![0, (adjointIE3 (inverseIE3 U)).act (r.jac.act ![0, δ]) 1 + -(L 1 1 *ᵥ δ),
          (adjointIE3 (inverseIE3 U)).act (r.jac.act ![0, δ]) 2 + -(L 2 1 *ᵥ δ)] := by
      have e : Blk.act (adjointIE3 (inverseIE3 U) * r.jac - L) ![0, δ] =
          fun i => (adjointIE3 (inverseIE3 U)).act (r.jac.act ![0, δ]) i + -(L i 1 *ᵥ δ) := by
        rw [← Blk.act_mul, Blk.act_sub]
        funext i
        rw [Blk.act_second L, ← sub_eq_add_neg]
      rw [e]
      funext i
      fin_cases i
      · show (adjointIE3 (inverseIE3 U)).act (r.jac.act ![0, δ]) 0 + -(L 0 1 *ᵥ δ) = 0
        rw [l0, act_three, hj]
        simp [adjointIE3]
      · rfl
      · rfl
    have hfirst : (adjointIE3 (inverseIE3 U)).act (r.jac.act ![0, δ]) = ![0, (adjointIE3 (inverseIE3 U)).act (r.jac.act ![0, δ]) 1,
        (adjointIE3 (inverseIE3 U)).act (r.jac.act ![0, δ]) 2] := by
      funext i
      fin_cases i
      · show (adjointIE3 (inverseIE3 U)).act (r.jac.act ![0, δ]) 0 = 0
        rw [act_three, hj]
        simp [adjointIE3]
      · rfl
      · rfl
    rw [hact, ← se23Exp_trans_mul, ← hfirst, hU', hv, mul_assoc r.value0, ← mul_assoc (se23Exp _) U, se23Exp_mul_right U hU]
    simp only [mul_assoc]

theorem accelRel_all {tol : ℝ} {bg ba δ : Vec 3} {r r' r1 r1' : ImuInc} (l : List (ImuIn × ℝ))
    (ht : ∀ i ∈ l, NoFullTurn (i.1.gyro - bg) i.2) (h : AccelRel bg ba δ r r') (h1 : r.incrementAll tol l = .ok r1)
    (h1' : r'.incrementAll tol l = .ok r1') : AccelRel bg ba δ r1 r1' := by
  induction l generalizing r r' with
  | nil =>
    injection h1 with h1
    injection h1' with h1'
    subst h1 h1'
    exact h
  | cons i l ih =>
    have k1 : (r.increment tol i.1 i.2 >>= fun r1 => r1.incrementAll tol l) = .ok r1 := h1
    have k2 : (r'.increment tol i.1 i.2 >>= fun r1 => r1.incrementAll tol l) = .ok r1' := h1'
    obtain ⟨ra, ha, k1⟩ := bind_ok k1
    obtain ⟨rb, hb, k2⟩ := bind_ok k2
    exact ih (fun j hj => ht j (by simp [hj])) (accelRel_step h (ht i (by simp)) ha hb) k1 k2

/-- **C82, accelerometer bias.** Correcting an increment for a new accelerometer bias gives *exactly* the value obtained by
preintegrating the readings again with the new bias, whatever the size of the change; so predictions with the corrected increment
are those of step by step propagation with the new bias (`C61_imu`). For readings which do not turn by a nonzero multiple of a full
turn in one step. -/
theorem C82_accel (tol : ℝ) (Q : Blk 4 4) (bg ba δ : Vec 3) (l : List (ImuIn × ℝ)) (ht : ∀ i ∈ l, NoFullTurn (i.1.gyro - bg) i.2)
    (r0 r0' r r' : ImuInc) (h0 : imuIncNew (.full Q) bg ba = .ok r0) (h0' : imuIncNew (.full Q) bg (ba + δ) = .ok r0')
    (h : r0.incrementAll tol l = .ok r) (h' : r0'.incrementAll tol l = .ok r') :
    (r.updateBias (bg, ba + δ)).value = r'.value ∧
    ∀ (g : Vec 3) (T : EPose) (dir : Dir) (st : Option ℝ),
      preImuEvaluate g ⟨T, some (bg, ba + δ), dir, st⟩ r = preImuEvaluate g ⟨T, some (bg, ba + δ), dir, st⟩ r' := by
  have h0 : r0 = ⟨1, (bg, ba), (bg, ba), none, 0, 0, Q⟩ := by
    injection h0 with h0
    exact h0.symm
  have h0' : r0' = ⟨1, (bg, ba + δ), (bg, ba + δ), none, 0, 0, Q⟩ := by
    injection h0' with h0'
    exact h0'.symm
  rw [h0] at h
  rw [h0'] at h'
  have hz : (0 : Blk 3 2).act ![0, δ] = fun _ => 0 := by funext i; simp [Blk.act]
  obtain ⟨b1, b2, b3, hV, hJ, hs, hv⟩ := accelRel_all l ht (r := ⟨1, (bg, ba), (bg, ba), none, 0, 0, Q⟩)
    (r' := ⟨1, (bg, ba + δ), (bg, ba + δ), none, 0, 0, Q⟩)
    ⟨rfl, rfl, rfl, ⟨1, 0, 0, 0, isRot_one, by rw [mkIE_one]⟩, rfl, rfl, by simp only; rw [hz, se23Exp_zero, mul_one]⟩ h h'
  have e1 : (r.updateBias (bg, ba + δ)).value = r.value0 * se23Exp (r.jac.act ![0, δ]) := by
    show r.value0 * se23Exp (r.jac.act ![bg - r.bias.1, ba + δ - r.bias.2]) = _
    rw [b1]
    simp
  have e2 : r'.value = r'.value0 := by
    unfold ImuInc.value
    rw [upd_same (by rw [b3, b2]), se23Exp_zero, mul_one]
  refine ⟨by rw [e1, e2, hv], ?_⟩
  intro g T dir st
  rcases hst : r.stamps with _ | s
  · rw [preImuEvaluate_none _ _ _ _ _ _ hst, preImuEvaluate_none _ _ _ _ _ _ (by rw [hs, hst])]
  · rw [preImuEvaluate_ok g T _ dir st r s hst, preImuEvaluate_ok g T _ dir st r' s (by rw [hs, hst]), hs, hv, b1, b2]
    have hz2 : r'.jac.act ![0, 0] = fun _ => 0 := by funext i; simp [Blk.act]
    simp only [sub_self, add_sub_cancel_left]
    rw [hz2, se23Exp_zero, mul_one]

/-! ### Gyroscope -/

/-- Attitude and velocity of an element of the group. -/
def lowPart (X : EPose) : EPose := mkIE X.rot X.colA 0 0

theorem lowPart_mul {X Y : EPose} (hX : IsIE X) (hY : IsIE Y) : lowPart (X * Y) = lowPart X * lowPart Y := by
  obtain ⟨R, a, b, c, h, rfl⟩ := hX
  obtain ⟨S, a', b', c', h', rfl⟩ := hY
  unfold lowPart
  rw [mkIE_mul, mkIE_mul]
  simp [mkIE_rot, mkIE_colA]

theorem lowPart_isIE {X : EPose} (hX : IsIE X) : IsIE (lowPart X) := by
  obtain ⟨R, a, b, c, h, rfl⟩ := hX
  exact ⟨R, a, 0, 0, h, rfl⟩

theorem lowPart_adj {U : EPose} (hU : IsIE U) (η : Fin 3 → Vec 3) :
    (adjointIE3 (inverseIE3 (lowPart U))).act ![η 0, η 1, 0] =
      ![(adjointIE3 (inverseIE3 U)).act η 0, (adjointIE3 (inverseIE3 U)).act η 1, 0] := by
  obtain ⟨R, a, b, c, h, rfl⟩ := hU
  funext i
  fin_cases i
  · simp [act_three, adjointIE3, inverseIE3, lowPart, mkIE_rot, mkIE_colA, mkIE_colB, mkIE_time]
  · simp [act_three, adjointIE3, inverseIE3, lowPart, mkIE_rot, mkIE_colA, mkIE_colB, mkIE_time]
  · simp [act_three, adjointIE3, inverseIE3, lowPart, mkIE_rot, mkIE_colA, mkIE_colB, mkIE_time, skew_zero]

theorem hasMatDeriv_low {f : ℝ → EPose} {X : EPose} {ξ : Fin 3 → Vec 3} (hX : IsIE X)
    (h1 : ∀ i j, HasDerivAt (fun s => (f s).rot i j) (EPose.rot (X * se23Wedge ξ) i j) 0)
    (h2 : ∀ i, HasDerivAt (fun s => (f s).colA i) (EPose.colA (X * se23Wedge ξ) i) 0) :
    HasMatDeriv (fun s => lowPart (f s)) (lowPart X * se23Wedge ![ξ 0, ξ 1, 0]) 0 := by
  have hw : lowPart X * se23Wedge ![ξ 0, ξ 1, 0] = fromBlocks (X.rot * skew (ξ 0)) (cols (X.rot *ᵥ ξ 1) 0) 0 0 := by
    rw [se23Wedge_eq]
    unfold lowPart
    rw [mkIE_mul_wedge]
    simp
  rw [(mul_wedge_low hX ξ).1] at h1
  rw [(mul_wedge_low hX ξ).2.1] at h2
  rw [hw]
  intro i j
  rcases i with i | i <;> rcases j with j | j
  · exact h1 i j
  · fin_cases j
    · exact h2 i
    · exact hasDerivAt_const _ _
  · exact hasDerivAt_const _ _
  · exact hasDerivAt_const _ _

/-- What relates the increments of the same readings with gyroscope biases on a line. -/
structure GyroRel (bg ba δ : Vec 3) (r : ImuInc) (R : ℝ → ImuInc) : Prop where
  bias : r.bias = (bg, ba)
  bias' : ∀ s, (R s).bias = (bg + s • δ, ba)
  newBias' : ∀ s, (R s).newBias = (bg + s • δ, ba)
  V : IsIE r.value0
  V' : ∀ s, IsIE (R s).value0
  zero : (R 0).value0 = r.value0
  deriv : HasMatDeriv (fun s => lowPart (R s).value0)
    (lowPart r.value0 * se23Wedge ![r.jac.act ![δ, 0] 0, r.jac.act ![δ, 0] 1, 0]) 0

theorem gyroRel_step {tol : ℝ} {bg ba δ : Vec 3} {r r1 : ImuInc} {R R1 : ℝ → ImuInc} {u : ImuIn} {dt : ℝ} (h : GyroRel bg ba δ r R)
    (h1 : r.increment tol u dt = .ok r1) (h1' : ∀ s, (R s).increment tol u dt = .ok (R1 s)) : GyroRel bg ba δ r1 R1 := by
  obtain ⟨b1, b2, b3, hV, hV', hz, hd⟩ := h
  obtain ⟨t, c, hst, rfl⟩ := increment_ok h1
  have hR1 : ∀ s, ∃ t c, R1 s = { R s with
      value0 := (R s).value0 * uMatrix tol (u.gyro - bg + s • -δ) (u.accel - ba) dt
      stamps := some t
      cov := c
      jac := adjointIE3 (inverseIE3 (uMatrix tol (u.gyro - bg + s • -δ) (u.accel - ba) dt)) * (R s).jac -
        lMatrix tol (u.gyro - bg + s • -δ) (u.accel - ba) dt } := by
    intro s
    obtain ⟨t', c', _, h⟩ := increment_ok (h1' s)
    have e : u.gyro - (R s).bias.1 = u.gyro - bg + s • -δ := by rw [b2 s, smul_neg]; simp only; abel
    have e2 : u.accel - (R s).bias.2 = u.accel - ba := by rw [b2 s]
    rw [e, e2] at h
    exact ⟨t', c', h⟩
  have hval : ∀ s, (R1 s).value0 = (R s).value0 * uMatrix tol (u.gyro - bg + s • -δ) (u.accel - ba) dt := by
    intro s
    obtain ⟨t', c', h⟩ := hR1 s
    rw [h]
  have hU := isIE_uMatrix tol (u.gyro - bg) (u.accel - ba) dt
  have h1 : IsIE (1 : EPose) := ⟨1, 0, 0, 0, isRot_one, by rw [mkIE_one]⟩
  have hg := gyro_low tol (u.gyro - bg) (u.accel - ba) (-δ) dt 1 h1
  simp only [one_mul] at hg
  have hdU := hasMatDeriv_low hU hg.1 hg.2
  refine ⟨b1, ?_, ?_, ?_, ?_, ?_, ?_⟩
  · intro s
    obtain ⟨t', c', h⟩ := hR1 s
    rw [h]
    exact b2 s
  · intro s
    obtain ⟨t', c', h⟩ := hR1 s
    rw [h]
    exact b3 s
  · simp only [b1]
    exact hV.mul hU
  · intro s
    rw [hval]
    exact (hV' s).mul (isIE_uMatrix _ _ _ _)
  · rw [hval, hz, zero_smul, add_zero]
    simp only [b1]
  · have hlow : ∀ s, lowPart (R1 s).value0 = lowPart (R s).value0 * lowPart (uMatrix tol (u.gyro - bg + s • -δ) (u.accel - ba) dt) := by
      intro s
      rw [hval, lowPart_mul (hV' s) (isIE_uMatrix _ _ _ _)]
    simp only [hlow, b1]
    refine (hd.mul hdU).congr_deriv ?_
    simp only [hz, zero_smul, add_zero]
    rw [lowPart_mul hV hU]
    generalize hUe : uMatrix tol (u.gyro - bg) (u.accel - ba) dt = U at *
    generalize hLe : lMatrix tol (u.gyro - bg) (u.accel - ba) dt = L at *
    have hLU := lowPart_isIE hU
    have e : (![Blk.act (adjointIE3 (inverseIE3 U) * r.jac - L) ![δ, 0] 0, Blk.act (adjointIE3 (inverseIE3 U) * r.jac - L) ![δ, 0] 1, 0] :
        Fin 3 → Vec 3) = fun i => (adjointIE3 (inverseIE3 (lowPart U))).act ![r.jac.act ![δ, 0] 0, r.jac.act ![δ, 0] 1, 0] i +
          (![L.act ![-δ, 0] 0, L.act ![-δ, 0] 1, 0] : Fin 3 → Vec 3) i := by
      have hneg : ∀ i, L.act ![-δ, 0] i = -L.act ![δ, 0] i := by
        intro i
        simp [Blk.act, mulVec_neg]
      rw [lowPart_adj hU, Blk.act_sub, Blk.act_mul, hneg, hneg]
      funext i
      fin_cases i
      · exact sub_eq_add_neg _ _
      · exact sub_eq_add_neg _ _
      · simp
    rw [e, se23Wedge_add, ← C60_adjoint _ hLU.inv, hLU.inv_inv, mul_add]
    congr 1
    · rw [mul_assoc, mul_assoc, ← mul_assoc (lowPart U), ← mul_assoc (lowPart U), hLU.mul_inv, one_mul]
    · rw [mul_assoc]

theorem gyroRel_all {tol : ℝ} {bg ba δ : Vec 3} {r r1 : ImuInc} {R R1 : ℝ → ImuInc} (l : List (ImuIn × ℝ))
    (h : GyroRel bg ba δ r R) (h1 : r.incrementAll tol l = .ok r1) (h1' : ∀ s, (R s).incrementAll tol l = .ok (R1 s)) :
    GyroRel bg ba δ r1 R1 := by
  induction l generalizing r R with
  | nil =>
    injection h1 with h1
    subst h1
    have : R1 = R := by
      funext s
      have := h1' s
      injection this with this
      exact this.symm
    rw [this]
    exact h
  | cons i l ih =>
    have k1 : (r.increment tol i.1 i.2 >>= fun r1 => r1.incrementAll tol l) = .ok r1 := h1
    have k2 : ∀ s, ((R s).increment tol i.1 i.2 >>= fun r1 => r1.incrementAll tol l) = .ok (R1 s) := h1'
    obtain ⟨ra, ha, k1⟩ := bind_ok k1
    have k3 : ∀ s, ∃ rb, (R s).increment tol i.1 i.2 = .ok rb ∧ rb.incrementAll tol l = .ok (R1 s) := fun s => bind_ok (k2 s)
    choose Rb hb k3 using k3
    exact ih (gyroRel_step h ha hb) k1 k3

/-- **C82, gyroscope bias: attitude and velocity.** Correcting an increment for a new gyroscope bias agrees to first order with
preintegrating the readings again with the new bias, in the attitude and velocity of the increment. The position is not right,
see `C82_gyro_position_wrong`. -/
theorem C82_gyro (tol : ℝ) (Q : Blk 4 4) (bg ba δ : Vec 3) (l : List (ImuIn × ℝ)) (r0 r : ImuInc)
    (h0 : imuIncNew (.full Q) bg ba = .ok r0) (h : r0.incrementAll tol l = .ok r) (R0 R : ℝ → ImuInc)
    (h0' : ∀ s, imuIncNew (.full Q) (bg + s • δ) ba = .ok (R0 s)) (h' : ∀ s, (R0 s).incrementAll tol l = .ok (R s)) :
    (R 0).value = (r.updateBias (bg + (0 : ℝ) • δ, ba)).value ∧
    (∀ i j, ∃ d, HasDerivAt (fun s => (R s).value.rot i j) d 0 ∧
      HasDerivAt (fun s : ℝ => (r.updateBias (bg + s • δ, ba)).value.rot i j) d 0) ∧
    (∀ i, ∃ d, HasDerivAt (fun s => (R s).value.colA i) d 0 ∧
      HasDerivAt (fun s : ℝ => (r.updateBias (bg + s • δ, ba)).value.colA i) d 0) := by
  have e0 : r0 = ⟨1, (bg, ba), (bg, ba), none, 0, 0, Q⟩ := by
    injection h0 with h0
    exact h0.symm
  have e0' : ∀ s, R0 s = ⟨1, (bg + s • δ, ba), (bg + s • δ, ba), none, 0, 0, Q⟩ := by
    intro s
    have := h0' s
    injection this with this
    exact this.symm
  have h1 : IsIE (1 : EPose) := ⟨1, 0, 0, 0, isRot_one, by rw [mkIE_one]⟩
  have hz : (0 : Blk 3 2).act ![δ, 0] = fun _ => 0 := by funext i; simp [Blk.act]
  have hrel : GyroRel bg ba δ r0 R0 := by
    refine ⟨by rw [e0], fun s => by rw [e0'], fun s => by rw [e0'], by rw [e0]; exact h1, fun s => by rw [e0']; exact h1,
      by rw [e0', e0], ?_⟩
    simp only [e0, e0', hz]
    refine (hasMatDeriv_const (lowPart 1) 0).congr_deriv ?_
    have : se23Wedge ![0, 0, 0] = 0 := by
      rw [se23Wedge_eq]
      simp [skew_zero, cols_zero]
    rw [this, mul_zero]
  obtain ⟨b1, b2, b3, hV, hV', hz0, hd⟩ := gyroRel_all l hrel h h'
  have hval : ∀ s, (R s).value = (R s).value0 := by
    intro s
    unfold ImuInc.value
    rw [upd_same (by rw [b3, b2]), se23Exp_zero, mul_one]
  have hcor : ∀ s : ℝ, (r.updateBias (bg + s • δ, ba)).value = r.value0 * se23Exp fun i => s • r.jac.act ![δ, 0] i := by
    intro s
    show r.value0 * se23Exp (r.jac.act ![bg + s • δ - r.bias.1, ba - r.bias.2]) = _
    rw [b1, ← Blk.act_smul]
    congr 3
    funext i
    fin_cases i <;> simp
  have hdc : HasMatDeriv (fun s : ℝ => (r.updateBias (bg + s • δ, ba)).value) (r.value0 * se23Wedge (r.jac.act ![δ, 0])) 0 := by
    simp only [hcor]
    exact tangent_plus .right r.value0 (r.jac.act ![δ, 0])
  have hw : lowPart r.value0 * se23Wedge ![r.jac.act ![δ, 0] 0, r.jac.act ![δ, 0] 1, 0] =
      fromBlocks (r.value0.rot * skew (r.jac.act ![δ, 0] 0)) (cols (r.value0.rot *ᵥ r.jac.act ![δ, 0] 1) 0) 0 0 := by
    rw [se23Wedge_eq]
    unfold lowPart
    rw [mkIE_mul_wedge]
    simp
  rw [hw] at hd
  obtain ⟨w1, w2, -⟩ := mul_wedge_low hV (r.jac.act ![δ, 0])
  refine ⟨?_, ?_, ?_⟩
  · rw [hval, hz0, hcor]
    simp only [zero_smul]
    rw [se23Exp_zero, mul_one]
  · intro i j
    refine ⟨_, ?_, hdc (.inl i) (.inl j)⟩
    simp only [hval]
    have := hd (.inl i) (.inl j)
    refine this.congr_deriv ?_
    exact (congrFun (congrFun w1 i) j).symm
  · intro i
    refine ⟨_, ?_, hdc (.inl i) (.inr 0)⟩
    simp only [hval]
    have := hd (.inl i) (.inr 0)
    refine this.congr_deriv ?_
    exact (congrFun w2 i).symm

/-- **C82, gyroscope bias: position.** For a single reading at rest (rate equal to the bias, specific force `a` after
removing the accelerometer bias), the corrected position of the increment moves by `(5/24) dt³ [a]× δ`, while preintegrating again
with the new bias does not move it at all, to first order. -/
theorem C82_gyro_position_wrong (tol : ℝ) (htol : 0 < tol) (Q : Blk 4 4) (bg ba a δ : Vec 3) (t dt : ℝ) (r0 r : ImuInc)
    (h0 : imuIncNew (.full Q) bg ba = .ok r0) (h : r0.increment tol (mkImu bg (ba + a) (some t) (some 0) (some 0)) dt = .ok r)
    (R0 R : ℝ → ImuInc) (h0' : ∀ s, imuIncNew (.full Q) (bg + s • δ) ba = .ok (R0 s))
    (h' : ∀ s, (R0 s).increment tol (mkImu bg (ba + a) (some t) (some 0) (some 0)) dt = .ok (R s)) :
    (∀ i, HasDerivAt (fun s => (R s).value.colB i) 0 0) ∧
    (∀ i, HasDerivAt (fun s : ℝ => (r.updateBias (bg + s • δ, ba)).value.colB i) ((((5 / 24) * dt ^ 3) • (skew a *ᵥ δ)) i) 0) := by
  have e0 : r0 = ⟨1, (bg, ba), (bg, ba), none, 0, 0, Q⟩ := by
    injection h0 with h0
    exact h0.symm
  have e0' : ∀ s, R0 s = ⟨1, (bg + s • δ, ba), (bg + s • δ, ba), none, 0, 0, Q⟩ := by
    intro s
    have := h0' s
    injection this with this
    exact this.symm
  constructor
  · intro i
    have hval : ∀ s : ℝ, (R s).value = uMatrix tol (bg - (bg + s • δ)) (ba + a - ba) dt := by
      intro s
      obtain ⟨t', c', _, hs⟩ := increment_ok (h' s)
      rw [e0' s] at hs
      rw [hs]
      unfold ImuInc.value
      rw [upd_same rfl, se23Exp_zero, mul_one, one_mul]
      rfl
    have hc : Continuous fun s : ℝ => npNorm (dt • (bg - (bg + s • δ))) := by
      unfold npNorm
      refine Real.continuous_sqrt.comp ?_
      refine continuous_finsetSum _ fun k _ => ?_
      simp only [Pi.smul_apply, Pi.sub_apply, Pi.add_apply, smul_eq_mul]
      fun_prop
    have hev : ∀ᶠ s in nhds (0 : ℝ), npNorm (dt • (bg - (bg + s • δ))) < tol := by
      refine (hc.tendsto 0).eventually_lt_const ?_
      simpa [npNorm] using htol
    refine (hasDerivAt_const (0 : ℝ) (((dt ^ 2 / 2) • a) i)).congr_of_eventuallyEq ?_
    filter_upwards [hev] with s hs
    refine (congrArg (fun X : EPose => X.colB i) (hval s)).trans ?_
    unfold uMatrix
    simp only
    rw [mkIE_colB]
    unfold nMatrix
    rw [if_pos hs]
    simp [smul_mulVec]
  · intro i
    have hcor : ∀ s : ℝ, (r.updateBias (bg + s • δ, ba)).value =
        uMatrix tol 0 a dt * se23Exp fun i => s • Blk.act (-lMatrix tol 0 a dt) ![δ, 0] i := by
      intro s
      obtain ⟨t', c', _, hs⟩ := increment_ok h
      rw [e0] at hs
      rw [hs]
      show (1 * uMatrix tol (bg - bg) (ba + a - ba) dt) * se23Exp (Blk.act (_ * (0 : Blk 3 2) - lMatrix tol (bg - bg) (ba + a - ba) dt)
        ![bg + s • δ - bg, ba - ba]) = _
      simp only [sub_self, add_sub_cancel_left]
      rw [Matrix.mul_zero, zero_sub, ← Blk.act_smul, one_mul]
      congr 3
      funext i
      fin_cases i <;> simp
    have hd := tangent_plus .right (uMatrix tol 0 a dt) (Blk.act (-lMatrix tol 0 a dt) ![δ, 0])
    have h2 := hd (.inl i) (.inr 1)
    refine (h2.congr_deriv ?_).congr_of_eventuallyEq (Filter.Eventually.of_forall fun s => congrArg (fun X : EPose => X.colB i) (hcor s))
    refine (congrFun (mul_wedge_low (isIE_uMatrix tol 0 a dt) _).2.2 i).trans ?_
    have hrot : (uMatrix tol 0 a dt).rot = 1 := by
      unfold uMatrix
      simp only
      rw [mkIE_rot, smul_zero]
      simp [so3Exp, skew_zero, NormedSpace.exp_zero]
    rw [hrot, one_mulVec, Blk.act_neg]
    show (-(Blk.act (lMatrix tol 0 a dt) ![δ, 0] 2)) i = _
    have : Blk.act (lMatrix tol 0 a dt) ![δ, 0] 2 = lMatrix tol 0 a dt 2 0 *ᵥ δ := by simp [Blk.act]
    rw [this, lMatrix_rest tol htol, smul_mulVec]
    simp

/-- The hypotheses of `C82_gyro_position_wrong` hold for all values, and the two derivatives differ, for example here. -/
example (tol : ℝ) (Q : Blk 4 4) (bg ba a δ : Vec 3) (t dt : ℝ) : ∃ (r0 r : ImuInc) (R0 R : ℝ → ImuInc),
    imuIncNew (.full Q) bg ba = .ok r0 ∧ r0.increment tol (mkImu bg (ba + a) (some t) (some 0) (some 0)) dt = .ok r ∧
      (∀ s, imuIncNew (.full Q) (bg + s • δ) ba = .ok (R0 s)) ∧
      ∀ s, (R0 s).increment tol (mkImu bg (ba + a) (some t) (some 0) (some 0)) dt = .ok (R s) :=
  ⟨_, _, _, _, rfl, rfl, fun _ => rfl, fun _ => rfl⟩

example : (((5 / 24) * (1 : ℝ) ^ 3) • (skew ![0, 0, 1] *ᵥ ![1, 0, 0])) 1 ≠ 0 := by
  simp [skew, mulVec, dotProduct, Fin.sum_univ_three]

/-- A turning reading which meets the hypothesis of `C82_accel`. -/
example : NoFullTurn ![0, 0, 1] 1 := by
  right
  have : npNorm ((1 : ℝ) • (![0, 0, 1] : Vec 3)) = 1 := by simp [npNorm]
  rw [this]
  exact ne_of_lt (lt_of_le_of_lt Real.cos_one_le (by norm_num))

end Verif
