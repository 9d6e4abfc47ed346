import Verif.Props.PreintImu

/-!
C81: the Jacobian and noise matrix of the preintegrated IMU model. C82: bias correction of an IMU increment.
-/

namespace Verif

open Matrix

set_option linter.unusedVariables false
set_option linter.unusedSectionVars false

/-- The value of an increment is an element of the group whose time entry is the duration. -/
def IncForm (r : ImuInc) : Prop := ∃ R a b, IsRot R ∧ r.value0 = mkIE R a b (durOf r.stamps)

theorem IncForm.isIE {r : ImuInc} (h : IncForm r) : IsIE r.value0 := by
  obtain ⟨R, a, b, hR, h⟩ := h
  exact ⟨R, a, b, _, hR, h⟩

theorem IncForm.pose {r : ImuInc} (h : IncForm r) (g : Vec 3) (T : EPose) (hT : IsSE23 T) :
    IsSE23 (gMatrix g (durOf r.stamps) * T * r.value0) := by
  obtain ⟨R, a, b, hR, h⟩ := h
  obtain ⟨C, v, p, hC, rfl⟩ := hT
  rw [h]
  unfold gMatrix
  rw [mkIE_mul, mkIE_mul, show -durOf r.stamps + 0 + durOf r.stamps = 0 by ring]
  exact ⟨_, _, _, (isRot_one.mul hC).mul hR, rfl⟩

theorem incForm_step {tol : ℝ} {r r' : ImuInc} {u : ImuIn} {dt : ℝ} (hr : IncForm r) (h : r.increment tol u dt = .ok r') :
    IncForm r' ∧ r'.stamps.isSome := by
  unfold ImuInc.increment at h
  obtain ⟨u', hu, h⟩ := bind_ok h
  obtain ⟨s, hs, h⟩ := bind_ok h
  injection h with h
  subst h
  refine ⟨?_, rfl⟩
  obtain ⟨R, a, b, hR, hv⟩ := hr
  unfold IncForm
  simp only
  rw [hv, durOf_step hs]
  unfold uMatrix
  simp only
  rw [mkIE_mul]
  exact ⟨_, _, _, hR.mul (so3Exp_isRot _), rfl⟩

theorem incForm_all {tol : ℝ} {r r' : ImuInc} (hr : IncForm r) (l : List (ImuIn × ℝ)) (h : r.incrementAll tol l = .ok r') :
    IncForm r' ∧ (l ≠ [] → r'.stamps.isSome) := by
  induction l generalizing r with
  | nil =>
    injection h with h
    subst h
    exact ⟨hr, by simp⟩
  | cons i l ih =>
    have h' : (r.increment tol i.1 i.2 >>= fun r1 => r1.incrementAll tol l) = .ok r' := h
    obtain ⟨r1, h1, h2⟩ := bind_ok h'
    obtain ⟨k1, k2⟩ := incForm_step hr h1
    obtain ⟨k3, k4⟩ := ih k1 h2
    refine ⟨k3, fun _ => ?_⟩
    cases l with
    | nil =>
      injection h2 with h2
      subst h2
      exact k2
    | cons j l => exact k4 (by simp)

/-- Reachable increments: constructed, then fed with at least one reading. -/
def Reached (tol : ℝ) (r : ImuInc) : Prop :=
  ∃ Q bg ba r0 l, imuIncNew Q bg ba = .ok r0 ∧ l ≠ [] ∧ r0.incrementAll tol l = .ok r

theorem Reached.form {tol : ℝ} {r : ImuInc} (h : Reached tol r) : IncForm r ∧ ∃ s, r.stamps = some s := by
  obtain ⟨Q, bg, ba, r0, l, h0, hl, h⟩ := h
  have hf : IncForm r0 := by
    cases Q with
    | full Q =>
      injection h0 with h0
      subst h0
      exact ⟨1, 0, 0, isRot_one, by rw [← mkIE_one]; rfl⟩
    | six Q => cases h0
    | other => cases h0
  obtain ⟨k1, k2⟩ := incForm_all hf l h
  exact ⟨k1, Option.isSome_iff_exists.1 (k2 hl)⟩

theorem withBias_act (A : Blk 3 3) (B : Blk 3 2) (dx : Fin 5 → Vec 3) :
    (withBias A B).act dx = ![A.act ![dx 0, dx 1, dx 2] 0 + B.act ![dx 3, dx 4] 0, A.act ![dx 0, dx 1, dx 2] 1 + B.act ![dx 3, dx 4] 1,
      A.act ![dx 0, dx 1, dx 2] 2 + B.act ![dx 3, dx 4] 2, dx 3, dx 4] := by
  funext i
  fin_cases i <;> simp [Blk.act, withBias, Fin.sum_univ_succ] <;> abel

theorem Blk.act_add {m n : ℕ} (B : Blk m n) (v w : Fin n → Vec 3) : (B.act fun i => v i + w i) = fun i => B.act v i + B.act w i := by
  funext i
  simp [Blk.act, mulVec_add, Finset.sum_add_distrib]

theorem Blk.act_smul {m n : ℕ} (B : Blk m n) (s : ℝ) (v : Fin n → Vec 3) : (B.act fun i => s • v i) = fun i => s • B.act v i := by
  funext i
  simp [Blk.act, mulVec_smul, Finset.smul_sum]

theorem se23Wedge_add (ξ ζ : Fin 3 → Vec 3) : (se23Wedge fun i => ξ i + ζ i) = se23Wedge ξ + se23Wedge ζ :=
  se23WedgeL.map_add (fun k => ξ k.1 k.2) (fun k => ζ k.1 k.2)

theorem plus_pose (T : EPose) (bg ba : Vec 3) (dir : Dir) (st : Option ℝ) (dx : Fin 5 → Vec 3) :
    ImuSt.plus ⟨T, some (bg, ba), dir, st⟩ dx = ⟨posePlus dir T ![dx 0, dx 1, dx 2], some (bg + dx 3, ba + dx 4), dir, st⟩ := by
  have h := plus_bias T bg ba (dx 3) (dx 4) dir st ![dx 0, dx 1, dx 2]
  have e : ![(![dx 0, dx 1, dx 2] : Fin 3 → Vec 3) 0, (![dx 0, dx 1, dx 2] : Fin 3 → Vec 3) 1,
      (![dx 0, dx 1, dx 2] : Fin 3 → Vec 3) 2, dx 3, dx 4] = dx := by
    funext i; fin_cases i <;> rfl
  rw [e] at h
  exact h

/-- `evaluate`, read from the parts of the increment. -/
theorem preImuEvaluate_ok (g : Vec 3) (T : EPose) (b : Vec 3 × Vec 3) (dir : Dir) (st : Option ℝ) (r : ImuInc) (s : ℝ × ℝ)
    (hs : r.stamps = some s) : preImuEvaluate g ⟨T, some b, dir, st⟩ r =
      .ok ⟨gMatrix g (durOf r.stamps) * T * (r.value0 * se23Exp (r.jac.act ![b.1 - r.bias.1, b.2 - r.bias.2])), some b, dir, st⟩ := by
  obtain ⟨V, bias, nb, stamps, cov, jac, Q'⟩ := r
  simp only at hs
  subst hs
  rfl

theorem preImuJacobian_ok (g : Vec 3) (T : EPose) (b : Vec 3 × Vec 3) (dir : Dir) (st : Option ℝ) (r : ImuInc) (s : ℝ × ℝ)
    (hs : r.stamps = some s) : preImuJacobian g ⟨T, some b, dir, st⟩ r =
      .ok (imuPhi dir g T (r.value0 * se23Exp (r.jac.act ![b.1 - r.bias.1, b.2 - r.bias.2])) (durOf r.stamps)
        (se23RightJac (r.jac.act ![b.1 - r.bias.1, b.2 - r.bias.2]) * r.jac)) := by
  obtain ⟨V, bias, nb, stamps, cov, jac, Q'⟩ := r
  simp only at hs
  subst hs
  cases dir
  · rfl
  · show Except.ok (withBias _ (_ * _ * _)) = Except.ok (withBias _ (_ * (_ * _)))
    rw [Matrix.mul_assoc]
    rfl

/-- **C81, Jacobian.** For every reachable increment and every state (its biases need not be those of the increment) the matrix
returned by `jacobian` is the derivative of `evaluate` in every direction of the error state, in both perturbation conventions.
(`tangent` is the derivative of `plus`, see `tangent_plus`.) -/
theorem C81_jacobian (tol : ℝ) (g : Vec 3) (T : EPose) (hT : IsSE23 T) (bg ba : Vec 3) (dir : Dir) (st : Option ℝ) (r : ImuInc)
    (hr : Reached tol r) (dx : Fin 5 → Vec 3) :
    ∃ (F : Blk 5 5) (Y : ℝ → ImuSt), preImuJacobian g ⟨T, some (bg, ba), dir, st⟩ r = .ok F ∧
      (∀ s, preImuEvaluate g (ImuSt.plus ⟨T, some (bg, ba), dir, st⟩ fun i => s • dx i) r = .ok (Y s)) ∧
      HasMatDeriv (fun s => (Y s).pose) (tangent dir (Y 0).pose fun k => F.act dx (Fin.castLE (by omega) k)) 0 ∧
      ∀ s, (Y s).bias = some (bg + s • F.act dx 3, ba + s • F.act dx 4) := by
  obtain ⟨hf, s0, hs⟩ := hr.form
  refine ⟨_, fun s => ⟨gMatrix g (durOf r.stamps) * posePlus dir T (fun i => s • ![dx 0, dx 1, dx 2] i) * (r.value0 *
    se23Exp fun i => r.jac.act ![bg - r.bias.1, ba - r.bias.2] i + s • r.jac.act ![dx 3, dx 4] i),
    some (bg + s • dx 3, ba + s • dx 4), dir, st⟩, preImuJacobian_ok g T (bg, ba) dir st r s0 hs, ?_, ?_, ?_⟩
  · intro s
    rw [plus_pose, preImuEvaluate_ok _ _ _ _ _ _ s0 hs]
    have e1 : (![s • dx 0, s • dx 1, s • dx 2] : Fin 3 → Vec 3) = fun i => s • ![dx 0, dx 1, dx 2] i := by
      funext i; fin_cases i <;> rfl
    have e2 : (![bg + s • dx 3 - r.bias.1, ba + s • dx 4 - r.bias.2] : Fin 2 → Vec 3) =
        fun i => ![bg - r.bias.1, ba - r.bias.2] i + s • ![dx 3, dx 4] i := by
      funext i; fin_cases i
      · exact add_sub_right_comm bg (s • dx 3) r.bias.1
      · exact add_sub_right_comm ba (s • dx 4) r.bias.2
    rw [e1]
    simp only [e2]
    rw [Blk.act_add, Blk.act_smul]
  · have hE := se23Exp_deriv (r.jac.act ![bg - r.bias.1, ba - r.bias.2]) (r.jac.act ![dx 3, dx 4])
    have hT' := tangent_plus dir T ![dx 0, dx 1, dx 2]
    have hd := ((hasMatDeriv_const (gMatrix g (durOf r.stamps)) 0).mul hT').mul ((hasMatDeriv_const r.value0 0).mul hE)
    refine hd.congr_deriv ?_
    have z1 : (fun i : Fin 3 => (0 : ℝ) • (![dx 0, dx 1, dx 2] : Fin 3 → Vec 3) i) = ![0, 0, 0] := by
      funext i; fin_cases i <;> simp
    have z2 : (fun i : Fin 3 => r.jac.act ![bg - r.bias.1, ba - r.bias.2] i + (0 : ℝ) • r.jac.act ![dx 3, dx 4] i) =
        r.jac.act ![bg - r.bias.1, ba - r.bias.2] := by
      funext i; simp
    simp only [z1, z2, posePlus_zero]
    generalize hu : r.jac.act ![bg - r.bias.1, ba - r.bias.2] = υ
    have hDU : IsIE (r.value0 * se23Exp υ) := hf.isIE.mul (se23Exp_isSE23 υ).isIE
    have hP : IsSE23 (gMatrix g (durOf r.stamps) * T * (r.value0 * se23Exp υ)) := by
      rw [← mul_assoc]
      obtain ⟨R, v, p, hR, h⟩ := hf.pose g T hT
      obtain ⟨R', v', p', hR', h'⟩ := se23Exp_isSE23 υ
      rw [h, h', mkIE_mul]
      simp only [zero_smul, add_zero]
      exact ⟨_, _, _, hR.mul hR', rfl⟩
    have hG := isIE_gMatrix g (durOf r.stamps)
    have hη : (se23LeftJac fun i => -υ i).act (r.jac.act ![dx 3, dx 4]) = Blk.act (se23RightJac υ * r.jac) ![dx 3, dx 4] := by
      rw [Blk.act_mul]; rfl
    rw [hη, Matrix.zero_mul, zero_add, Matrix.zero_mul, zero_add]
    generalize hK : (se23RightJac υ * r.jac : Blk 3 2) = K
    cases dir
    · have e : (fun k : Fin 3 => Blk.act (imuPhi .right g T (r.value0 * se23Exp υ) (durOf r.stamps) K) dx (Fin.castLE (by omega) k)) =
          fun k => (adjointIE3 (inverseIE3 (r.value0 * se23Exp υ))).act ![dx 0, dx 1, dx 2] k + Blk.act K ![dx 3, dx 4] k := by
        simp only [imuPhi]
        rw [withBias_act]
        funext k; fin_cases k <;> rfl
      rw [e]
      simp only [tangent]
      rw [se23Wedge_add, ← C60_adjoint _ hDU.inv, hDU.inv_inv, mul_add]
      have k : ∀ G D W : EPose, IsIE D → G * (T * W) * D = G * T * D * (inverseIE3 D * W * D) := by
        intro G D W hD
        rw [mul_assoc (G * T), ← mul_assoc D, ← mul_assoc D, hD.mul_inv, one_mul]
        simp only [mul_assoc]
      congr 1
      · exact k _ _ _ hDU
      · simp only [mul_assoc]
    · have e : (fun k : Fin 3 => Blk.act (imuPhi .left g T (r.value0 * se23Exp υ) (durOf r.stamps) K) dx (Fin.castLE (by omega) k)) =
          fun k => (adjointIE3 (gMatrix g (durOf r.stamps))).act ![dx 0, dx 1, dx 2] k +
            Blk.act (se23Adjoint (gMatrix g (durOf r.stamps) * T * (r.value0 * se23Exp υ)) * K) ![dx 3, dx 4] k := by
        simp only [imuPhi]
        rw [withBias_act]
        funext k; fin_cases k <;> rfl
      rw [e]
      simp only [tangent]
      rw [se23Wedge_add, Blk.act_mul, ← C60_adjoint _ hG, se23Adjoint_eq hP, ← C60_adjoint _ hP.isIE, add_mul]
      congr 1
      · simp only [mul_assoc]
        rw [← mul_assoc (inverseIE3 (gMatrix g (durOf r.stamps))), hG.inv_mul, one_mul]
      · rw [mul_assoc (gMatrix g (durOf r.stamps) * T * (r.value0 * se23Exp υ) * _), hP.isIE.inv_mul, mul_one]
        simp only [mul_assoc]
  · intro s
    cases dir
    · simp only [imuPhi]
      rw [withBias_act]
      rfl
    · simp only [imuPhi]
      rw [withBias_act]
      rfl

/-- **C81, noise.** The covariance is `L Σ Lᵀ` with `Σ` the covariance of the increment and `L` the matrix by which noise on the
value of the increment (`rmi.plus(w)`) moves the prediction, exactly and in both perturbation conventions. -/
theorem C81_noise (tol : ℝ) (g : Vec 3) (T : EPose) (hT : IsSE23 T) (bg ba : Vec 3) (dir : Dir) (st : Option ℝ) (r : ImuInc)
    (hr : Reached tol r) :
    ∃ (L : Blk 5 5) (y : ImuSt), preImuCovariance g ⟨T, some (bg, ba), dir, st⟩ r = .ok (L * r.cov * L.T) ∧
      preImuEvaluate g ⟨T, some (bg, ba), dir, st⟩ r = .ok y ∧
      ∀ w : Fin 5 → Vec 3, w 3 = 0 → w 4 = 0 →
        preImuEvaluate g ⟨T, some (bg, ba), dir, st⟩ (r.plus w) = .ok (y.plus (L.act w)) := by
  obtain ⟨hf, s0, hs⟩ := hr.form
  have hr2 : r.cov = (r.copy.updateBias (bg, ba)).cov := rfl
  generalize hu : r.jac.act ![bg - r.bias.1, ba - r.bias.2] = υ
  have hneg : se23Exp (fun i => -υ i) = inverseIE3 (se23Exp υ) := by
    rw [← (se23Exp_isSE23 υ).isIE.inv_eq]
    have : (se23Wedge fun i => -υ i) = -se23Wedge υ := se23WedgeL.map_neg (fun k => υ k.1 k.2)
    unfold se23Exp
    rw [this]
    exact Matrix.exp_neg _
  have hSE : IsSE23 (se23Exp fun i => -υ i) := se23Exp_isSE23 _
  have hE : ∀ w : Fin 3 → Vec 3, se23Exp w * se23Exp υ = se23Exp υ * se23Exp ((se23Adjoint (se23Exp fun i => -υ i)).act w) := by
    intro w
    rw [se23Adjoint_eq hSE, hneg, ← se23Exp_mul_right _ (se23Exp_isSE23 υ).isIE]
  have hP : IsSE23 (gMatrix g (durOf r.stamps) * T * (r.value0 * se23Exp υ)) := by
    rw [← mul_assoc]
    obtain ⟨R, v, p, hR, h⟩ := hf.pose g T hT
    obtain ⟨R', v', p', hR', h'⟩ := se23Exp_isSE23 υ
    rw [h, h', mkIE_mul]
    simp only [zero_smul, add_zero]
    exact ⟨_, _, _, hR.mul hR', rfl⟩
  have hev : ∀ w : Fin 5 → Vec 3, preImuEvaluate g ⟨T, some (bg, ba), dir, st⟩ (r.plus w) =
      .ok ⟨gMatrix g (durOf r.stamps) * T * (r.value0 * se23Exp ![w 0, w 1, w 2] * se23Exp υ), some (bg, ba), dir, st⟩ := by
    intro w
    rw [preImuEvaluate_ok g T (bg, ba) dir st (r.plus w) s0 hs, ← hu]
    rfl
  have h00 : (0 : Blk 3 2).act ![0, 0] = fun _ => 0 := by funext i; simp [Blk.act]
  have e3 : ∀ v : Fin 3 → Vec 3, ![v 0 + 0, v 1 + 0, v 2 + 0] = v := by intro v; funext i; fin_cases i <;> simp
  have fin : ∀ (M : Blk 3 3), (∀ ξ, posePlus dir (gMatrix g (durOf r.stamps) * T * (r.value0 * se23Exp υ)) (M.act ξ) =
      gMatrix g (durOf r.stamps) * T * (r.value0 * se23Exp υ) * se23Exp ((se23Adjoint (se23Exp fun i => -υ i)).act ξ)) →
      ∀ w : Fin 5 → Vec 3, w 3 = 0 → w 4 = 0 → preImuEvaluate g ⟨T, some (bg, ba), dir, st⟩ (r.plus w) =
        .ok (ImuSt.plus ⟨gMatrix g (durOf r.stamps) * T * (r.value0 * se23Exp υ), some (bg, ba), dir, st⟩ ((withBias M 0).act w)) := by
    intro M hM w h3 h4
    rw [hev, withBias_act, plus_pose, h3, h4, h00]
    have := hM ![w 0, w 1, w 2]
    rw [← e3 (M.act ![w 0, w 1, w 2])] at this
    have h5 : posePlus dir (gMatrix g (durOf r.stamps) * T * (r.value0 * se23Exp υ)) ![M.act ![w 0, w 1, w 2] 0 + 0,
      M.act ![w 0, w 1, w 2] 1 + 0, M.act ![w 0, w 1, w 2] 2 + 0] = gMatrix g (durOf r.stamps) * T * (r.value0 * se23Exp ![w 0, w 1, w 2] * se23Exp υ) := by
      rw [this, mul_assoc r.value0, hE]
      simp only [mul_assoc]
    rw [← h5]
    have hb : some (bg, ba) = some (bg + 0, ba + 0) := by rw [add_zero, add_zero]
    rw [hb]
    rfl
  have hev0 : preImuEvaluate g ⟨T, some (bg, ba), dir, st⟩ r =
      .ok ⟨gMatrix g (durOf r.stamps) * T * (r.value0 * se23Exp υ), some (bg, ba), dir, st⟩ := by
    rw [preImuEvaluate_ok _ _ _ _ _ _ s0 hs, ← hu]
  cases dir
  · refine ⟨withBias (se23Adjoint (se23Exp fun i => -υ i)) 0, _, ?_, hev0, fin _ fun ξ => rfl⟩
    subst hu
    obtain ⟨V, bias, nb, stamps, cov, jac, Q'⟩ := r
    simp only at hs
    subst hs
    rfl
  · refine ⟨withBias (se23Adjoint (gMatrix g (durOf r.stamps) * T * (r.value0 * se23Exp υ)) *
      se23Adjoint (se23Exp fun i => -υ i)) 0, _, ?_, hev0, fin _ fun ξ => ?_⟩
    · subst hu
      obtain ⟨V, bias, nb, stamps, cov, jac, Q'⟩ := r
      simp only at hs
      subst hs
      rfl
    · show se23Exp (Blk.act (_ * _) ξ) * _ = _
      rw [Blk.act_mul, se23Adjoint_eq hP, ← se23Exp_mul_left _ hP.isIE]

end Verif
