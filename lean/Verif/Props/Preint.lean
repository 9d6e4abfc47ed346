import Verif.Model.Preint
import Verif.Props.Group

/-!
Preintegration of body-frame velocities (`navlie/lib/preintegration.py:334-546`): C61 and C80.
-/

namespace Verif

open Matrix NormedSpace

set_option linter.unusedVariables false
set_option linter.unusedSectionVars false

variable {ι κ : Type} [Fintype ι] [DecidableEq ι] [Fintype κ] [DecidableEq κ] {G : MLG ι κ}
  {mem : Matrix ι ι ℝ → Prop} {ad : (κ → ℝ) → Matrix κ κ ℝ}

/-- Specification: a filter prediction, one `BodyFrameVelocity` step per input with the bias subtracted. The state, the product of
the step Jacobians and the covariance. -/
noncomputable def bvSteps (G : MLG ι κ) (Q : Matrix κ κ ℝ) (b : κ → ℝ) (s : GSt ι × Matrix κ κ ℝ × Matrix κ κ ℝ)
    (l : List (VIn κ)) : GSt ι × Matrix κ κ ℝ × Matrix κ κ ℝ :=
  l.foldl (fun s i =>
    (bfvEvaluate G s.1 (i.u - b) i.dt,
     bfvJacobian G s.1 (i.u - b) i.dt * s.2.1,
     bfvJacobian G s.1 (i.u - b) i.dt * s.2.2 * (bfvJacobian G s.1 (i.u - b) i.dt)ᵀ + bfvCovariance G Q s.1 (i.u - b) i.dt)) s

theorem symm_of_symm {P : Matrix κ κ ℝ} (h : Pᵀ = P) : symm P = P := by
  unfold symm
  rw [h, ← two_smul ℝ P, smul_smul]
  norm_num

theorem conj_symm (A : Matrix κ κ ℝ) {P : Matrix κ κ ℝ} (h : Pᵀ = P) : (A * P * Aᵀ)ᵀ = A * P * Aᵀ := by
  rw [transpose_mul, transpose_mul, transpose_transpose, h, Matrix.mul_assoc]

theorem sum_symm (A L : Matrix κ κ ℝ) {C Q : Matrix κ κ ℝ} (hC : Cᵀ = C) (hQ : Qᵀ = Q) :
    (A * C * Aᵀ + L * Q * Lᵀ)ᵀ = A * C * Aᵀ + L * Q * Lᵀ := by
  rw [transpose_add, conj_symm _ hC, conj_symm _ hQ]

/-- What the invariants of an increment with unchanged bias are. -/
structure BvOk (mem : Matrix ι ι ℝ → Prop) (Q : Matrix κ κ ℝ) (b : κ → ℝ) (r : BvInc ι κ) : Prop where
  mem : mem r.value0
  bias : r.bias = b
  newBias : r.newBias = b
  Q : r.Q = .one Q
  symm : r.covᵀ = r.cov

theorem BvOk.value (h : G.Laws mem ad) {Q : Matrix κ κ ℝ} {b : κ → ℝ} {r : BvInc ι κ} (hr : BvOk mem Q b r) : r.value G = r.value0 := by
  unfold BvInc.value
  rw [hr.bias, hr.newBias, sub_self, mulVec_zero, h.Exp_zero, mul_one]

theorem BvOk.increment (h : G.Laws mem ad) {Q : Matrix κ κ ℝ} (hQ : Qᵀ = Q) {b : κ → ℝ} {r : BvInc ι κ} (hr : BvOk mem Q b r)
    (u : κ → ℝ) (st : Option ℝ) (dt : ℝ) (s : ℝ × ℝ) (hs : incStamps r.stamps st dt = .ok s) :
    ∃ r', r.increment G u st dt = .ok r' ∧ BvOk mem Q b r' ∧ r'.stamps = some s ∧
      r'.value0 = r.value0 * G.Exp (dt • (u - b)) ∧
      r'.cov = G.adjoint (G.inverse (G.Exp (dt • (u - b)))) * r.cov * (G.adjoint (G.inverse (G.Exp (dt • (u - b)))))ᵀ +
        (dt • G.leftJac (dt • -(u - b))) * Q * (dt • G.leftJac (dt • -(u - b)))ᵀ ∧
      r'.jac = G.adjoint (G.inverse (G.Exp (dt • (u - b)))) * r.jac + dt • G.leftJac (dt • -(u - b)) := by
  have hsy := sum_symm (G.adjoint (G.inverse (G.Exp (dt • (u - b))))) (dt • G.leftJac (dt • -(u - b))) hr.symm hQ
  have e : r.increment G u st dt = .ok { r with
      value0 := r.value0 * G.Exp (dt • (u - b))
      stamps := some s
      cov := Verif.symm (G.adjoint (G.inverse (G.Exp (dt • (u - b)))) * r.cov * (G.adjoint (G.inverse (G.Exp (dt • (u - b)))))ᵀ +
        (dt • G.leftJac (dt • -(u - b))) * Q * (dt • G.leftJac (dt • -(u - b)))ᵀ)
      jac := G.adjoint (G.inverse (G.Exp (dt • (u - b)))) * r.jac + dt • G.leftJac (dt • -(u - b)) } := by
    unfold BvInc.increment
    rw [hs]
    simp only [hr.Q, hr.bias]
    rfl
  refine ⟨_, e, ⟨h.mem_mul _ _ hr.mem (h.mem_exp _), hr.bias, hr.newBias, hr.Q, ?_⟩, rfl, rfl, symm_of_symm hsy, rfl⟩
  show (Verif.symm _)ᵀ = Verif.symm _
  rw [symm_of_symm hsy, hsy]

/-- The preintegrated prediction, with unchanged bias, as one map on states, Jacobians and covariances. -/
noncomputable def bvPre (G : MLG ι κ) (r : BvInc ι κ) (x : GSt ι) (P : Matrix κ κ ℝ) :
    GSt ι × Matrix κ κ ℝ × Matrix κ κ ℝ :=
  match x.dir with
  | .right => ({ x with value := x.value * r.value0 }, G.adjoint (G.inverse r.value0),
      G.adjoint (G.inverse r.value0) * P * (G.adjoint (G.inverse r.value0))ᵀ + r.cov)
  | .left => ({ x with value := x.value * r.value0 }, 1,
      P + G.adjoint (x.value * r.value0) * r.cov * (G.adjoint (x.value * r.value0))ᵀ)

theorem bvPre_step (h : G.Laws mem ad) {Q : Matrix κ κ ℝ} {b : κ → ℝ} {r r' : BvInc ι κ} (hr : mem r.value0) (x : GSt ι)
    (hx : mem x.value) (P : Matrix κ κ ℝ) (i : VIn κ)
    (hv : r'.value0 = r.value0 * G.Exp (i.dt • (i.u - b)))
    (hc : r'.cov = G.adjoint (G.inverse (G.Exp (i.dt • (i.u - b)))) * r.cov * (G.adjoint (G.inverse (G.Exp (i.dt • (i.u - b)))))ᵀ +
        (i.dt • G.leftJac (i.dt • -(i.u - b))) * Q * (i.dt • G.leftJac (i.dt • -(i.u - b)))ᵀ) :
    bvPre G r' x P = bvSteps G Q b (bvPre G r x P) [i] := by
  obtain ⟨X, dir, st⟩ := x
  obtain ⟨u, us, dt⟩ := i
  simp only at hv hc hx
  unfold bvSteps
  simp only [List.foldl]
  have hE := h.mem_exp (dt • (u - b))
  have hU : G.adjoint (G.inverse (G.Exp (dt • (u - b)))) = G.adjoint (G.Exp (dt • -(u - b))) := by rw [h.inv_exp, ← smul_neg]
  cases dir
  · unfold bvPre bfvEvaluate bfvJacobian bfvCovariance bfvNoise
    simp only [Prod.mk.injEq, GSt.mk.injEq, and_true]
    have hJ : G.adjoint (G.inverse r'.value0) = G.adjoint (G.Exp (dt • -(u - b))) * G.adjoint (G.inverse r.value0) := by
      rw [hv, h.inv_mul_rev hr hE, h.adjoint_mul (h.mem_inv _ hE) (h.mem_inv _ hr), hU]
    refine ⟨by rw [hv, mul_assoc], hJ, ?_⟩
    rw [hJ, hc, hU, transpose_mul]
    noncomm_ring
  · unfold bvPre bfvEvaluate bfvJacobian bfvCovariance bfvNoise
    simp only [Prod.mk.injEq, GSt.mk.injEq, and_true, one_mul, mul_one, transpose_one]
    refine ⟨by rw [hv, mul_assoc], trivial, ?_⟩
    have hXV : mem (X * r.value0) := h.mem_mul _ _ hx hr
    have hA : G.adjoint (X * r'.value0) = G.adjoint (X * r.value0) * G.adjoint (G.Exp (dt • (u - b))) := by
      rw [hv, ← mul_assoc, h.adjoint_mul hXV hE]
    have hAA : G.adjoint (G.Exp (dt • (u - b))) * G.adjoint (G.inverse (G.Exp (dt • (u - b)))) = 1 := h.adjoint_mul_inv hE
    have hA' : G.adjoint (X * r'.value0) * G.adjoint (G.inverse (G.Exp (dt • (u - b)))) = G.adjoint (X * r.value0) := by
      rw [hA, mul_assoc, hAA, mul_one]
    have hAt := congrArg Matrix.transpose hA'
    rw [transpose_mul] at hAt
    rw [show X * r.value0 * G.Exp (dt • (u - b)) = X * r'.value0 by rw [hv, mul_assoc]]
    rw [hc, mul_add, add_mul, add_assoc]
    congr 2
    · calc G.adjoint (X * r'.value0) * (G.adjoint (G.inverse (G.Exp (dt • (u - b)))) * r.cov *
            (G.adjoint (G.inverse (G.Exp (dt • (u - b)))))ᵀ) * (G.adjoint (X * r'.value0))ᵀ
          = (G.adjoint (X * r'.value0) * G.adjoint (G.inverse (G.Exp (dt • (u - b))))) * r.cov *
            ((G.adjoint (G.inverse (G.Exp (dt • (u - b)))))ᵀ * (G.adjoint (X * r'.value0))ᵀ) := by noncomm_ring
        _ = _ := by rw [hA', hAt]
    · have : (dt • G.adjoint (X * r'.value0)) * G.leftJac (dt • -(u - b)) =
          G.adjoint (X * r'.value0) * (dt • G.leftJac (dt • -(u - b))) := by
        rw [smul_mul_assoc, Matrix.mul_smul]
      rw [this, transpose_mul]
      noncomm_ring

/-- Every increment after the first input succeeds, and extends the interval. -/
theorem bv_all (h : G.Laws mem ad) {Q : Matrix κ κ ℝ} (hQ : Qᵀ = Q) {b : κ → ℝ} (l : List (VIn κ)) :
    ∀ (r : BvInc ι κ), BvOk mem Q b r → (r.stamps = none → ∀ i ∈ l.head?, i.stamp.isSome) →
    ∃ r', r.incrementAll G l = .ok r' ∧ BvOk mem Q b r' ∧
      (∀ x P, mem x.value → bvPre G r' x P = bvSteps G Q b (bvPre G r x P) l) ∧
      (∀ s, r.stamps = some s → r'.stamps = some (s.1, s.2 + (l.map VIn.dt).sum)) ∧
      (r.stamps = none → ∀ i rest t, l = i :: rest → i.stamp = some t → r'.stamps = some (t, t + (l.map VIn.dt).sum)) ∧
      (l = [] → r' = r) := by
  induction l with
  | nil =>
    intro r hr _
    exact ⟨r, rfl, hr, fun x P _ => rfl, fun s e => by simp [e], fun _ i rest t e => by simp at e, fun _ => rfl⟩
  | cons i l ih =>
    intro r hr hst
    have hs : ∃ s, incStamps r.stamps i.stamp i.dt = .ok s ∧
        (∀ p, r.stamps = some p → s = (p.1, p.2 + i.dt)) ∧ (r.stamps = none → ∀ t, i.stamp = some t → s = (t, t + i.dt)) := by
      cases e : r.stamps with
      | some p => exact ⟨(p.1, p.2 + i.dt), rfl, fun q e => by rw [Option.some.inj e], fun e => by simp at e⟩
      | none =>
        have := hst e i (by simp)
        obtain ⟨t, ht⟩ := Option.isSome_iff_exists.1 this
        exact ⟨(t, t + i.dt), by rw [ht]; rfl, fun q e => by simp at e, fun _ t' e => by rw [ht] at e; rw [Option.some.inj e]⟩
    obtain ⟨s, hs1, hs2, hs3⟩ := hs
    obtain ⟨r1, h1, hr1, hst1, hv, hc, hj⟩ := hr.increment h hQ i.u i.stamp i.dt s hs1
    obtain ⟨r', h2, hr', hp, hq, _, hnil⟩ := ih r1 hr1 (fun e => by rw [hst1] at e; simp at e)
    refine ⟨r', ?_, hr', ?_, ?_, ?_, fun e => by simp at e⟩
    · show (r.increment G i.u i.stamp i.dt >>= fun r1 => r1.incrementAll G l) = _
      rw [h1]
      exact h2
    · intro x P hx
      rw [hp x P hx, bvPre_step h hr.mem x hx P i hv hc]
      rfl
    · intro p e
      rw [hq s hst1, hs2 p e]
      simp [add_assoc]
    · intro e j rest t el et
      obtain ⟨rfl, rfl⟩ := List.cons.inj el
      rw [hq s hst1, hs3 e t et]
      simp [add_assoc]

theorem bvOk_new (h : G.Laws mem ad) (Q : Matrix κ κ ℝ) (bias : Option (κ → ℝ)) :
    BvOk mem Q (bias.getD 0) (bvNew (ι := ι) (.one Q) bias) :=
  ⟨h.mem_one, rfl, rfl, rfl, by simp [bvNew]⟩

theorem bvPre_new (h : G.Laws mem ad) (Q : Matrix κ κ ℝ) (bias : Option (κ → ℝ)) (x : GSt ι) (P : Matrix κ κ ℝ) :
    bvPre G (bvNew (.one Q) bias) x P = (x, 1, P) := by
  obtain ⟨X, dir, st⟩ := x
  cases dir <;> simp [bvPre, bvNew, h.inv_one, h.adjoint_one]

/-- C61, body-frame velocities: predicting with a preintegrated increment is predicting step by step. For any list of inputs, any
state and any prior covariance, in both perturbation directions: the state is the same, the Jacobian is the product of the step
Jacobians, and the predicted covariance is the same. The stamp becomes the first input's stamp plus the durations. -/
theorem C61_body_velocity (h : G.Laws mem ad) (Q : Matrix κ κ ℝ) (hQ : Qᵀ = Q) (bias : Option (κ → ℝ)) (l : List (VIn κ))
    (hl : ∀ i ∈ l.head?, i.stamp.isSome) (x : GSt ι) (hx : mem x.value) (P : Matrix κ κ ℝ) :
    ∃ (r : BvInc ι κ) (J C : Matrix κ κ ℝ), (bvNew (.one Q) bias).incrementAll G l = .ok r ∧
      (bvEvaluate G x r).value = (bvSteps G Q (bias.getD 0) (x, 1, P) l).1.value ∧
      (bvEvaluate G x r).dir = x.dir ∧
      (l = [] → (bvEvaluate G x r).stamp = x.stamp) ∧
      (∀ i rest t, l = i :: rest → i.stamp = some t → (bvEvaluate G x r).stamp = some (t + (l.map VIn.dt).sum)) ∧
      bvJacobian G x r = .ok (.inl J) ∧ J = (bvSteps G Q (bias.getD 0) (x, 1, P) l).2.1 ∧
      bvCovariance G x r = .ok C ∧ J * P * Jᵀ + C = (bvSteps G Q (bias.getD 0) (x, 1, P) l).2.2 := by
  obtain ⟨r, h1, hr, hp, _, hs, hnil⟩ := bv_all h hQ l (bvNew (ι := ι) (.one Q) bias) (bvOk_new h Q bias) (fun _ => hl)
  have hv := hr.value h
  have e := hp x P hx
  rw [bvPre_new h] at e
  rw [← e]
  obtain ⟨X, dir, st⟩ := x
  have hst1 : l = [] → (bvEvaluate G ⟨X, dir, st⟩ r).stamp = st := by
    intro hl'
    rw [hnil hl']
    rfl
  have hst2 : ∀ i rest t, l = i :: rest → i.stamp = some t →
      (bvEvaluate G ⟨X, dir, st⟩ r).stamp = some (t + (l.map VIn.dt).sum) := by
    intro i rest t el et
    unfold bvEvaluate
    rw [hs rfl i rest t el et]
  cases dir
  · refine ⟨r, G.adjoint (G.inverse r.value0), r.cov, h1, ?_, rfl, hst1, hst2, ?_, rfl, ?_, rfl⟩
    · show X * r.value G = _
      rw [hv]; rfl
    · unfold bvJacobian; rw [hr.Q, hv]
    · unfold bvCovariance; rw [hr.Q]; simp
  · refine ⟨r, 1, G.adjoint (X * r.value0) * r.cov * (G.adjoint (X * r.value0))ᵀ, h1, ?_, rfl, hst1, hst2, ?_, rfl, ?_, ?_⟩
    · show X * r.value G = _
      rw [hv]; rfl
    · unfold bvJacobian; rw [hr.Q]
    · unfold bvCovariance; rw [hr.Q, hv]
    · simp [bvPre]

/-- C61: the value of the increment is the documented product of exponentials. -/
theorem C61_body_velocity_value (h : G.Laws mem ad) (Q : Matrix κ κ ℝ) (hQ : Qᵀ = Q) (bias : Option (κ → ℝ)) (l : List (VIn κ))
    (hl : ∀ i ∈ l.head?, i.stamp.isSome) :
    ∃ r : BvInc ι κ, (bvNew (.one Q) bias).incrementAll G l = .ok r ∧
      r.value G = (l.map fun i => G.Exp (i.dt • (i.u - bias.getD 0))).prod := by
  obtain ⟨r, J, C, h1, h2, _⟩ := C61_body_velocity h Q hQ bias l hl ⟨1, .right, none⟩ h.mem_one 0
  refine ⟨r, h1, ?_⟩
  have e : ∀ (l : List (VIn κ)) (s : GSt ι × Matrix κ κ ℝ × Matrix κ κ ℝ), (bvSteps G Q (bias.getD 0) s l).1.value =
      s.1.value * (l.map fun i => G.Exp (i.dt • (i.u - bias.getD 0))).prod := by
    intro l
    induction l with
    | nil => intro s; simp [bvSteps]
    | cons i l ih =>
      intro s
      have := ih (bvSteps G Q (bias.getD 0) s [i])
      rw [List.map_cons, List.prod_cons, ← mul_assoc]
      exact this
  rw [e] at h2
  simpa [bvEvaluate] using h2

/-- C61: the first input needs a stamp. -/
theorem C61_body_velocity_stamp (Q : BvQ κ) (bias : Option (κ → ℝ)) (i : VIn κ) (hi : i.stamp = none) (l : List (VIn κ)) :
    (bvNew (ι := ι) Q bias).incrementAll G (i :: l) = .error .typeError := by
  show ((bvNew (ι := ι) Q bias).increment G i.u i.stamp i.dt >>= fun r1 => r1.incrementAll G l) = _
  rw [hi]
  rfl

/-- C61: an increment built with a covariance that also has the bias walk, as the process model expects for a state with bias,
cannot take any input; nor can one with a covariance of any other size, which also makes the process model raise. -/
theorem C61_bias_covariance_unusable (Q : BvQ κ) (hQ : ∀ Q', Q ≠ .one Q') (bias : Option (κ → ℝ)) (i : VIn κ) (t : ℝ)
    (hi : i.stamp = some t) (l : List (VIn κ)) (x : GSt ι) :
    (bvNew (ι := ι) Q bias).incrementAll G (i :: l) = .error .valueError ∧
    bvCovariance G x (bvNew Q bias) = .error .valueError := by
  constructor
  · show ((bvNew (ι := ι) Q bias).increment G i.u i.stamp i.dt >>= fun r1 => r1.incrementAll G l) = _
    rw [hi]
    cases Q with
    | one Q' => exact absurd rfl (hQ Q')
    | two Q' => rfl
    | other => rfl
  · cases Q with
    | one Q' => exact absurd rfl (hQ Q')
    | two Q' => rfl
    | other => rfl

/-- C61: noise added to the increment moves the prediction by the covariance's Jacobian: identity (right), `Ad(T_j)` (left). -/
theorem C61_body_velocity_noise (h : G.Laws mem ad) (Q : Matrix κ κ ℝ) (b : κ → ℝ) (r : BvInc ι κ) (hr : BvOk mem Q b r)
    (x : GSt ι) (hx : mem x.value) (w : κ → ℝ) :
    ∃ L : Matrix κ κ ℝ, bvCovariance G x r = .ok (L * r.cov * Lᵀ) ∧
      bvEvaluate G x (r.plus G w) = (bvEvaluate G x r).plus G (L *ᵥ w) := by
  obtain ⟨X, dir, st⟩ := x
  have hv := hr.value h
  have hv' : (r.plus G w).value G = r.value0 * G.Exp w := by
    unfold BvInc.value BvInc.plus BvInc.copy BvInc.new bvNew
    simp only [Option.getD_some, sub_self, mulVec_zero, h.Exp_zero, mul_one]
  cases dir
  · refine ⟨1, by unfold bvCovariance; rw [hr.Q], ?_⟩
    unfold bvEvaluate GSt.plus
    rw [hv, hv', one_mulVec, mul_assoc]
    rfl
  · refine ⟨G.adjoint (X * r.value0), by unfold bvCovariance; rw [hr.Q, hv], ?_⟩
    unfold bvEvaluate GSt.plus
    rw [hv, hv', ← mul_assoc, h.mul_Exp (h.mem_mul _ _ hx hr.mem)]
    rfl

/-- Non-vacuity of C61: two inputs on SE(3). -/
example : ∃ (Q : Matrix (Fin 3 ⊕ Fin 3) (Fin 3 ⊕ Fin 3) ℝ) (l : List (VIn (Fin 3 ⊕ Fin 3))) (x : GSt (Fin 3 ⊕ Fin 1)),
    Qᵀ = Q ∧ l.length = 2 ∧ (∀ i ∈ l.head?, i.stamp.isSome) ∧ IsSE3 x.value :=
  ⟨1, [⟨fun _ => 1, some 0, 1⟩, ⟨fun _ => 2, some 1, 1⟩], ⟨1, .left, none⟩, by simp, rfl, by simp, se3_laws.mem_one⟩

/-! ### C80: correcting a body-velocity increment for a new bias -/

/-- The increment built from the inputs with a given bias: the value and the stored Jacobian. -/
theorem bv_jac (h : G.Laws mem ad) {Q : Matrix κ κ ℝ} (hQ : Qᵀ = Q) {b : κ → ℝ} (δ : κ → ℝ) (l : List (VIn κ)) :
    ∀ (r : ℝ → BvInc ι κ), (∀ s, BvOk mem Q (b + s • δ) (r s)) → (∀ s, (r s).stamps = (r 0).stamps) →
    ((r 0).stamps = none → ∀ i ∈ l.head?, i.stamp.isSome) →
    HasMatDeriv (fun s => (r s).value0) ((r 0).value0 * G.wedge (-((r 0).jac *ᵥ δ))) 0 →
    ∃ r' : ℝ → BvInc ι κ, (∀ s, (r s).incrementAll G l = .ok (r' s)) ∧ (∀ s, BvOk mem Q (b + s • δ) (r' s)) ∧
      HasMatDeriv (fun s => (r' s).value0) ((r' 0).value0 * G.wedge (-((r' 0).jac *ᵥ δ))) 0 := by
  induction l with
  | nil => intro r hr _ _ hd; exact ⟨r, fun s => rfl, hr, hd⟩
  | cons i l ih =>
    intro r hr hst hh hd
    have hs : ∃ p, incStamps (r 0).stamps i.stamp i.dt = .ok p := by
      cases e : (r 0).stamps with
      | some p => exact ⟨_, rfl⟩
      | none =>
        obtain ⟨t, ht⟩ := Option.isSome_iff_exists.1 (hh e i (by simp))
        exact ⟨(t, t + i.dt), by rw [ht]; rfl⟩
    obtain ⟨p, hp⟩ := hs
    have hinc := fun s => (hr s).increment h hQ i.u i.stamp i.dt p (by rw [hst s]; exact hp)
    choose r1 h1 hr1 hst1 hv hc hj using hinc
    have hd1 : HasMatDeriv (fun s => (r1 s).value0) ((r1 0).value0 * G.wedge (-((r1 0).jac *ᵥ δ))) 0 := by
      have e : ∀ s : ℝ, i.dt • (i.u - b) + s • (-(i.dt • δ)) = i.dt • (i.u - (b + s • δ)) := by intro s; module
      have hE := (h.Exp_deriv (i.dt • (i.u - b)) (-(i.dt • δ)))
      have hE' : HasMatDeriv (fun s : ℝ => G.Exp (i.dt • (i.u - (b + s • δ)))) _ 0 := hE.congr_fun (f := fun v => G.Exp v) e
      have hm := hd.mul hE'
      have ef : (fun s => (r1 s).value0) = fun s => (r s).value0 * G.Exp (i.dt • (i.u - (b + s • δ))) := funext hv
      rw [ef]
      refine hm.congr_deriv ?_
      have hj0 := hj 0
      have hv0 := hv 0
      simp only [zero_smul, add_zero] at hj0 hv0
      simp only [zero_smul, add_zero]
      rw [hv0, hj0, mul_assoc, h.wedge_mul (h.mem_exp _), ← mul_assoc, ← mul_assoc, ← mul_add, ← h.wedge_add]
      congr 2
      rw [add_mulVec, ← mulVec_mulVec, smul_mulVec, smul_neg, mulVec_neg, mulVec_neg, mulVec_smul, neg_add]
    obtain ⟨r', h2, hr', hd'⟩ := ih r1 hr1 (fun s => by rw [hst1, hst1]) (fun e => by rw [hst1] at e; simp at e) hd1
    refine ⟨r', fun s => ?_, hr', hd'⟩
    show ((r s).increment G i.u i.stamp i.dt >>= fun r1 => r1.incrementAll G l) = _
    rw [h1]
    exact h2 s

/-- C80: the sign of the stored bias Jacobian is wrong. The derivative, with respect to the bias, of the increment preintegrated
with that bias is `ΔU · (-J δ)^∧`; the derivative of the increment after `update_bias` is `ΔU · (+J δ)^∧`. -/
theorem C80_body_velocity_bias (h : G.Laws mem ad) (Q : Matrix κ κ ℝ) (hQ : Qᵀ = Q) (b δ : κ → ℝ) (l : List (VIn κ))
    (hl : ∀ i ∈ l.head?, i.stamp.isSome) :
    ∃ r : ℝ → BvInc ι κ, (∀ s, (bvNew (.one Q) (some (b + s • δ))).incrementAll G l = .ok (r s)) ∧
      HasMatDeriv (fun s => (r s).value G) ((r 0).value G * G.wedge (-((r 0).jac *ᵥ δ))) 0 ∧
      HasMatDeriv (fun s => ((r 0).updateBias (b + s • δ)).value G) ((r 0).value G * G.wedge ((r 0).jac *ᵥ δ)) 0 := by
  have hd0 : HasMatDeriv (fun s : ℝ => (bvNew (ι := ι) (.one Q) (some (b + s • δ))).value0)
      ((bvNew (ι := ι) (.one Q) (some (b + (0 : ℝ) • δ))).value0 *
        G.wedge (-((bvNew (ι := ι) (.one Q) (some (b + (0 : ℝ) • δ))).jac *ᵥ δ))) 0 := by
    refine (hasMatDeriv_const (1 : Matrix ι ι ℝ) 0).congr_deriv ?_
    simp [bvNew, h.wedge_zero]
  obtain ⟨r, h1, hr, hd⟩ := bv_jac h hQ (b := b) δ l (fun s => bvNew (.one Q) (some (b + s • δ))) (fun s => bvOk_new h Q (some (b + s • δ)))
    (fun s => rfl) (fun _ => hl) hd0
  have hv : ∀ s, (r s).value G = (r s).value0 := fun s => (hr s).value h
  refine ⟨r, h1, ?_, ?_⟩
  · rw [hv 0]
    refine HasMatDeriv.congr_deriv (A := fun s => (r s).value G) ?_ rfl
    rw [show (fun s => (r s).value G) = fun s => (r s).value0 from funext hv]
    exact hd
  · have hm := (hasMatDeriv_const (r 0).value0 0).mul (h.Exp_deriv_zero ((r 0).jac *ᵥ δ))
    have hb : (r 0).bias = b := by rw [(hr 0).bias, zero_smul, add_zero]
    have ef : (fun s : ℝ => ((r 0).updateBias (b + s • δ)).value G) = fun s => (r 0).value0 * G.Exp (s • (r 0).jac *ᵥ δ) := by
      funext s
      unfold BvInc.value BvInc.updateBias
      simp only [hb, add_sub_cancel_left, mulVec_smul]
    rw [ef]
    refine hm.congr_deriv ?_
    rw [hv 0, zero_mul, zero_add]

/-- C80: so `update_bias` is not even right to first order, whenever the bias matters at all. -/
theorem C80_body_velocity_bias_wrong (h : G.Laws mem ad) (Q : Matrix κ κ ℝ) (hQ : Qᵀ = Q) (b δ : κ → ℝ) (l : List (VIn κ))
    (hl : ∀ i ∈ l.head?, i.stamp.isSome) (r : BvInc ι κ) (hr : (bvNew (.one Q) (some b)).incrementAll G l = .ok r)
    (hδ : r.jac *ᵥ δ ≠ 0) :
    ¬ ∃ D : Matrix ι ι ℝ,
      (∀ r' : ℝ → BvInc ι κ, (∀ s, (bvNew (.one Q) (some (b + s • δ))).incrementAll G l = .ok (r' s)) →
        HasMatDeriv (fun s => (r' s).value G) D 0) ∧
      HasMatDeriv (fun s : ℝ => (r.updateBias (b + s • δ)).value G) D 0 := by
  rintro ⟨D, hD1, hD2⟩
  obtain ⟨r', h1, hd1, hd2⟩ := C80_body_velocity_bias h Q hQ b δ l hl
  have e0 : r' 0 = r := by
    have := h1 0
    rw [zero_smul, add_zero, hr] at this
    exact (Except.ok.inj this).symm
  rw [e0] at hd1 hd2
  have E1 : D = r.value G * G.wedge (-(r.jac *ᵥ δ)) := by ext i j; exact (hD1 r' h1 i j).unique (hd1 i j)
  have E2 : D = r.value G * G.wedge (r.jac *ᵥ δ) := by ext i j; exact (hD2 i j).unique (hd2 i j)
  obtain ⟨r2, hr2, hok, _⟩ := bv_all h hQ l (bvNew (ι := ι) (.one Q) (some b)) (bvOk_new h Q (some b)) (fun _ => hl)
  rw [hr] at hr2
  obtain rfl := Except.ok.inj hr2
  have hm : mem (r.value G) := by rw [hok.value h]; exact hok.mem
  have := h.tangent_inj .right hm (ξ := -(r.jac *ᵥ δ)) (ζ := r.jac *ᵥ δ) (E1.symm.trans E2)
  apply hδ
  have h2 : (2 : ℝ) • (r.jac *ᵥ δ) = 0 := by
    have : r.jac *ᵥ δ + r.jac *ᵥ δ = 0 := by
      nth_rewrite 1 [← this]
      simp
    rw [two_smul]; exact this
  exact (smul_eq_zero.1 h2).resolve_left two_ne_zero

/-- The hypothesis of `C80_body_velocity_bias_wrong` is met, e.g. by one second of rest on SO(3). -/
example : ∃ r, (bvNew (.one (1 : Mat 3 3)) (some 0)).incrementAll so3 [⟨0, some 0, 1⟩] = .ok r ∧ r.jac *ᵥ ![1, 0, 0] ≠ 0 := by
  refine ⟨_, rfl, ?_⟩
  simp only [bvNew, Option.getD_some, sub_zero, neg_zero, smul_zero, so3_laws.leftJac_zero, Matrix.mul_zero, zero_add, one_smul,
    one_mulVec]
  intro e
  have := congrFun e 0
  simp at this

end Verif
